import Verif.Sat.Search
import Verif.Sat.Hist

/-!
# Theories with excluded propagations

`O` behaves like `O'` except that it turns some propagations into the failure `e0`. Then every call of the core either fails with `e0` or does with `O` what it does with `O'`: to
say that a call with `O` does not fail with `e0` is to say that none of the excluded propagations happens during the call.
-/
namespace Semitone

/-- `O` is `O'` with some propagations excluded. -/
structure Guards {T : Type} (O O' : TheoryOps T) (e0 : Err) : Prop where
  ids : O.ids = O'.ids
  check : O.check = O'.check
  push : O.push = O'.push
  pop : O.pop = O'.pop
  prop : ∀ i t v p, O.propagate i t v p = .fail e0 ∨ O.propagate i t v p = O'.propagate i t v p

namespace Sat
variable {T : Type} {O O' : TheoryOps T} {e0 : Err} {E : Env}

theorem guards_pop (h : Guards O O' e0) (s : Sat T) : s.pop O = s.pop O' := by
  unfold Sat.pop; rw [h.pop]

theorem guards_popLevels (h : Guards O O' e0) (n : Nat) : ∀ s : Sat T, popLevels O n s = popLevels O' n s := by
  induction n with
  | zero => intro s; rfl
  | succ n ih =>
    intro s
    simp only [Sat.popLevels, guards_pop h]
    cases s.pop O' with
    | error e => rfl
    | ok u => exact ih u

theorem guards_popTo (h : Guards O O' e0) (n : Nat) (s : Sat T) : popTo O n s = popTo O' n s := guards_popLevels h _ _

theorem guards_resolve (h : Guards O O' e0) (s : Sat T) (cl : List Lit) : s.resolveConflict E O cl = s.resolveConflict E O' cl := by
  unfold resolveConflict
  simp only [guards_popLevels h]

theorem guards_analyze (h : Guards O O' e0) (s : Sat T) (cl : List Lit) : s.analyzeAndBackjump E O cl = s.analyzeAndBackjump E O' cl := by
  unfold analyzeAndBackjump
  simp only [guards_resolve h]

theorem guards_binds (h : Guards O O' e0) (p : Lit) : ∀ (is : List Nat) (s : Sat T), runBinds E O p is s = .error e0 ∨ runBinds E O p is s = runBinds E O' p is s := by
  intro is
  induction is with
  | nil => intro s; right; rfl
  | cons i is ih =>
    intro s
    rcases h.prop i s.th s.value p with hp | hp
    · left; simp only [runBinds, hp, runAct]
    · simp only [runBinds, hp]
      cases runAct E (O'.propagate i s.th s.value p) s with
      | error e => right; rfl
      | ok r =>
        obtain ⟨u, o⟩ := r
        cases o with
        | some cl => right; rfl
        | none => exact ih u

theorem guards_checks (h : Guards O O' e0) : ∀ (is : List Nat) (s : Sat T), runChecks O is s = runChecks O' is s := by
  intro is
  induction is with
  | nil => intro s; rfl
  | cons i is ih =>
    intro s
    simp only [runChecks, h.check, ih]

theorem guards_propLoop (h : Guards O O' e0) : ∀ (n : Nat) (s : Sat T), propLoop E O n s = .error e0 ∨ propLoop E O n s = propLoop E O' n s := by
  intro n
  induction n with
  | zero => intro s; right; rfl
  | succ n ih =>
    intro s
    cases hq : s.propQ with
    | nil =>
      simp only [propLoop, hq, guards_checks h, h.ids, guards_analyze h]
      cases runChecks O' O'.ids s with
      | error e => right; rfl
      | ok r =>
        obtain ⟨u, o⟩ := r
        cases o with
        | none => right; rfl
        | some cl =>
          simp only
          by_cases hr : u.root = true
          · right; rw [if_pos hr, if_pos hr]
          · rw [if_neg hr, if_neg hr]
            cases u.analyzeAndBackjump E O' cl with
            | error e => right; rfl
            | ok w => exact ih w
    | cons p q =>
      simp only [propLoop, hq, guards_analyze h, guards_resolve h]
      cases visit p (s.watches p) { s with propQ := q, watches := upd s.watches p [] } with
      | error e => right; rfl
      | ok r =>
        obtain ⟨u, o⟩ := r
        cases o with
        | some c =>
          simp only
          split
          · right; rfl
          · cases resolveConflict E O' { u with propQ := [] } (u.db c) with
            | error e => right; rfl
            | ok w => exact ih w
        | none =>
          simp only
          rcases guards_binds (E := E) h p (u.bounds p.var) u with hb | hb
          · left; rw [hb]
          · rw [hb]
            cases runBinds E O' p (u.bounds p.var) u with
            | error e => right; rfl
            | ok r =>
              obtain ⟨w, o⟩ := r
              cases o with
              | none => exact ih _
              | some cl =>
                simp only
                split
                · right; rfl
                · cases analyzeAndBackjump E O' { w with propQ := [] } cl with
                  | error e => right; rfl
                  | ok w => exact ih w

theorem guards_propagate (h : Guards O O' e0) (s : Sat T) : s.propagate E O = .error e0 ∨ s.propagate E O = s.propagate E O' := guards_propLoop h _ _

theorem guards_assume (h : Guards O O' e0) (s : Sat T) (p : Lit) : s.assume E O p = .error e0 ∨ s.assume E O p = s.assume E O' p := by
  unfold assume
  rw [h.push]
  split
  · right; rfl
  · split
    · right; rfl
    · simp only
      split
      · exact guards_propagate h _
      · right; rfl

theorem guards_next (h : Guards O O' e0) (s : Sat T) : s.next E O = .error e0 ∨ s.next E O = s.next E O' := by
  unfold next
  rw [guards_pop h]
  split
  · right; rfl
  · cases s.pop O' with
    | error e => right; rfl
    | ok u =>
      simp only
      cases ({ u with posted := s.decisions.map Lit.neg :: u.posted } : Sat T).record E (s.decisions.map Lit.neg) with
      | error e => right; rfl
      | ok w => exact guards_propagate h _

theorem guards_checkGo (h : Guards O O' e0) (rl : Nat) : ∀ (ls : List Lit) (s : Sat T), checkGo E O rl ls s = .error e0 ∨ checkGo E O rl ls s = checkGo E O' rl ls s := by
  intro ls
  induction ls with
  | nil => intro s; right; rfl
  | cons p ps ih =>
    intro s
    simp only [checkGo, guards_popTo h]
    rcases guards_assume (E := E) h s p with ha | ha
    · left; rw [ha]
    · rw [ha]
      cases s.assume E O' p with
      | error e => right; rfl
      | ok r =>
        obtain ⟨u, b⟩ := r
        cases b with
        | false => right; rfl
        | true =>
          simp only
          rcases guards_propagate (E := E) h u with hp | hp
          · left; rw [hp]
          · rw [hp]
            cases u.propagate E O' with
            | error e => right; rfl
            | ok r =>
              obtain ⟨w, b⟩ := r
              simp only
              split
              · right; rfl
              · exact ih w

theorem guards_check (h : Guards O O' e0) (s : Sat T) (ls : List Lit) : s.check E O ls = .error e0 ∨ s.check E O ls = s.check E O' ls := by
  simp only [check, guards_popTo h]
  rcases guards_checkGo (E := E) h s.dl ls s with hc | hc
  · left; rw [hc]
  · right; rw [hc]

theorem guards_simplify (h : Guards O O' e0) (s : Sat T) : s.simplifyDb E O = .error e0 ∨ s.simplifyDb E O = s.simplifyDb E O' := by
  unfold simplifyDb
  split
  · right; rfl
  · rcases guards_propagate (E := E) h s with hp | hp
    · left; rw [hp]
    · right; rw [hp]

/-- Every call of the core either fails with the error of the excluded propagations, or does not notice that they are excluded. -/
theorem guards_step (h : Guards O O' e0) (s : Sat T) (op : Op) : s.step E O op = .error e0 ∨ s.step E O op = s.step E O' op := by
  cases op with
  | assume p => rcases guards_assume (E := E) h s p with e | e <;> [left; right] <;> simp only [step, e, Except.map]
  | pop => right; simp only [step, guards_pop h]
  | propagate => rcases guards_propagate (E := E) h s with e | e <;> [left; right] <;> simp only [step, e, Except.map]
  | next => rcases guards_next (E := E) h s with e | e <;> [left; right] <;> simp only [step, e, Except.map]
  | check ls => rcases guards_check (E := E) h s ls with e | e <;> [left; right] <;> simp only [step, e, Except.map]
  | simplify => rcases guards_simplify (E := E) h s with e | e <;> [left; right] <;> simp only [step, e, Except.map]
  | _ => right; rfl

theorem guards_solveLoop (h : Guards O O' e0) (pick : Sat T → Option Lit) : ∀ (k : Nat) (s : Sat T),
    solveLoop E O pick k s = .error e0 ∨ solveLoop E O pick k s = solveLoop E O' pick k s := by
  intro k
  induction k with
  | zero => intro s; right; rfl
  | succ k ih =>
    intro s
    simp only [solveLoop]
    cases pick s with
    | none => right; rfl
    | some p =>
      simp only
      rcases guards_assume (E := E) h s p with ha | ha
      · left; rw [ha]
      · rw [ha]
        cases s.assume E O' p with
        | error e => right; rfl
        | ok r =>
          obtain ⟨u, b⟩ := r
          cases b with
          | false => right; rfl
          | true => exact ih u

theorem guards_solve (h : Guards O O' e0) (pick : Sat T → Option Lit) (k : Nat) (s : Sat T) :
    solve E O pick k s = .error e0 ∨ solve E O pick k s = solve E O' pick k s := by
  unfold solve
  rcases guards_propagate (E := E) h s with hp | hp
  · left; rw [hp]
  · rw [hp]
    cases s.propagate E O' with
    | error e => right; rfl
    | ok r =>
      obtain ⟨u, b⟩ := r
      cases b with
      | false => right; rfl
      | true => exact guards_solveLoop h pick k u

end Sat
end Semitone
