import Verif.Sat.Demo

/-!
# C02–C10: clauses, propagation, learning, backtracking

`Reach E C s`: `s` is reached by some sequence of calls, with theories respecting the contract `C`; `E` fixes the unspecified sort
order. `LReach E s`: the same for the plain propositional core and legal calls. `dead` says that a definitive inconsistency was
reported by an earlier call.
-/
namespace Semitone
open Sat
variable {T : Type} {E : Env} {O : TheoryOps T} {C : Contract O}

/-- A concrete non-trivial history: six variables, clauses, a decision whose propagation made the core learn and backjump. -/
def demoA : PSat := demo stdEnv [.newVar, .newVar, .newVar, .newVar, .newVar, .newClause [nl 1, nl 4, pl 2], .newClause [nl 1, nl 4, nl 2], .newClause [pl 4, pl 5, pl 3],
  .assume (pl 3), .assume (pl 1), .assume (pl 4)]

example : LReach stdEnv demoA ∧ demoA.dead = false ∧ demoA.value (nl 4) = some true ∧ demoA.level 4 = 2 ∧ demoA.decisions = [pl 1, pl 3] ∧
    demoA.constrs.length = 4 := ⟨demo_reach _ _, by decide⟩

/-- Legal histories of the propositional core are histories. -/
theorem Sat.LReach.rinv {s : PSat} (h : LReach E s) : s.RInv noContract := h.linv.rinv

/-! ### C02 -/

/-- As long as no inconsistency was reported, what the network stores has exactly the solutions of the clauses posted by the user:
nothing is lost and nothing is added by filtering, learning, simplification or root-level assignments. -/
theorem net_iff_sol {s : Sat T} (h : s.RInv C) (hd : s.dead = false) (α : Asg) : s.Net C.Th α ↔ s.Sol C.Th α := by
  constructor
  · rintro ⟨h0, h1, h2, h3⟩
    refine ⟨h0, ?_, h3⟩
    intro D hD
    rcases h.link with h4 | h4
    · rw [hd] at h4; cases h4
    rcases h4 D hD with ⟨l, hl, hv, hlv⟩ | ⟨l, hl, hl'⟩ | ⟨c, hc, hs⟩
    · exact ⟨l, hl, h2 l hv hlv⟩
    · by_cases hx : α.sat l
      · exact ⟨l, hl, hx⟩
      · exact ⟨l.neg, hl', (Asg.sat_neg α l).2 hx⟩
    · obtain ⟨l, hl, hx⟩ := h1 c hc
      exact ⟨l, hs l hl, hx⟩
  · intro hα
    refine ⟨hα.1, fun c hc => h.inv.sem.cls c hc α hα, ?_, hα.2.2⟩
    intro p hp hl
    refine h.inv.sem.val p hp α hα ?_
    rw [hl]
    intro x hx
    simp [decUpTo] at hx

theorem C02_network_is_posted {s : Sat T} (h : Reach E C s) (hd : s.dead = false) (α : Asg) : s.Net C.Th α ↔ s.Sol C.Th α :=
  net_iff_sol h.rinv hd α

example : demoA.Net noContract.Th (fun v => v = 3) := by
  have h : LReach stdEnv demoA := demo_reach _ _
  rw [net_iff_sol h.rinv (by decide)]
  refine ⟨by decide, ?_, trivial⟩
  have : demoA.posted = [[pl 4, pl 5, pl 3], [nl 1, nl 4, nl 2], [nl 1, nl 4, pl 2]] := by decide
  rw [this]
  intro D hD
  simp at hD
  rcases hD with rfl | rfl | rfl
  · exact ⟨pl 3, by simp, by simp [Asg.sat]⟩
  · exact ⟨nl 1, by simp, by simp [Asg.sat]⟩
  · exact ⟨nl 1, by simp, by simp [Asg.sat]⟩

/-- `new_clause(ls)` restricts the assignments compatible with the network to those satisfying `ls`, no more and no less; when it
returns false there is none. -/
theorem C02_new_clause {s s' : Sat T} {ls : List Lit} {b : Bool} (h : Reach E C s) (hd : s.dead = false) (hc : s.newClause E ls = .ok (s', b)) :
    (b = true → s'.dead = false ∧ ∀ α, s'.Net C.Th α ↔ s.Net C.Th α ∧ α.clause ls) ∧
    (b = false → ∀ α, ¬ (s.Net C.Th α ∧ α.clause ls)) := by
  have hr := h.rinv
  have hcl := newClause_spec hr.inv hc
  have hr' : s'.RInv C := step_rinv (E := E) (op := .newClause ls) (out := .bool b) hr (fun h => by cases h) (by simp only [step, hc]; rfl)
  have hsol : ∀ α, s'.Sol C.Th α ↔ s.Sol C.Th α ∧ α.clause ls := by
    intro α
    unfold Sol
    rw [hcl.posted, hcl.rstep.th]
    constructor
    · rintro ⟨h0, h1, h2⟩
      exact ⟨⟨h0, fun D hD => h1 D (by simp [hD]), h2⟩, h1 ls (by simp)⟩
    · rintro ⟨⟨h0, h1, h2⟩, h3⟩
      refine ⟨h0, ?_, h2⟩
      intro D hD
      rcases List.mem_cons.1 hD with rfl | hD
      · exact h3
      · exact h1 D hD
  constructor
  · intro hb
    have hd' : s'.dead = false := by rw [(hcl.good hb).1]; exact hd
    refine ⟨hd', fun α => ?_⟩
    rw [net_iff_sol hr' hd', net_iff_sol hr hd, hsol]
  · intro hb α hα
    rw [net_iff_sol hr hd] at hα
    exact (hcl.bad hb).1 α ((hsol α).2 hα)

/-- `new_clause` answers for every vector of literals of existing variables at root level. -/
theorem C02_defined {s : Sat T} {ls : List Lit} (hr : s.root = true) (hv : ∀ l ∈ ls, l.var < s.nvars) :
    ∃ s' b, s.newClause E ls = .ok (s', b) := newClause_ok hr hv

/-- Only `new_clause` (directly or for the defining clauses of a reified expression) and `next` add clauses. -/
theorem C02_only {s s' : Sat T} {op : Op} {out} (h : Reach E C s) (hsf : op = .simplify → ∀ u, s.propagate E O = .ok (u, true) → u.Fix u.okQ)
    (hs : s.step E O op = .ok (s', out)) :
    match op with
    | .assume _ | .pop | .propagate | .check _ | .simplify | .bind _ _ | .listen _ _ | .newVar => s'.posted = s.posted
    | .newClause ls => s'.posted = ls :: s.posted
    | .next => s'.posted = s.posted ∨ s'.posted = s.decisions.map Lit.neg :: s.posted
    | _ => True := by
  have hi := h.rinv.inv
  cases op with
  | newVar => injection hs with hs; injection hs with e1 e2; subst e1; rfl
  | newClause ls =>
    obtain ⟨⟨u, b⟩, h1, h2⟩ := map_ok hs
    injection h2 with e1 e2; subst e1
    exact (newClause_spec hi h1).posted
  | assume p =>
    obtain ⟨⟨u, b⟩, h1, h2⟩ := map_ok hs
    injection h2 with e1 e2; subst e1
    exact ((assume_spec hi h1).facts hi).posted
  | pop =>
    obtain ⟨u, h1, h2⟩ := map_ok hs
    injection h2 with e1 e2; subst e1
    exact (pop_inv hi h1).evo.posted
  | propagate =>
    obtain ⟨⟨u, b⟩, h1, h2⟩ := map_ok hs
    injection h2 with e1 e2; subst e1
    exact (propagate_spec hi h1).evo.posted
  | next =>
    obtain ⟨⟨u, b⟩, h1, h2⟩ := map_ok hs
    injection h2 with e1 e2; subst e1
    rcases next_spec hi h1 with ⟨-, h3, -⟩ | ⟨-, a⟩
    · left; have h3 : s' = s := h3; rw [h3]
    · exact Or.inr a.posted
  | check ls =>
    obtain ⟨⟨u, b⟩, h1, h2⟩ := map_ok hs
    injection h2 with e1 e2; subst e1
    exact (check_spec hi h1).posted
  | simplify =>
    obtain ⟨⟨u, b⟩, h1, h2⟩ := map_ok hs
    injection h2 with e1 e2; subst e1
    exact (simplifyDb_spec hi (hsf rfl) h1).posted
  | bind v i => injection hs with hs; injection hs with e1 e2; subst e1; rfl
  | listen v l =>
    injection hs with hs; injection hs with e1 e2; subst e1
    show (s.listen v l).posted = s.posted
    unfold listen; split <;> rfl
  | _ => trivial

/-- Non-vacuity: duplicates, complementary and assigned literals, and the empty clause. -/
example : ((run stdEnv [.newVar, .newVar, .newClause [pl 1], .newClause [nl 2, nl 1, nl 2, FALSE_lit], .newClause [pl 2, nl 2], .newClause []] (init ())).map
    (fun r => (r.1.value (pl 1), r.1.value (nl 2), r.1.constrs, r.2))) =
    some (some true, some true, [], [.var 1, .var 2, .bool true, .bool true, .bool true, .bool false]) := by decide

/-! ### C03 -/

/-- Every literal reported true is implied by the posted clauses, the theories and the decisions up to its level. -/
theorem C03_values_are_consequences {s : Sat T} (h : Reach E C s) {p : Lit} (hp : s.value p = some true) :
    ∀ α, s.Sol C.Th α → α.all (s.decUpTo (s.level p.var)) → α.sat p := fun α hα hd => h.rinv.inv.sem.val p hp α hα hd

/-- In particular what is true at root level is implied with no decision at all. -/
theorem C03_root {s : Sat T} (h : Reach E C s) {p : Lit} (hp : s.value p = some true) (hl : s.level p.var = 0) :
    ∀ α, s.Sol C.Th α → α.sat p :=
  fun α hα => h.rinv.inv.sem.val p hp α hα (by rw [hl]; intro x hx; simp [decUpTo] at hx)

/-- What is reported false is implied to be false. -/
theorem C03_false {s : Sat T} (h : Reach E C s) {p : Lit} (hp : s.value p = some false) :
    ∀ α, s.Sol C.Th α → α.all (s.decUpTo (s.level p.var)) → ¬ α.sat p := by
  intro α hα hd
  rw [← Asg.sat_neg]
  exact h.rinv.inv.sem.val p.neg ((value_neg_true s p).2 hp) α hα (by rw [Lit.neg_var]; exact hd)

/-- The same for the states of legal histories (which include copied cores). -/
theorem C03_legal {s : PSat} (h : LReach E s) {p : Lit} (hp : s.value p = some true) :
    ∀ α, s.Sol noContract.Th α → α.all (s.decUpTo (s.level p.var)) → α.sat p := fun α hα hd => h.rinv.inv.sem.val p hp α hα hd

/-- Non-vacuity: `!4` was derived by a backjump, at level 2, from the decision `1`. -/
example : demoA.value (nl 4) = some true ∧ demoA.decUpTo (demoA.level 4) = [pl 1, pl 3] ∧ demoA.value (pl 2) = none := by decide

/-! ### C04 -/

/-- Every stored clause, learnt ones included, is a consequence of the posted clauses and the theories. -/
theorem C04_learnt_clauses_are_consequences {s : Sat T} (h : Reach E C s) {c : Nat} (hc : c ∈ s.constrs) :
    ∀ α, s.Sol C.Th α → α.clause (s.db c) := h.rinv.inv.sem.cls c hc

/-- The same for the states of legal histories (which include copied cores). -/
theorem C04_legal {s : PSat} (h : LReach E s) {c : Nat} (hc : c ∈ s.constrs) :
    ∀ α, s.Sol noContract.Th α → α.clause (s.db c) := h.rinv.inv.sem.cls c hc

/-- Learning never removes a solution: a solution of the posted clauses is compatible with everything the network stores. -/
theorem C04_no_solution_lost {s : Sat T} (h : Reach E C s) {α : Asg} (hα : s.Sol C.Th α) : s.Net C.Th α :=
  ⟨hα.1, fun c hc => h.rinv.inv.sem.cls c hc α hα, fun _ hp hl => C03_root h hp hl α hα, hα.2.2⟩

/-- Non-vacuity: a learnt clause. -/
example : demoA.db 3 = [nl 4, nl 1] ∧ (3 : Nat) ∈ demoA.constrs ∧ [nl 4, nl 1] ∉ demoA.posted := by decide

/-! ### C05 -/

/-- `propagate` returning false is definitive: nothing satisfies the posted clauses together with the theories. -/
theorem C05_propagate {s s' : Sat T} (h : Reach E C s) (hp : s.propagate E O = .ok (s', false)) :
    s'.root = true ∧ ∀ α, ¬ s.Sol C.Th α :=
  have d := propagate_spec h.rinv.inv hp
  ⟨(d.bad rfl).2.1, (d.bad rfl).2.2⟩

/-- `assume` returning false at root level is definitive. -/
theorem C05_assume {s s' : Sat T} {p : Lit} (h : Reach E C s) (hp : s.assume E O p = .ok (s', false)) (hr : s'.root = true) :
    ∀ α, ¬ s.Sol C.Th α := by
  have a := assume_spec h.rinv.inv hp
  by_cases hv : s.value p = some false
  · obtain ⟨-, e⟩ := a.already hv
    rw [e] at hr; simp [root, pushed] at hr
  · have hx := ((a.done hv).bad rfl).1
    rcases (a.facts h.rinv.inv).bad hx with h1 | h1
    · exact h.rinv.dead h1
    · exact h1.2

/-- `assume` returning false always means that the assumption contradicts the other decisions. -/
theorem C05_assume_false {s s' : Sat T} {p : Lit} (h : Reach E C s) (hp : s.assume E O p = .ok (s', false)) :
    ∀ α, s.Sol C.Th α → ¬ α.all (p :: s.decisions) :=
  ((assume_spec h.rinv.inv hp).facts h.rinv.inv).jump (Or.inr rfl)

/-- `next` returning false away from the root level is definitive. -/
theorem C05_next {s s' : Sat T} (h : Reach E C s) (hr : s.root = false) (hp : s.next E O = .ok (s', false)) :
    s'.root = true ∧ ∀ α, ¬ s'.Sol C.Th α := by
  rcases next_spec h.rinv.inv hp with ⟨h1, -⟩ | ⟨-, a⟩
  · rw [hr] at h1; cases h1
  · exact (a.ans rfl).2

/-- `simplify_db` returning false is definitive. -/
theorem C05_simplify {s s' : PSat} (h : LReach E s) (hd : s.dead = false) (hp : s.simplifyDb E noTheory = .ok (s', false)) :
    ∀ α, ¬ s.Sol noContract.Th α :=
  ((simplifyDb_spec h.rinv.inv (h.linv.legal_fix hd) hp).ans rfl).2

/-- Definitive inconsistency is forever: no continuation of the history has a solution. -/
theorem C05_forever {s s' : Sat T} (h : Reach E C s) (hu : ∀ α, ¬ s.Sol C.Th α) (hl : Later E C s s') : ∀ α, ¬ s'.Sol C.Th α :=
  fun α hα => hu α ((hl.grows h).sol hα)

/-- Non-vacuity: a conflict that climbs down to the root level. -/
example : ((run stdEnv [.newVar, .newVar, .newClause [pl 1, pl 2], .newClause [pl 1, nl 2], .newClause [nl 1, pl 2], .newClause [nl 1, nl 2], .assume (pl 1)] (init ())).map
    (fun r => (r.1.root, r.1.dead, r.2))) =
    some (true, true, [.var 1, .var 2, .bool true, .bool true, .bool true, .bool true, .bool false]) := by decide

/-! ### C06 -/

/-- Clauses of a state whose watches are in order, with an empty queue: satisfied, or at least two different literals are unassigned. -/
theorem fixpoint_any {T : Type} {O : TheoryOps T} {C : Contract O} {s : Sat T} (h : s.RInv C) (hF : s.Fix s.okQ) (hd : s.dead = false) (hq : s.propQ = []) {D : List Lit} (hD : D ∈ s.posted) :
    (∃ l ∈ D, s.value l = some true) ∨ ∃ x ∈ D, ∃ y ∈ D, x ≠ y ∧ s.value x = none ∧ s.value y = none := by
  rcases h.link with h4 | h4
  · rw [hd] at h4; cases h4
  rcases h4 D hD with ⟨l, hl, hv, hlv⟩ | ⟨l, hl, hl'⟩ | ⟨c, hc, hs⟩
  · exact Or.inl ⟨l, hl, hv⟩
  · match hv : s.value l with
    | some true => exact Or.inl ⟨l, hl, hv⟩
    | some false => exact Or.inl ⟨l.neg, hl', (value_neg_true s l).2 hv⟩
    | none =>
      refine Or.inr ⟨l, hl, l.neg, hl', (Lit.neg_ne l).symm, hv, ?_⟩
      rw [value_none] at hv ⊢; rw [Lit.neg_var]; exact hv
  · obtain ⟨a, b, r, hab⟩ := h.inv.wf.cln c hc
    have hnd := hF.nd c hc
    have hne : a ≠ b := hnd.ne (Or.inl hab)
    have ha : a ∈ D := hs a (by rw [hab]; simp)
    have hb : b ∈ D := hs b (by rw [hab]; simp)
    have fx : ∀ w w', (s.db c = w :: w' :: r ∨ s.db c = w' :: w :: r) → s.value w = some false → s.value w' = some true := by
      intro w w' h1 h2
      rcases hF.fx c hc w w' r h1 h2 with h3 | h3
      · unfold okQ at h3; rw [hq] at h3; simp at h3
      · exact h3.1
    match hva : s.value a with
    | some true => exact Or.inl ⟨a, ha, hva⟩
    | some false => exact Or.inl ⟨b, hb, fx a b (Or.inl hab) hva⟩
    | none =>
      match hvb : s.value b with
      | some true => exact Or.inl ⟨b, hb, hvb⟩
      | some false => have := fx b a (Or.inr hab) hvb; rw [hva] at this; cases this
      | none => exact Or.inr ⟨a, ha, b, hb, hne, hva, hvb⟩

/-- The same for legal states. -/
theorem fixpoint_posted {s : PSat} (h : s.LInv) (hd : s.dead = false) (hq : s.propQ = []) {D : List Lit} (hD : D ∈ s.posted) :
    (∃ l ∈ D, s.value l = some true) ∨ ∃ x ∈ D, ∃ y ∈ D, x ≠ y ∧ s.value x = none ∧ s.value y = none :=
  fixpoint_any h.rinv (h.fixq hd) hd hq hD

/-- When `propagate` returns true, every posted clause is satisfied or has at least two unassigned literals. -/
theorem C06_propagate_reaches_fixpoint {s s' : PSat} (h : LReach E s) (hd : s.dead = false) (hp : s.propagate E noTheory = .ok (s', true)) :
    ∀ D ∈ s'.posted, (∃ l ∈ D, s'.value l = some true) ∨ ∃ x ∈ D, ∃ y ∈ D, x ≠ y ∧ s'.value x = none ∧ s'.value y = none := by
  have h' : LReach E s' := .step (op := .propagate) (out := .bool true) h ⟨hd, trivial⟩ (by simp only [step, hp]; rfl)
  have d := propagate_spec h.rinv.inv hp
  intro D hD
  exact fixpoint_posted h'.linv (by rw [d.dead rfl]; exact hd) d.queue hD

/-- The same after `assume` returned true, and after any number of `pop`s: in every state of a legal history with nothing queued. -/
theorem C06_every_quiet_state {s : PSat} (h : LReach E s) (hd : s.dead = false) (hq : s.propQ = []) :
    ∀ D ∈ s.posted, (∃ l ∈ D, s.value l = some true) ∨ ∃ x ∈ D, ∃ y ∈ D, x ≠ y ∧ s.value x = none ∧ s.value y = none :=
  fun _ hD => fixpoint_posted h.linv hd hq hD

/-- `assume`, `propagate` and `check` leave nothing queued. -/
theorem C06_queue_empty {s s' : Sat T} {b : Bool} (h : Reach E C s) :
    (s.propagate E O = .ok (s', b) → s'.propQ = []) ∧ (∀ p, s.assume E O p = .ok (s', b) → s'.propQ = []) ∧
    (s.root = false → s.next E O = .ok (s', b) → s'.propQ = []) := by
  refine ⟨fun hp => (propagate_spec h.rinv.inv hp).queue, fun p hp => ((assume_spec h.rinv.inv hp).facts h.rinv.inv).queue, ?_⟩
  intro hr hp
  rcases next_spec h.rinv.inv hp with ⟨h1, -⟩ | ⟨-, a⟩
  · rw [hr] at h1; cases h1
  · exact a.queue

example : demoA.propQ = [] ∧ demoA.dead = false ∧ demoA.posted.length = 3 := by decide

/-! ### C07 -/

/-- A complete assignment without pending propagations satisfies every clause the user posted. -/
theorem C07_complete_assignment_is_model {s s' : PSat} (h : LReach E s) (hd : s.dead = false) (hp : s.propagate E noTheory = .ok (s', true))
    (hall : ∀ v, v < s'.nvars → s'.assigns v ≠ none) : ∀ D ∈ s'.posted, s'.asg.clause D := by
  intro D hD
  have d := propagate_spec h.rinv.inv hp
  rcases C06_propagate_reaches_fixpoint h hd hp D hD with ⟨l, hl, hv⟩ | ⟨x, hx, -, -, -, hv, -⟩
  · refine ⟨l, hl, ?_⟩
    rw [value_true] at hv
    simp [Asg.sat, asg, hv]
  · rw [value_none] at hv
    exact absurd hv (hall _ (d.inv.prng D hD x hx))

/-- ... and it is a solution of the network. -/
theorem C07_solution {s s' : PSat} (h : LReach E s) (hd : s.dead = false) (hp : s.propagate E noTheory = .ok (s', true))
    (hall : ∀ v, v < s'.nvars → s'.assigns v ≠ none) : s'.Sol noContract.Th s'.asg := by
  refine ⟨?_, C07_complete_assignment_is_model h hd hp hall, trivial⟩
  simp [asg, (propagate_spec h.rinv.inv hp).inv.wf.fv]

/-- Non-vacuity: a history that ends in a total assignment. -/
def demoB : PSat := demo stdEnv [.newVar, .newVar, .newVar, .newClause [nl 1, pl 2], .newClause [nl 2, pl 3], .newClause [nl 1, nl 3], .assume (pl 1), .assume (pl 3), .assume (pl 2)]
example : demoB.dead = false ∧ (∀ v, v < demoB.nvars → demoB.assigns v ≠ none) ∧
    ((demoB.propagate stdEnv noTheory).map (fun r => r.2)) = .ok true := by decide

/-! ### C08 -/

/-- Every legal call of the propositional core terminates normally: no assertion fails, no access is out of range, no loop bound of
the model is exhausted. -/
theorem C08_legal_calls_succeed {s : PSat} (h : LReach E s) {op : Op} (hl : s.Legal op) : ∃ s' out, s.step E noTheory op = .ok (s', out) := by
  obtain ⟨s', out, h1, -⟩ := step_total (E := E) h.linv hl
  exact ⟨s', out, h1⟩

/-- Copying a core never fails either. -/
theorem C08_copy_succeeds {s : PSat} (h : LReach E s) (hd : s.dead = false) (hq : s.propQ = []) (hdec : ∀ d ∈ s.decisions, s.value d = some true) :
    ∃ s', s.copy E noTheory = .ok s' := by
  obtain ⟨s', h1, -⟩ := copy_spec (E := E) h.linv.rinv.inv (h.linv.fixq hd) hq hdec
  exact ⟨s', h1⟩

/-- Without the precondition on `next` an internal assertion fails: the last decision was already true when it was taken (it follows from the
first one), so the blocking clause handed to `record` has no undefined literal. -/
theorem C08_next_precondition_needed :
    ∃ s : PSat, LReach stdEnv s ∧ s.dead = false ∧ s.propQ = [] ∧ s.root = false ∧ s.next stdEnv noTheory = .error .assert ∧ ¬ s.Eff := by
  refine ⟨demo stdEnv [.newVar, .newVar, .newClause [nl 1, pl 2], .assume (pl 1), .assume (pl 2)], demo_reach _ _, by decide, by decide, by decide, by rfl, ?_⟩
  intro h
  have := (h (pl 2) [pl 1] (by decide)).2
  revert this; decide

/-- Non-vacuity: `next` is legal after effective decisions. -/
example : demoA.Legal .next := legalB_legal (by decide)

/-! ### C09 -/

/-- `propagate` keeps a prefix of the decisions (newest first: a suffix of the list), and nothing assigned at the surviving levels changes. -/
theorem C09_propagate {s s' : Sat T} {b : Bool} (h : Reach E C s) (hp : s.propagate E O = .ok (s', b)) :
    s'.decisions <:+ s.decisions ∧ s'.decisions.length = s'.dl ∧
    (∀ v, s.assigns v ≠ none → s.level v ≤ s'.dl → s'.assigns v = s.assigns v ∧ s'.level v = s.level v) :=
  have d := propagate_spec h.rinv.inv hp
  ⟨d.evo.dec, d.inv.wf.dec, fun v h1 h2 => ⟨(d.evo.low v h1 h2).1, (d.evo.low v h1 h2).2.1⟩⟩

/-- If decisions were dropped, a variable that was not assigned at the surviving levels is assigned there now, and the dropped combination of
decisions had no solution. -/
theorem C09_progress {s s' : Sat T} {b : Bool} (h : Reach E C s) (hp : s.propagate E O = .ok (s', b)) (hd : s'.decisions.length < s.decisions.length) :
    (∃ v, s'.assigns v ≠ none ∧ s'.level v = s'.dl ∧ (s.assigns v = none ∨ s'.dl < s.level v)) ∧
    ∀ α, s.Sol C.Th α → ¬ α.all s.decisions := by
  have d := propagate_spec h.rinv.inv hp
  have h1 := d.inv.wf.dec
  have h2 := h.rinv.inv.wf.dec
  have h3 : s'.dl < s.dl := by unfold dl; omega
  obtain ⟨h4, v, h5, h6, h7⟩ := d.jump h3
  refine ⟨⟨v, h5, h6, ?_⟩, h4⟩
  by_cases hv : s.assigns v = none
  · exact Or.inl hv
  · exact Or.inr (h7 hv)

/-- `assume` pushes its decision and then keeps a prefix of the decisions; if the decision did not survive, a variable that was not assigned
at the surviving levels is assigned there now, unless the literal was already false. -/
theorem C09_assume {s s' : Sat T} {p : Lit} {b : Bool} (h : Reach E C s) (hp : s.assume E O p = .ok (s', b)) :
    s'.decisions <:+ p :: s.decisions ∧
    (∀ v, s.assigns v ≠ none → s.level v ≤ s'.dl → s'.assigns v = s.assigns v ∧ s'.level v = s.level v) ∧
    (s'.decisions.length ≤ s.decisions.length →
      (∃ v, s'.assigns v ≠ none ∧ s'.level v = s'.dl ∧ (s.assigns v = none ∨ s'.dl < s.level v)) ∧
      ∀ α, s.Sol C.Th α → ¬ α.all (p :: s.decisions)) := by
  have a := assume_spec h.rinv.inv hp
  have f := a.facts h.rinv.inv
  refine ⟨f.dec, f.low, ?_⟩
  intro hl
  have h1 := f.inv.wf.dec
  have h2 := h.rinv.inv.wf.dec
  have h3 : s'.dl ≤ s.dl := by unfold dl; omega
  refine ⟨?_, f.jump (Or.inl h3)⟩
  by_cases hv : s.value p = some false
  · obtain ⟨-, e⟩ := a.already hv
    rw [e] at h3; simp [dl, pushed] at h3
  · have hd : Done C (s.assumed0 O p) s' b := a.done hv
    obtain ⟨-, g2, -, -, -, -, -, -, -, g10, -⟩ := assumed0_facts (O := O) s p
    obtain ⟨-, v, h5, h6, h7⟩ := hd.jump (by omega)
    refine ⟨v, h5, h6, ?_⟩
    by_cases hx : s.assigns v = none
    · exact Or.inl hx
    · right
      have := h7 (by rw [(g10 v hx).1]; exact hx)
      rw [(g10 v hx).2] at this; exact this

/-- `check` never adds decisions. -/
theorem C09_check {s s' : Sat T} {ls : List Lit} {b : Bool} (h : Reach E C s) (hp : s.check E O ls = .ok (s', b)) : s'.decisions <:+ s.decisions :=
  (check_spec h.rinv.inv hp).dec

/-- Non-vacuity: assuming `4` in the context `3, 1` backjumped to level 2 and assigned `!4`; assuming `1` below backjumps over two levels. -/
example : ((run stdEnv [.newVar, .newVar, .newVar, .newVar, .newClause [nl 1, nl 4, pl 2], .newClause [nl 1, nl 4, nl 2], .assume (pl 1), .assume (pl 3), .assume (pl 4)] (init ())).map
    (fun r => (r.1.decisions, r.1.value (nl 4), r.1.level 4, r.1.value (pl 3)))) = some ([pl 1], some true, 1, none) := by decide

/-! ### C10 -/

/-- `pop` undoes exactly the last decision level. -/
theorem C10_pop {s s' : Sat T} (h : Reach E C s) (hp : s.pop O = .ok s') :
    s'.decisions = s.decisions.tail ∧ s.dl = s'.dl + 1 ∧
    (∀ v, s.level v < s.dl → s'.assigns v = s.assigns v ∧ s'.level v = s.level v) ∧
    (∀ v, s.level v = s.dl → s'.assigns v = none) := by
  have P := pop_inv h.rinv.inv hp
  have hdl := P.dl
  refine ⟨?_, hdl, ?_, ?_⟩
  · unfold pop at hp
    split at hp
    · rename_i l ls d ds h1 h2
      rw [h2]
      simp only at hp
      split at hp
      · cases hp
      · injection hp with hp; rw [← hp]; rfl
    · cases hp
  · intro v hv
    by_cases hn : s.assigns v = none
    · have h1 : s'.assigns v = none := by
        by_contra hx
        exact hx ((P.cut.same v hx).1.trans hn)
      have off : ∀ (t : Sat T), t.WF noEx → t.assigns v = none → t.level v = 0 := by
        intro t ht hx
        apply ht.off
        intro q hq e
        have := ht.tval q hq
        rw [e, hx] at this; cases this
      exact ⟨by rw [h1, hn], by rw [off s' P.inv.wf h1, off s h.rinv.inv.wf hn]⟩
    · have := P.evo.low v hn (by omega)
      exact ⟨this.1, this.2.1⟩
  · intro v hv
    by_contra hx
    have := (P.cut.same v hx).2.1
    have h1 := P.inv.wf.level_le v
    omega

/-- If `assume(p)` did not backjump, `pop` gives back the context prior to the assumption. -/
theorem C10_assume_pop {s s' s'' : Sat T} {p : Lit} {b : Bool} (h : Reach E C s) (hp : s.assume E O p = .ok (s', b))
    (hj : s'.decisions.length = s.decisions.length + 1) (hpop : s'.pop O = .ok s'') :
    s''.decisions = s.decisions ∧ (∀ v, s''.assigns v = s.assigns v ∧ s''.level v = s.level v) ∧ s''.posted = s.posted := by
  have f := (assume_spec h.rinv.inv hp).facts h.rinv.inv
  have hr' : Reach E C s' := .step (op := .assume p) (out := .bool b) h (fun h => by cases h) (by simp only [step, hp]; rfl)
  have hw := h.rinv.inv.wf
  have hdl : s'.dl = s.dl + 1 := by
    have h1 := f.inv.wf.dec
    have h2 := hw.dec
    unfold dl; omega
  obtain ⟨e1, e2, e3, e4⟩ := C10_pop hr' hpop
  have P := pop_inv hr'.rinv.inv hpop
  have off : ∀ (t : Sat T) (v : Nat), t.WF noEx → t.assigns v = none → t.level v = 0 := by
    intro t v ht hx
    apply ht.off
    intro q hq e
    have := ht.tval q hq
    rw [e, hx] at this; cases this
  refine ⟨?_, ?_, ?_⟩
  · rw [e1]
    have := f.dec.eq_of_length (by simp [hj])
    rw [this]; rfl
  · intro v
    by_cases hv : s.assigns v = none
    · have h1 : s''.assigns v = none := by
        by_contra hx
        obtain ⟨c1, c2, -⟩ := P.cut.same v hx
        have h2 := P.inv.wf.level_le v
        rcases f.new v (by rw [← c1]; exact hx) with h3 | h3
        · exact h3.1 hv
        · omega
      exact ⟨by rw [h1, hv], by rw [off s'' v P.inv.wf h1, off s v hw hv]⟩
    · have hlv := hw.level_le v
      obtain ⟨g1, g2⟩ := f.low v hv (by omega)
      have := e3 v (by omega)
      exact ⟨this.1.trans g1, this.2.trans g2⟩
  · rw [P.evo.posted, f.posted]

/-- Non-vacuity: the assumption propagated before it was popped. -/
example : ((run stdEnv [.newVar, .newVar, .newVar, .newClause [nl 1, pl 2], .assume (pl 3), .assume (pl 1)] (init ())).map
    (fun r => (r.1.decisions, r.1.value (pl 2)))) = some ([pl 1, pl 3], some true) ∧
   ((run stdEnv [.newVar, .newVar, .newVar, .newClause [nl 1, pl 2], .assume (pl 3), .assume (pl 1), .pop] (init ())).map
    (fun r => (r.1.decisions, r.1.value (pl 2), r.1.value (pl 3)))) = some ([pl 3], none, some true) := by decide

end Semitone
