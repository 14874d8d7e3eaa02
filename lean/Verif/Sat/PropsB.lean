import Verif.Sat.PropsA

/-!
# C11–C18: check, next, reified expressions, expression cache
-/
namespace Semitone
open Sat
variable {T : Type} {E : Env} {O : TheoryOps T} {C : Contract O}

instance (α : Asg) (p : Lit) : Decidable (α.sat p) := inferInstanceAs (Decidable (α p.var = p.sign))
instance (α : Asg) (D : List Lit) : Decidable (α.clause D) := inferInstanceAs (Decidable (∃ l ∈ D, α.sat l))
instance (α : Asg) (D : List Lit) : Decidable (α.all D) := inferInstanceAs (Decidable (∀ l ∈ D, α.sat l))
instance (α : Asg) (D : List Lit) : Decidable (α.atMostOne D) := inferInstanceAs (Decidable (∀ x ∈ D, ∀ y ∈ D, α.sat x → α.sat y → x = y))
instance (α : Asg) (D : List Lit) : Decidable (α.exactlyOne D) := inferInstanceAs (Decidable (_ ∧ _))

/-- Solutions of the propositional core can be checked. -/
theorem sol_iff {s : PSat} {α : Asg} : s.Sol noContract.Th α ↔ α 0 = false ∧ ∀ D ∈ s.posted, α.clause D :=
  ⟨fun h => ⟨h.1, h.2.1⟩, fun h => ⟨h.1, h.2, trivial⟩⟩

/-! ### C11 -/

/-- `check(ls)` returning false means that `ls` contradicts the posted clauses, the theories and the current decisions. -/
theorem C11_answer_sound {s s' : Sat T} {ls : List Lit} (h : Reach E C s) (hc : s.check E O ls = .ok (s', false)) :
    ∀ α, s.Sol C.Th α → ¬ α.all (ls ++ s.decisions) := (check_spec h.rinv.inv hc).ans rfl

/-- Partial: the context is restored exactly when the answer is true. When the answer is false the decisions that survive are a prefix of the
caller's, everything assigned at their levels is unchanged, and whatever is new is assigned at the current level. (Missing: the
context is not restored in general when the answer is false, see `C11_context_lost`.) -/
theorem C11_partial {s s' : Sat T} {ls : List Lit} {b : Bool} (h : Reach E C s) (hc : s.check E O ls = .ok (s', b)) :
    (b = true → s'.decisions = s.decisions ∧ ∀ v, s'.assigns v = s.assigns v ∧ s'.level v = s.level v) ∧
    s'.decisions <:+ s.decisions ∧ s'.posted = s.posted ∧
    (∀ v, s.assigns v ≠ none → s.level v ≤ s'.dl → s'.assigns v = s.assigns v ∧ s'.level v = s.level v) ∧
    (∀ v, s'.assigns v ≠ none → s.assigns v ≠ none ∧ s.level v ≤ s'.dl ∨ s'.level v = s'.dl) := by
  have f := check_spec h.rinv.inv hc
  refine ⟨?_, f.dec, f.posted, f.low, fun v hv => (f.new v hv).imp_right (·.1)⟩
  intro hb
  have hdl := f.good hb
  have hw := h.rinv.inv.wf
  refine ⟨f.dec.eq_of_length ?_, ?_⟩
  · rw [f.inv.wf.dec, hw.dec]; exact hdl
  · intro v
    by_cases hv : s.assigns v = none
    · have h1 : s'.assigns v = none := by
        by_contra hx
        rcases f.new v hx with h1 | h1
        · exact h1.1 hv
        · rw [hb] at h1; cases h1.2
      have off : ∀ (t : Sat T), t.WF noEx → t.assigns v = none → t.level v = 0 := by
        intro t ht hx
        apply ht.off
        intro q hq e
        have := ht.tval q hq
        rw [e, hx] at this; cases this
      exact ⟨by rw [h1, hv], by rw [off s' f.inv.wf h1, off s hw hv]⟩
    · exact f.low v hv (by rw [hdl]; exact hw.level_le v)

/-- When no decision was dropped, a false answer keeps every value of the caller. -/
theorem C11_partial_same_level {s s' : Sat T} {ls : List Lit} {b : Bool} (h : Reach E C s) (hc : s.check E O ls = .ok (s', b))
    (hl : s'.decisions.length = s.decisions.length) : s'.decisions = s.decisions ∧ ∀ v, s.assigns v ≠ none → s'.assigns v = s.assigns v ∧ s'.level v = s.level v := by
  have f := check_spec h.rinv.inv hc
  have hw := h.rinv.inv.wf
  refine ⟨f.dec.eq_of_length hl, fun v hv => f.low v hv ?_⟩
  have h1 := f.inv.wf.dec
  have h2 := hw.dec
  have h3 := hw.level_le v
  unfold dl at *; omega

/-- Decisions `1, 3` with clauses that forbid `4`. -/
def demoC : PSat := demo stdEnv [.newVar, .newVar, .newVar, .newVar, .newClause [nl 1, nl 4, pl 2], .newClause [nl 1, nl 4, nl 2], .assume (pl 1), .assume (pl 3)]

/-- The code does not restore the context in general: from the decisions `1, 3`, the failing `check(4)` leaves only the decision `1`, and
`3` is no longer assigned. -/
theorem C11_context_lost : ∃ s s' : PSat, LReach stdEnv s ∧ s.Legal (.check [pl 4]) ∧ s.check stdEnv noTheory [pl 4] = .ok (s', false) ∧
    s.decisions = [pl 3, pl 1] ∧ s'.decisions = [pl 1] ∧ s.value (pl 3) = some true ∧ s'.value (pl 3) = none := by
  have e : ((demoC.check stdEnv noTheory [pl 4]).map (fun r => (r.2, r.1.decisions, r.1.value (pl 3)))) = .ok (false, [pl 1], none) := by decide
  obtain ⟨⟨u, b⟩, h2, e⟩ := map_ok e
  simp only [Prod.mk.injEq] at e
  obtain ⟨e1, e2, e3⟩ := e
  refine ⟨demoC, u, demo_reach _ _, legalB_legal (by decide), ?_, by decide, e2.symm, by decide, e3.symm⟩
  rw [h2, ← e1]

/-- Non-vacuity: a true answer and a false one. -/
example : ((run stdEnv [.newVar, .newVar, .newVar, .newClause [nl 1, pl 2], .assume (pl 3), .check [pl 1, pl 2], .check [pl 1, nl 2]] (init ())).map
    (fun r => (r.2, r.1.decisions))) = some ([.var 1, .var 2, .var 3, .bool true, .bool true, .bool true, .bool false], [pl 3]) := by decide

/-! ### C12 -/

/-- `next` at root level returns false and changes nothing. -/
theorem C12_root {s : Sat T} (hr : s.root = true) : s.next E O = .ok (s, false) := by
  unfold next; rw [if_pos hr]

/-- Otherwise it drops the last decision (at least) and excludes exactly the current combination of decisions. -/
theorem C12_next {s s' : Sat T} {b : Bool} (h : Reach E C s) (hr : s.root = false) (hn : s.next E O = .ok (s', b)) :
    s'.decisions <:+ s.decisions.tail ∧ (∀ α, s'.Sol C.Th α ↔ s.Sol C.Th α ∧ ¬ α.all s.decisions) ∧
    (∀ v, s.assigns v ≠ none → s.level v ≤ s'.dl → s'.assigns v = s.assigns v ∧ s'.level v = s.level v) := by
  rcases next_spec h.rinv.inv hn with ⟨h1, -⟩ | ⟨-, a⟩
  · rw [hr] at h1; cases h1
  · refine ⟨a.dec, fun α => ?_, a.low⟩
    have hb : α.clause (s.decisions.map Lit.neg) ↔ ¬ α.all s.decisions := by
      constructor
      · rintro ⟨l, hl, hx⟩ hall
        obtain ⟨d, hd, rfl⟩ := List.mem_map.1 hl
        exact (Asg.sat_neg α d).1 hx (hall d hd)
      · intro hx
        unfold Asg.all at hx
        push Not at hx
        obtain ⟨d, hd, hx⟩ := hx
        exact ⟨d.neg, List.mem_map.2 ⟨d, hd, rfl⟩, (Asg.sat_neg α d).2 hx⟩
    unfold Sol
    rw [a.posted, a.th α]
    constructor
    · rintro ⟨h0, h1, h2⟩
      exact ⟨⟨h0, fun D hD => h1 D (by simp [hD]), h2⟩, hb.1 (h1 _ (by simp))⟩
    · rintro ⟨⟨h0, h1, h2⟩, h3⟩
      refine ⟨h0, ?_, h2⟩
      intro D hD
      rcases List.mem_cons.1 hD with rfl | hD
      · exact hb.2 h3
      · exact h1 D hD

/-- No solution of any later network makes all the excluded decisions true again. -/
theorem C12_never_again {s s' s'' : Sat T} {b : Bool} (h : Reach E C s) (hr : s.root = false) (hn : s.next E O = .ok (s', b)) (hl : Later E C s' s'') :
    ∀ α, s''.Sol C.Th α → ¬ α.all s.decisions := by
  have hr' : Reach E C s' := .step (op := .next) (out := .bool b) h (fun h => by cases h) (by simp only [step, hn]; rfl)
  intro α hα
  exact (((C12_next h hr hn).2.1 α).1 ((hl.grows hr').sol hα)).2

/-- In every later state of a legal history with nothing queued, the excluded decisions are not all true. -/
theorem C12_never_again_state {s s' s'' : PSat} {b : Bool} (h : LReach E s) (hlg : s.Legal .next) (hr : s.root = false)
    (hn : s.next E noTheory = .ok (s', b)) (hl : LLater E s' s'') (hd : s''.dead = false) (hq : s''.propQ = []) :
    ¬ ∀ d ∈ s.decisions, s''.value d = some true := by
  have h' : LReach E s' := .step (op := .next) (out := .bool b) h hlg (by simp only [step, hn]; rfl)
  rcases next_spec h.rinv.inv hn with ⟨h1, -⟩ | ⟨-, a⟩
  · rw [hr] at h1; cases h1
  intro hall
  have hD : s.decisions.map Lit.neg ∈ s''.posted := (hl.grows h').posted _ (by rw [a.posted]; simp)
  rcases C06_every_quiet_state (hl.reach h') hd hq _ hD with ⟨l, hl, hv⟩ | ⟨l, hl, -, -, -, hv, -⟩
  · obtain ⟨d, hd, rfl⟩ := List.mem_map.1 hl
    rw [value_neg_true, hall d hd] at hv; cases hv
  · obtain ⟨d, hd, rfl⟩ := List.mem_map.1 hl
    rw [value_none, Lit.neg_var] at hv
    have := hall d hd
    rw [value_true, hv] at this; cases this

/-- Non-vacuity: enumeration of the three solutions of `1 ∨ 2` by decisions. -/
example : ((run stdEnv [.newVar, .newVar, .newClause [pl 1, pl 2], .assume (pl 1), .assume (pl 2), .next, .next, .next] (init ())).map
    (fun r => (r.1.decisions, r.1.value (pl 1), r.1.value (pl 2), r.2.drop 3))) =
    some ([], some false, some true, [.bool true, .bool true, .bool true, .bool true, .bool false]) := by decide

/-! ### C13, C14 -/

/-- `new_conj(ls)`: in every solution the returned literal is true iff all of `ls` are; every old solution extends to a new one; nothing is
assigned. (`Local`: the theories constrain existing variables only.) -/
theorem C13_new_conj {s : Sat T} {ls : List Lit} (h : Reach E C s) (hr : s.root = true) (hv : ∀ l ∈ ls, l.var < s.nvars) :
    ∃ s' r, s.newConj E ls = .ok (s', r) ∧ r.var < s'.nvars ∧
      (∀ α, s'.Sol C.Th α → (α.sat r ↔ α.all ls)) ∧
      (s.Local C.Th → ∀ α, s.Sol C.Th α → ∃ β, Asg.agree s.nvars α β ∧ s'.Sol C.Th β) ∧
      s'.assigns = s.assigns ∧ s'.dead = s.dead := by
  obtain ⟨s', r, h1, h2⟩ := newConj_spec (E := E) h.rinv.inv hr hv
  exact ⟨s', r, h1, h2.var, h2.rel, h2.ext, h2.assigns, h2.isDead⟩

/-- `new_disj(ls)`: the same with "at least one". -/
theorem C14_new_disj {s : Sat T} {ls : List Lit} (h : Reach E C s) (hr : s.root = true) (hv : ∀ l ∈ ls, l.var < s.nvars) :
    ∃ s' r, s.newDisj E ls = .ok (s', r) ∧ r.var < s'.nvars ∧
      (∀ α, s'.Sol C.Th α → (α.sat r ↔ α.clause ls)) ∧
      (s.Local C.Th → ∀ α, s.Sol C.Th α → ∃ β, Asg.agree s.nvars α β ∧ s'.Sol C.Th β) ∧
      s'.assigns = s.assigns ∧ s'.dead = s.dead := by
  obtain ⟨s', r, h1, h2⟩ := newDisj_spec (E := E) h.rinv.inv hr hv
  exact ⟨s', r, h1, h2.var, h2.rel, h2.ext, h2.assigns, h2.isDead⟩

/-- Non-vacuity: duplicates, complementary and assigned literals, caching. -/
example : ((run stdEnv [.newVar, .newVar, .newVar, .newClause [pl 3], .newConj [pl 2, pl 3, pl 1, pl 1], .newConj [pl 1, pl 2], .newConj [pl 1, nl 1],
    .newDisj [nl 2, FALSE_lit, pl 1], .newDisj [pl 1, pl 3]] (init ())).map (fun r => r.2.drop 4)) =
    some [.lit (pl 4), .lit (pl 4), .lit FALSE_lit, .lit (pl 5), .lit TRUE_lit] := by decide

example (s : PSat) : s.Local noContract.Th := fun _ _ _ _ => trivial

/-! ### C15 -/

/-- Partial: `new_eq(a, b)` when the operands have the same sign or are both assigned or both unassigned. In every solution the returned literal implies
the equality and is implied by both being true; it is equivalent to the equality unless both operands are unassigned (and different).
(Missing: the code does not post `r ∨ a ∨ b`, see `C15_not_complete`, and returns the wrong literal in the remaining cases, see
`C15_wrong_sign`.) -/
theorem C15_partial {s : Sat T} {a b : Lit} (h : Reach E C s) (hr : s.root = true) (hv : ∀ l ∈ [a, b], l.var < s.nvars)
    (hs : a.sign = b.sign ∨ (s.value a = none ↔ s.value b = none)) :
    ∃ s' r, s.newEq E a b = .ok (s', r) ∧ r.var < s'.nvars ∧
      (∀ α, s'.Sol C.Th α → (α.sat r → (α.sat a ↔ α.sat b)) ∧ (α.sat a → α.sat b → α.sat r)) ∧
      (a = b ∨ s.value a ≠ none ∨ s.value b ≠ none → ∀ α, s'.Sol C.Th α → (α.sat r ↔ (α.sat a ↔ α.sat b))) ∧
      (s.Local C.Th → ∀ α, s.Sol C.Th α → ∃ β, Asg.agree s.nvars α β ∧ s'.Sol C.Th β) ∧
      s'.assigns = s.assigns ∧ s'.dead = s.dead := by
  obtain ⟨s', r, h1, h2, h3⟩ := newEq_spec (E := E) h.rinv.inv hr hv hs
  refine ⟨s', r, h1, h2.var, h2.rel, ?_, h2.ext, h2.assigns, h2.isDead⟩
  intro hx
  rcases h3 with h3 | h3
  · exfalso
    rcases hx with hx | hx | hx
    · exact h3.1 hx
    · exact hx h3.2.1
    · exact hx h3.2.2
  · exact h3.rel

/-- With `1` true and `2` unassigned, `new_eq(1, !2)` returns `2`, which is true exactly when the operands differ. -/
theorem C15_wrong_sign : ∃ (s s' : PSat) (r : Lit), LReach stdEnv s ∧ s.newEq stdEnv (pl 1) (nl 2) = .ok (s', r) ∧
    (∃ α, s'.Sol noContract.Th α) ∧ ∀ α, s'.Sol noContract.Th α → ¬ (α.sat r ↔ (α.sat (pl 1) ↔ α.sat (nl 2))) := by
  refine ⟨demo stdEnv [.newVar, .newVar, .newClause [pl 1]], _, _, demo_reach _ _, rfl, ⟨fun v => v = 1, ?_⟩, ?_⟩
  · rw [sol_iff]; decide
  · intro α hα
    have h1 : α.clause [pl 1] := hα.2.1 _ (by decide)
    have h1 : α 1 = true := by simpa [Asg.clause, Asg.sat] using h1
    have e : (if (pl 1).sign = (nl 2).sign then nl 2 else (nl 2).neg) = pl 2 := by decide
    rw [e]
    simp only [Asg.sat, h1]
    cases α 2 <;> simp

/-- Two unassigned variables. -/
def demoD : PSat := demo stdEnv [.newVar, .newVar]

/-- With both operands unassigned the returned literal may be false although both operands are false. -/
theorem C15_not_complete : ∃ (s s' : PSat) (r : Lit) (α : Asg), LReach stdEnv s ∧ s.newEq stdEnv (pl 1) (pl 2) = .ok (s', r) ∧ s'.Sol noContract.Th α ∧
    ¬ (α.sat r ↔ (α.sat (pl 1) ↔ α.sat (pl 2))) := by
  have e : ((demoD.newEq stdEnv (pl 1) (pl 2)).map (fun r => (r.2, r.1.posted))) =
      .ok (pl 3, [[pl 3, nl 1, nl 2], [nl 3, pl 1, nl 2], [nl 3, nl 1, pl 2]]) := by decide
  obtain ⟨⟨u, r⟩, h2, e⟩ := map_ok e
  simp only [Prod.mk.injEq] at e
  obtain ⟨e1, e2⟩ := e
  refine ⟨demoD, u, r, fun _ => false, demo_reach _ _, h2, ?_, ?_⟩
  · rw [sol_iff, ← e2]; decide
  · rw [← e1]; decide

/-! ### C16 -/

/-- No expression of kind `k` over some of the literals of `ls` has been requested before. -/
def NewExpr (s : Sat T) (k : Kind) (ls : List Lit) : Prop := ∀ ms r, (key k ms, r) ∈ s.exprs → ¬ ∀ l ∈ ms, l ∈ ls

theorem NewExpr.find {s : Sat T} {k : Kind} {ls ms : List Lit} (h : NewExpr s k ls) (hm : ∀ l ∈ ms, l ∈ ls) : s.findExpr (key k ms) = none := by
  match hf : s.findExpr (key k ms) with
  | none => rfl
  | some r => exact absurd hm (h ms r (findExpr_mem hf))

/-- Literals removed by the filter are false in every solution. -/
theorem filtered_false {s : Sat T} {ls out : List Lit} (h : s.Inv C) (hr : s.root = true) (hnt : ∀ l ∈ ls, s.value l ≠ some true)
    (hf : amoFilt s.value none (E.sortVar ls) = some out) :
    (∀ l ∈ out, l ∈ ls) ∧ ∀ α, s.Sol C.Th α → ∀ l ∈ ls, α.sat l → l ∈ out := by
  have hp := E.sortVar_perm ls
  obtain ⟨out', h1, h2, h3, h4⟩ := amoFilt_some s.value (E.sortVar ls) none (fun l hl => hnt l (hp.mem_iff.1 hl))
  rw [hf] at h1; injection h1 with h1; subst h1
  refine ⟨fun l hl => hp.mem_iff.1 (h2.subset hl), ?_⟩
  intro α hα l hl hx
  rcases h4 l (hp.mem_iff.2 hl) with h5 | h5 | h5
  · exact h5
  · exact absurd hx (h.root_false hr h5 hα)
  · cases h5

theorem amo_filtered {α : Asg} {ls out : List Lit} (h : ∀ l ∈ ls, α.sat l → l ∈ out) (ha : α.atMostOne out) : α.atMostOne ls :=
  fun x hx y hy sx sy => ha x (h x hx sx) y (h y hy sy) sx sy

/-- Partial: when none of the literals is already true, the returned literal implies that at most one of `ls` is true, every old solution
extends to a new one, and (for a new expression, with no literal repeated together with its complement) every old solution with at most one
true literal extends to one where the returned literal is true. (Missing: the code drops a literal that is already true, see
`C16_true_literal`; see `C16_duplicates` for the condition on repetitions.) -/
theorem C16_partial {s : Sat T} {ls : List Lit} (h : Reach E C s) (hr : s.root = true) (hv : ∀ l ∈ ls, l.var < s.nvars)
    (hnt : ∀ l ∈ ls, s.value l ≠ some true) :
    ∃ s' r, s.newAMO E ls = .ok (s', r) ∧ r.var < s'.nvars ∧
      (∀ α, s'.Sol C.Th α → α.sat r → α.atMostOne ls) ∧
      (s.Local C.Th → ∀ α, s.Sol C.Th α → ∃ β, Asg.agree s.nvars α β ∧ s'.Sol C.Th β) ∧
      ((∀ l ∈ ls, l.neg ∈ ls → ls.count l ≤ 1) → NewExpr s .amo ls →
        s.Local C.Th → ∀ α, s.Sol C.Th α → α.atMostOne ls → ∃ β, Asg.agree s.nvars α β ∧ s'.Sol C.Th β ∧ β.sat r) ∧
      s'.assigns = s.assigns ∧ s'.dead = s.dead := by
  have hi := h.rinv.inv
  have hp := E.sortVar_perm ls
  obtain ⟨s', r, h1, h2, h3⟩ := newAMOGo_spec (E := E) (C := C) _ s ls hi hr hv (Nat.lt_succ_self _)
  obtain ⟨out, ho, -⟩ := amoFilt_some s.value (E.sortVar ls) none (fun l hl => hnt l (hp.mem_iff.1 hl))
  have A := h2 out ho
  obtain ⟨f1, f2⟩ := filtered_false (C := C) hi hr hnt ho
  refine ⟨s', r, h1, A.reif.var, ?_, A.reif.ext, ?_, A.reif.assigns, A.reif.isDead⟩
  · intro α hα hx
    exact amo_filtered (fun l hl => f2 α (A.reif.defd.rstep.sol hα) l hl) (A.reif.rel α hα hx)
  · intro hc hn hL α hα ha
    have hnd : out.Nodup := amoFilt_nodup s.value _ none out (E.sortVar_sorted ls)
      (fun l hl hl' => by rw [hp.count_eq]; exact hc l (hp.mem_iff.1 hl) (hp.mem_iff.1 hl')) (fun m hm => hnt m (hp.mem_iff.1 hm)) ho
    have hao : α.atMostOne out := fun x hx y hy => ha x (f1 x hx) y (f1 y hy)
    by_cases hlen : 2 ≤ out.length
    · obtain ⟨β, b1, b2, b3⟩ := (A.fresh hlen (hn.find f1)).1 hL α hα true (fun _ => Alone.of_amo hnd hao)
      exact ⟨β, b1, b2, b3.2 rfl⟩
    · have : s' = s ∧ r = TRUE_lit := by
        have hin : s.inRange ls = true := by simpa [inRange] using hv
        unfold newAMOGo at h1
        rw [if_neg (by simp [hr]), if_neg (by simp [hin]), ho] at h1
        match out, hlen with
        | [], _ => injection h1 with h1; injection h1 with e1 e2; exact ⟨e1.symm, e2.symm⟩
        | [_], _ => injection h1 with h1; injection h1 with e1 e2; exact ⟨e1.symm, e2.symm⟩
        | _ :: _ :: _, hlen => simp at hlen
      obtain ⟨e1, e2⟩ := this
      subst e1 e2
      exact ⟨α, fun _ _ => rfl, hα, sat_true_lit hα⟩

/-- `1` is true. -/
def demoE : PSat := demo stdEnv [.newVar, .newVar, .newVar, .newClause [pl 1]]

/-- With `1` already true, `new_at_most_one(1, 2)` returns TRUE although both may be true. -/
theorem C16_true_literal : ∃ (s s' : PSat) (r : Lit) (α : Asg), LReach stdEnv s ∧ s.newAMO stdEnv [pl 1, pl 2] = .ok (s', r) ∧ s'.Sol noContract.Th α ∧
    α.sat r ∧ ¬ α.atMostOne [pl 1, pl 2] := by
  have e : ((demoE.newAMO stdEnv [pl 1, pl 2]).map (fun r => (r.2, r.1.posted))) = .ok (TRUE_lit, [[pl 1]]) := by decide
  obtain ⟨⟨u, r⟩, h2, e⟩ := map_ok e
  simp only [Prod.mk.injEq] at e
  obtain ⟨e1, e2⟩ := e
  refine ⟨demoE, u, r, fun v => v = 1 ∨ v = 2, demo_reach _ _, h2, ?_, ?_, by decide⟩
  · rw [sol_iff, ← e2]; decide
  · rw [← e1]; decide

/-- With a literal repeated around its complement the returned literal excludes it altogether. -/
theorem C16_duplicates : ∃ (s s' : PSat) (r : Lit) (α : Asg), LReach stdEnv s ∧ NewExpr s .amo [pl 1, nl 1, pl 1] ∧
    s.newAMO stdEnv [pl 1, nl 1, pl 1] = .ok (s', r) ∧ s.Sol noContract.Th α ∧ α.atMostOne [pl 1, nl 1, pl 1] ∧
    ∀ β, Asg.agree s.nvars α β → s'.Sol noContract.Th β → ¬ β.sat r := by
  have e : ((demoD.newAMO stdEnv [pl 1, nl 1, pl 1]).map (fun r => (r.2, r.1.posted))) =
      .ok (pl 3, [[pl 1, nl 1, nl 3], [nl 1, nl 1, nl 3], [nl 1, pl 1, nl 3]]) := by decide
  obtain ⟨⟨u, r⟩, h2, e⟩ := map_ok e
  simp only [Prod.mk.injEq] at e
  obtain ⟨e1, e2⟩ := e
  refine ⟨demoD, u, r, fun v => v = 1, demo_reach _ _, ?_, h2, ?_, by decide, ?_⟩
  · intro ms r hm
    have hE : demoD.exprs = ["b" ++ toString 2, "b" ++ toString 1, "b" ++ toString 0].map (fun k => (k, (demoD.exprs.lookup k).getD TRUE_lit)) := by decide
    rw [hE] at hm
    simp only [List.map_cons, List.map_nil, List.mem_cons, Prod.mk.injEq] at hm
    rcases hm with hm | hm | hm | hm
    · exact absurd hm.1 (key_ne_var _ _ _)
    · exact absurd hm.1 (key_ne_var _ _ _)
    · exact absurd hm.1 (key_ne_var _ _ _)
    · cases hm
  · rw [sol_iff]; decide
  · intro β hag hβ hx
    rw [← e1] at hx
    have h1 : β.clause [nl 1, nl 1, nl 3] := hβ.2.1 _ (by rw [← e2]; simp)
    have h3 : β 1 = true := by rw [← hag 1 (by decide)]; decide
    have h4 : β 3 = true := hx
    simp [Asg.clause, Asg.sat, h3, h4] at h1

/-- Non-vacuity: the product encoding on five literals (11 = 5 + 1 + 5 fresh variables or so), one of them false. -/
example : ((run stdEnv [.newVar, .newVar, .newVar, .newVar, .newVar, .newVar, .newClause [nl 6], .newAMO [pl 1, nl 2, pl 3, pl 6, pl 4, pl 5]] (init ())).map
    (fun r => (r.2.drop 7, r.1.nvars, r.1.posted.length))) = some ([.lit (pl 14)], 15, 18) := by decide

/-! ### C17 -/

/-- Partial: when none of the literals is already true, the returned literal implies that exactly one of `ls` is true. If moreover the expression
(and the at-most-one over the same literals) is new and what remains is not a single negative literal, every old solution extends to a
new one, and if exactly one literal is true it extends to one where the returned literal is true. (Missing: see `C17_true_literal`,
`C17_negative_singleton`, `C17_shared_with_amo`.) -/
theorem C17_partial {s : Sat T} {ls : List Lit} (h : Reach E C s) (hr : s.root = true) (hv : ∀ l ∈ ls, l.var < s.nvars)
    (hnt : ∀ l ∈ ls, s.value l ≠ some true) :
    ∃ s' r, s.newEXO E ls = .ok (s', r) ∧ r.var < s'.nvars ∧
      (∀ α, s'.Sol C.Th α → α.sat r → α.exactlyOne ls) ∧
      ((∀ l ∈ ls, l.neg ∈ ls → ls.count l ≤ 1) → NewExpr s .amo ls → NewExpr s .exo ls →
        (∀ l ∈ ls, s.value l = none → l.sign = true ∨ ∃ m ∈ ls, m ≠ l ∧ s.value m = none) → s.Local C.Th →
        (∀ α, s.Sol C.Th α → ∃ β, Asg.agree s.nvars α β ∧ s'.Sol C.Th β) ∧
        (∀ α, s.Sol C.Th α → α.exactlyOne ls → ∃ β, Asg.agree s.nvars α β ∧ s'.Sol C.Th β ∧ β.sat r)) := by
  have hi := h.rinv.inv
  have hp := E.sortVar_perm ls
  obtain ⟨s', r, h1, h2, h3⟩ := newEXO_spec (E := E) (C := C) hi hr hv
  obtain ⟨out, ho, hsub, hon, hmem⟩ := amoFilt_some s.value (E.sortVar ls) none (fun l hl => hnt l (hp.mem_iff.1 hl))
  have A := h2 out ho
  obtain ⟨f1, f2⟩ := filtered_false (C := C) hi hr hnt ho
  refine ⟨s', r, h1, A.var, ?_, ?_⟩
  · intro α hα hx
    obtain ⟨⟨l, hl, hs⟩, g2⟩ := A.rel α hα hx
    exact ⟨⟨l, f1 l hl, hs⟩, amo_filtered (fun l hl => f2 α (A.defd.rstep.sol hα) l hl) g2⟩
  · intro hc hn hn' hneg hL
    have hnd : out.Nodup := amoFilt_nodup s.value _ none out (E.sortVar_sorted ls)
      (fun l hl hl' => by rw [hp.count_eq]; exact hc l (hp.mem_iff.1 hl) (hp.mem_iff.1 hl')) (fun m hm => hnt m (hp.mem_iff.1 hm)) ho
    have hex : ∀ α, s.Sol C.Th α → α.exactlyOne ls → α.clause out ∧ α.atMostOne out := by
      rintro α hα ⟨⟨l, hl, hs⟩, ha⟩
      exact ⟨⟨l, f2 α hα l hl hs, hs⟩, fun x hx y hy => ha x (f1 x hx) y (f1 y hy)⟩
    by_cases hlen : 2 ≤ out.length
    · have F := A.fresh hlen (hn'.find f1) (fun ms hms => hn.find (fun l hl => f1 l ((hms l).1 hl))) hL
      refine ⟨fun α hα => ?_, fun α hα hx => ?_⟩
      · obtain ⟨β, b1, b2, -⟩ := F α hα false (by simp)
        exact ⟨β, b1, b2⟩
      · obtain ⟨β, b1, b2, b3⟩ := F α hα true (fun _ => ⟨(hex α hα hx).1, Alone.of_amo hnd (hex α hα hx).2⟩)
        exact ⟨β, b1, b2, b3.2 rfl⟩
    · match hout : out, hlen with
      | [], _ =>
        have : s' = s := by
          have hin : s.inRange ls = true := by simpa [inRange] using hv
          unfold newEXO at h1
          rw [if_neg (by simp [hr]), if_neg (by simp [hin]), ho] at h1
          injection h1 with h1; injection h1 with e1 e2; exact e1.symm
        subst this
        refine ⟨fun α hα => ⟨α, fun _ _ => rfl, hα⟩, fun α hα hx => ?_⟩
        obtain ⟨⟨l, hl, -⟩, -⟩ := hex α hα hx
        simp at hl
      | [l], _ =>
        have hsg : l.sign = true := by
          rcases hneg l (f1 l (by simp)) (hon l (by simp)) with h5 | ⟨m, hm, hne, hvm⟩
          · exact h5
          · rcases hmem m (hp.mem_iff.2 hm) with h6 | h6 | h6
            · simp at h6; exact absurd h6 hne
            · rw [hvm] at h6; cases h6
            · cases h6
        obtain ⟨e1, e2⟩ := A.one l rfl hsg
        subst e1 e2
        refine ⟨fun α hα => ⟨α, fun _ _ => rfl, hα⟩, fun α hα hx => ⟨α, fun _ _ => rfl, hα, ?_⟩⟩
        obtain ⟨⟨m, hm, hs⟩, -⟩ := hex α hα hx
        simp at hm; exact hm ▸ hs
      | _ :: _ :: _, hlen => simp at hlen

/-- With `1` already true, `new_exct_one(1, 2)` returns `2`, and both may be true. -/
theorem C17_true_literal : ∃ (s s' : PSat) (r : Lit) (α : Asg), LReach stdEnv s ∧ s.newEXO stdEnv [pl 1, pl 2] = .ok (s', r) ∧ s'.Sol noContract.Th α ∧
    α.sat r ∧ ¬ α.exactlyOne [pl 1, pl 2] := by
  have e : ((demoE.newEXO stdEnv [pl 1, pl 2]).map (fun r => (r.2, r.1.posted))) = .ok (pl 2, [[pl 1]]) := by decide
  obtain ⟨⟨u, r⟩, h2, e⟩ := map_ok e
  simp only [Prod.mk.injEq] at e
  obtain ⟨e1, e2⟩ := e
  refine ⟨demoE, u, r, fun v => v = 1 ∨ v = 2, demo_reach _ _, h2, ?_, ?_, by decide⟩
  · rw [sol_iff, ← e2]; decide
  · rw [← e1]; decide

/-- `new_exct_one(!1)` makes `1` false in the network instead of returning `!1`. -/
theorem C17_negative_singleton : ∃ (s s' : PSat) (r : Lit) (α : Asg), LReach stdEnv s ∧ s.newEXO stdEnv [nl 1] = .ok (s', r) ∧ r = TRUE_lit ∧
    s.Sol noContract.Th α ∧ ∀ β, Asg.agree s.nvars α β → ¬ s'.Sol noContract.Th β := by
  have e : ((demoD.newEXO stdEnv [nl 1]).map (fun r => (r.2, r.1.posted))) = .ok (TRUE_lit, [[nl 1, FALSE_lit]]) := by decide
  obtain ⟨⟨u, r⟩, h2, e⟩ := map_ok e
  simp only [Prod.mk.injEq] at e
  obtain ⟨e1, e2⟩ := e
  refine ⟨demoD, u, r, fun v => v = 1, demo_reach _ _, h2, e1.symm, ?_, ?_⟩
  · rw [sol_iff]; decide
  · intro β hag hβ
    have h1 : β.clause [nl 1, FALSE_lit] := hβ.2.1 _ (by rw [← e2]; simp)
    have h3 : β 1 = true := by rw [← hag 1 (by decide)]; decide
    have h4 : β 0 = false := hβ.1
    simp [Asg.clause, Asg.sat, h3, h4, FALSE_lit] at h1

/-- `3` is the literal of "at most one of `1`, `2`". -/
def demoF : PSat := demo stdEnv [.newVar, .newVar, .newAMO [pl 1, pl 2]]

/-- `new_exct_one(1, 2)` after `new_at_most_one(1, 2)` returns the same literal and so excludes solutions in which none of the two is true. -/
theorem C17_shared_with_amo : ∃ (s s' : PSat) (r : Lit) (α : Asg), LReach stdEnv s ∧ s.newEXO stdEnv [pl 1, pl 2] = .ok (s', r) ∧
    s.newAMO stdEnv [pl 1, pl 2] = .ok (s, r) ∧
    s.Sol noContract.Th α ∧ ∀ β, Asg.agree s.nvars α β → ¬ s'.Sol noContract.Th β := by
  have e : ((demoF.newEXO stdEnv [pl 1, pl 2]).map (fun r => (r.2, r.1.posted))) = .ok (pl 3, [[pl 1, pl 2, nl 3], [nl 1, nl 2, nl 3]]) := by decide
  obtain ⟨⟨u, r⟩, h2, e⟩ := map_ok e
  simp only [Prod.mk.injEq] at e
  obtain ⟨e1, e2⟩ := e
  refine ⟨demoF, u, r, fun v => v = 3, demo_reach _ _, h2, ?_, ?_, ?_⟩
  · rw [← e1]
    have hf : demoF.findExpr ("amo" ++ litsStr [pl 1, pl 2]) = some (pl 3) := by decide
    have hfl : amoFilt demoF.value none (stdEnv.sortVar [pl 1, pl 2]) = some [pl 1, pl 2] := by decide
    have hr : demoF.root = true := by decide
    have hi : demoF.inRange [pl 1, pl 2] = true := by decide
    unfold newAMO newAMOGo
    simp only [hr, hi, hfl, hf, Bool.true_eq_false, if_false]
  · rw [sol_iff]; decide
  · intro β hag hβ
    have h1 : β.clause [pl 1, pl 2, nl 3] := hβ.2.1 _ (by rw [← e2]; simp)
    have h3 : β 3 = true := by rw [← hag 3 (by decide)]; decide
    have h4 : β 1 = false := by rw [← hag 1 (by decide)]; decide
    have h5 : β 2 = false := by rw [← hag 2 (by decide)]; decide
    simp [Asg.clause, Asg.sat, h3, h4, h5] at h1

/-! ### C18 -/

/-- The textual keys are injective: a lookup never finds the literal of another expression. -/
theorem C18_keys_injective {k k' : Kind} {ls ms : List Lit} : key k ls = key k' ms ↔ k = k' ∧ ls = ms :=
  ⟨key_inj, fun ⟨h1, h2⟩ => by rw [h1, h2]⟩

/-- The key of an equality is symmetric and identifies its operands. -/
theorem C18_eq_key (a b c d : Lit) : eqKey a b = eqKey c d ↔ (a = c ∧ b = d) ∨ (a = d ∧ b = c) := by
  have hx : ∀ x y : Lit, litLt x y = false → litLt y x = false → x = y := by
    intro x y h1 h2
    simp [litLt, Lit.index] at h1 h2
    cases x with | mk v s => cases y with | mk w t =>
    cases s <;> cases t <;> simp at h1 h2 ⊢ <;> omega
  have hlt : ∀ x y : Lit, litLt x y = true → litLt y x = false := by
    intro x y h1; simp [litLt] at h1 ⊢; omega
  rw [eqKey_eq, eqKey_eq]
  constructor
  · intro h
    have := (key_inj h).2
    split at this <;> split at this <;> simp at this <;> tauto
  · rintro (⟨rfl, rfl⟩ | ⟨rfl, rfl⟩)
    · rfl
    · congr 1
      by_cases h1 : litLt a b = true
      · rw [if_pos h1, if_neg (by rw [hlt _ _ h1]; simp)]
      · have h1 : litLt a b = false := by simpa using h1
        by_cases h2 : litLt b a = true
        · rw [if_neg (by rw [h1]; simp), if_pos h2]
        · have h2 : litLt b a = false := by simpa using h2
          have := hx _ _ h1 h2
          subst this; rfl

/-- A cached literal keeps its meaning in every later network. -/
theorem C18_cached_meaning {s s' : Sat T} {k : Kind} {ls : List Lit} {r : Lit} (h : Reach E C s) (hf : s.findExpr (key k ls) = some r) (hl : Later E C s s') :
    ∀ α, s'.Sol C.Th α →
      match k with
      | .conj => α.sat r ↔ α.all ls
      | .disj => α.sat r ↔ α.clause ls
      | .eq => ∀ x y, ls = [x, y] → (α.sat r → (α.sat x ↔ α.sat y)) ∧ (α.sat x → α.sat y → α.sat r)
      | .amo => α.sat r → α.atMostOne ls
      | .exo => α.sat r → α.exactlyOne ls := by
  intro α hα
  have := (h.rinv.inv.cache k ls r (findExpr_mem hf)).2.2 α ((hl.grows h).sol hα)
  cases k <;> exact this

/-- Non-vacuity: two expressions with colliding digits get different literals. -/
example : key .conj [pl 1, pl 12] ≠ key .conj [pl 11, pl 2] ∧ demoF.findExpr (key .amo [pl 1, pl 2]) = some (pl 3) := by decide

end Semitone
