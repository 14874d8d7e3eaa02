import Verif.Sat.Later

/-!
# Concrete histories

A concrete sorting function and an evaluator for concrete call sequences; used to show that the hypotheses of the theorems are met
and to exhibit the states in which a property fails.
-/
namespace Semitone

/-- Insertion of `a` in front of the first `b` with `r a b`. -/
def insBy (r : Lit → Lit → Bool) (a : Lit) : List Lit → List Lit
  | [] => [a]
  | b :: l => if r a b then a :: b :: l else b :: insBy r a l

/-- Insertion sort. -/
def sortBy (r : Lit → Lit → Bool) : List Lit → List Lit
  | [] => []
  | a :: l => insBy r a (sortBy r l)

theorem insBy_perm (r : Lit → Lit → Bool) (a : Lit) (l : List Lit) : (insBy r a l).Perm (a :: l) := by
  induction l with
  | nil => exact List.Perm.refl _
  | cons b l ih =>
    unfold insBy
    split
    · exact List.Perm.refl _
    · exact (ih.cons b).trans (List.Perm.swap a b l)

theorem sortBy_perm (r : Lit → Lit → Bool) (l : List Lit) : (sortBy r l).Perm l := by
  induction l with
  | nil => exact List.Perm.refl _
  | cons a l ih => exact (insBy_perm r a _).trans (ih.cons a)

theorem insBy_sorted (r : Lit → Lit → Bool) (ht : ∀ a b, r a b = false → r b a = true) (htr : ∀ a b c, r a b = true → r b c = true → r a c = true)
    (a : Lit) (l : List Lit) (h : l.Pairwise (fun x y => r x y = true)) : (insBy r a l).Pairwise (fun x y => r x y = true) := by
  induction l with
  | nil => exact List.pairwise_singleton _ _
  | cons b l ih =>
    rw [List.pairwise_cons] at h
    unfold insBy
    split
    · rename_i hab
      rw [List.pairwise_cons]
      refine ⟨?_, List.pairwise_cons.2 h⟩
      intro x hx
      rcases List.mem_cons.1 hx with rfl | hx
      · exact hab
      · exact htr _ _ _ hab (h.1 x hx)
    · rename_i hab
      rw [List.pairwise_cons]
      refine ⟨?_, ih h.2⟩
      intro x hx
      have := (insBy_perm r a l).mem_iff.1 hx
      rcases List.mem_cons.1 this with rfl | hx
      · exact ht _ _ (by simpa using hab)
      · exact h.1 x hx

theorem sortBy_sorted (r : Lit → Lit → Bool) (ht : ∀ a b, r a b = false → r b a = true) (htr : ∀ a b c, r a b = true → r b c = true → r a c = true)
    (l : List Lit) : (sortBy r l).Pairwise (fun x y => r x y = true) := by
  induction l with
  | nil => exact List.Pairwise.nil
  | cons a l ih => exact insBy_sorted r ht htr a _ ih

/-- An environment that sorts by insertion. -/
def stdEnv : Env where
  sortVar := sortBy (fun a b => decide (a.var ≤ b.var))
  sortVar_perm := sortBy_perm _
  sortVar_sorted := fun l => (sortBy_sorted (fun a b => decide (a.var ≤ b.var)) (by simp; omega) (by simp; omega) l).imp (by simp)
  sortLvl := fun f => sortBy (fun a b => decide (f b.var ≤ f a.var))
  sortLvl_perm := fun f => sortBy_perm _
  sortLvl_sorted := fun f l => (sortBy_sorted (fun a b => decide (f b.var ≤ f a.var)) (by simp; omega) (by simp; intros; omega) l).imp (by simp)

namespace Sat

/-- The legality conditions that can be evaluated (`next` excepted: `Eff` is checked through `effB`). -/
def effB {T : Type} (s : Sat T) : Bool :=
  go s.decisions
where
  go : List Lit → Bool
    | [] => true
    | p :: ds => s.value p == some true && s.level p.var == ds.length + 1 && go ds

theorem effB_go {T : Type} {s : Sat T} : ∀ l : List Lit, effB.go s l = true → ∀ p ds, (p :: ds) <:+ l → s.value p = some true ∧ s.level p.var = ds.length + 1 := by
  intro l
  induction l with
  | nil => intro _ p ds h; simp at h
  | cons q l ih =>
    intro h p ds hs
    simp [effB.go] at h
    rcases List.suffix_cons_iff.1 hs with e | e
    · injection e with e1 e2; subst e1 e2; exact ⟨h.1.1, h.1.2⟩
    · exact ih h.2 p ds e

theorem effB_eff {T : Type} {s : Sat T} (h : s.effB = true) : s.Eff := fun p ds hs => effB_go _ h p ds hs

/-- Executable form of `Legal`. -/
def legalB {T : Type} (s : Sat T) (op : Op) : Bool :=
  !s.dead &&
  match op with
  | .newVar => true
  | .newClause ls | .newConj ls | .newDisj ls | .newAMO ls | .newEXO ls => s.root && ls.all (fun l => decide (l.var < s.nvars))
  | .newEq a b => s.root && [a, b].all (fun l => decide (l.var < s.nvars))
  | .assume p => s.propQ.isEmpty && decide (p.var < s.nvars)
  | .pop => !s.root
  | .propagate => true
  | .next => s.effB
  | .check ls => s.propQ.isEmpty && ls.all (fun l => decide (l.var < s.nvars))
  | .simplify => s.root
  | .bind _ _ => true
  | .listen v _ => decide (v < s.nvars)

theorem legalB_legal {T : Type} {s : Sat T} {op : Op} (h : s.legalB op = true) : s.Legal op := by
  unfold legalB at h
  unfold Legal
  rw [Bool.and_eq_true] at h
  refine ⟨by simpa using h.1, ?_⟩
  have h := h.2
  cases op <;> simp at h ⊢ <;> first | exact h | exact effB_eff h

/-- Runs a list of calls, checking that each is legal. -/
def run (E : Env) : List Op → PSat → Option (PSat × List Out)
  | [], s => some (s, [])
  | op :: ops, s =>
    if s.legalB op then
      match s.step E noTheory op with
      | .error _ => none
      | .ok (s', out) => (run E ops s').map (fun r => (r.1, out :: r.2))
    else none

theorem run_reach {E : Env} (ops : List Op) : ∀ (s s' : PSat) (outs : List Out), LReach E s → run E ops s = some (s', outs) → LReach E s' := by
  induction ops with
  | nil => intro s s' outs h hr; injection hr with hr; injection hr with e1 e2; exact e1 ▸ h
  | cons op ops ih =>
    intro s s' outs h hr
    unfold run at hr
    by_cases hl : s.legalB op = true
    · rw [if_pos hl] at hr
      match hst : s.step E noTheory op with
      | .error _ => rw [hst] at hr; cases hr
      | .ok (u, out) =>
        rw [hst] at hr
        simp only [Option.map_eq_some_iff] at hr
        obtain ⟨⟨w, os⟩, h1, h2⟩ := hr
        injection h2 with e1 e2
        exact e1 ▸ ih u w os (.step h (legalB_legal hl) hst) h1
    · rw [if_neg hl] at hr; cases hr

/-- The state after a concrete history (the initial state if a call is illegal or fails, see `demo_ok`). -/
def demo (E : Env) (ops : List Op) : PSat := ((run E ops (init ())).map (·.1)).getD (init ())

theorem demo_reach (E : Env) (ops : List Op) : LReach E (demo E ops) := by
  unfold demo
  match h : run E ops (init ()) with
  | none => exact .init
  | some (s, outs) => exact run_reach ops _ _ _ .init h

end Sat

/-- Literal `v`. -/
abbrev pl (v : Nat) : Lit := ⟨v, true⟩
/-- Literal `!v`. -/
abbrev nl (v : Nat) : Lit := ⟨v, false⟩

open Sat in
example : ((Sat.run stdEnv [.newVar, .newVar, .newVar, .newClause [nl 1, pl 2], .newClause [nl 1, nl 2], .assume (pl 3), .assume (pl 1)] (init ())).map
    (fun r => (r.1.value (pl 1), r.1.decisions, r.2))) = some (some false, [], [.var 1, .var 2, .var 3, .bool true, .bool true, .bool true, .bool true]) := by decide

open Sat in
example : ((Sat.run stdEnv [.newVar, .newVar, .newConj [pl 1, pl 2], .newConj [pl 1, pl 2]] (init ())).map
    (fun r => r.2)) = some ([.var 1, .var 2, .lit (pl 3), .lit (pl 3)]) := by decide
end Semitone
