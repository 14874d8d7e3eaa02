import Verif.DL.Guard

/-!
# Difference logic: explanations, concrete histories (C30)
-/
namespace Semitone
namespace DL

theorem net0_safe : SafeHist (net0, [[]]) := by
  refine SafeHist.register (dd := e6) ?_ (by decide) (by decide) (by decide) (by decide) (by decide)
  refine SafeHist.register (dd := e5) ?_ (by decide) (by decide) (by decide) (by decide) (by decide)
  refine SafeHist.register (dd := e4) ?_ (by decide) (by decide) (by decide) (by decide) (by decide)
  refine SafeHist.register (dd := e3) ?_ (by decide) (by decide) (by decide) (by decide) (by decide)
  refine SafeHist.register (dd := e2) ?_ (by decide) (by decide) (by decide) (by decide) (by decide)
  refine SafeHist.register (dd := e1) ?_ (by decide) (by decide) (by decide) (by decide) (by decide)
  exact .newVar (.newVar (.init (by decide)))

theorem go_safe {t : DL ℤ} {a : List (Dist ℤ × Bool)} {A : List (List (Dist ℤ × Bool))} (h : SafeHist (t, a :: A)) (val : Lit → Option Bool) (p : Lit) (dd : Dist ℤ) (sg : Bool)
    (h1 : t.vd p.var = some dd) (h2 : val ⟨dd.b, true⟩ = some sg) (h3 : ((t.propagate val p).final val).isSome = true) (h4 : t.safe val p = true) :
    SafeHist (t.go val p, ((dd, sg) :: a) :: A) := by
  refine .lit (val := val) (p := p) h h1 h2 h4 (TAct.final_ends (v := val) ?_)
  unfold go
  cases hh : (t.propagate val p).final val with
  | none => rw [hh] at h3; cases h3
  | some x => rfl

theorem net1_safe : SafeHist (net1, [[(e2, true), (e1, true)]]) := by
  have h := go_safe net0_safe (valOn [1]) ⟨1, true⟩ e1 true (by decide) (by decide) (by decide) (by decide)
  exact go_safe h (valOn [1, 2, 5]) ⟨2, true⟩ e2 true (by decide) (by decide) (by decide) (by decide)

/-- The hypotheses of `C30_explanations_valid_partial` are met by a history with two assertions, in which the next literal is refused with a
three-literal explanation. -/
example : SafeHist (net1, [[(e2, true), (e1, true)]]) ∧ Agrees (valOn [1, 2, 5, 4]) [(e2, true), (e1, true)] ∧ net1.safe (valOn [1, 2, 5, 4]) ⟨4, true⟩ = true ∧
    net1.propagate (valOn [1, 2, 5, 4]) ⟨4, true⟩ = .confl net1 [⟨2, false⟩, ⟨1, false⟩, ⟨4, false⟩] := by
  refine ⟨net1_safe, ?_, by decide, rfl⟩
  intro e he
  simp only [List.mem_cons, List.not_mem_nil, or_false] at he
  rcases he with rfl | rfl <;> decide

/-- The positions `X` of the time points, as a truth assignment of the constraint literals of `net0`. -/
def asgOf (x1 x2 : ℤ) : Asg := fun v =>
  let X : Nat → ℤ := fun i => if i = 1 then x1 else if i = 2 then x2 else 0
  match net0.vd v with
  | none => false
  | some dd => decide (X dd.tgt - X dd.src ≤ dd.w)

theorem asgOf_th {t : DL ℤ} (h : t.vd = net0.vd) (x1 x2 : ℤ) : Th t (asgOf x1 x2) := by
  refine ⟨fun i => if i = 1 then x1 else if i = 2 then x2 else 0, fun v dd hv => ?_⟩
  rw [h] at hv
  unfold asgOf
  rw [hv]
  simp

/-- C30, what fails after a backtracking: in `net3` (two constraints asserted at root level; a level was opened, a third one asserted in it, and the
level was closed) the literal `4` is refused with the one-literal explanation `¬4`, although the constraint of literal 4 is satisfiable. -/
theorem C30_witness_pred : Hist (net3, [[(e2, true), (e1, true)]]) ∧ net3.propagate (valOn [1, 2, 5, 4]) ⟨4, true⟩ = .confl net3 [⟨4, false⟩] ∧
    ∃ α, Th net3 α ∧ ¬ α.clause [⟨4, false⟩] := by
  refine ⟨net3_hist, rfl, asgOf 0 3, asgOf_th rfl 0 3, ?_⟩
  rintro ⟨l, hl, hs⟩
  rw [List.mem_singleton.mp hl] at hs
  exact absurd (show asgOf _ _ _ = _ from hs) (by decide)

/-- The weaker of two constraints on the same pair is asserted first. -/
def net5 : DL ℤ := (net0.go (valOn [5]) ⟨5, true⟩).go (valOn [5, 1]) ⟨1, true⟩

theorem net5_hist : Hist (net5, [[(e1, true), (e5, true)]]) := by
  have h := go_hist net0_hist (valOn [5]) ⟨5, true⟩ e5 true (by decide) (by decide) (by decide)
  exact go_hist h (valOn [5, 1]) ⟨1, true⟩ e1 true (by decide) (by decide) (by decide)

/-- C30, what fails when a pair is tightened: after `tp1 - tp0 <= 5` and then `tp1 - tp0 <= 1`, the literal of `tp1 - tp0 >= 4` is refused with the
explanation "not both `tp1 - tp0 <= 5` and `tp1 - tp0 >= 4`", which is not a valid lemma. -/
theorem C30_witness_constr : Hist (net5, [[(e1, true), (e5, true)]]) ∧ net5.propagate (valOn [5, 1, 6]) ⟨6, true⟩ = .confl net5 [⟨5, false⟩, ⟨6, false⟩] ∧
    ∃ α, Th net5 α ∧ ¬ α.clause [⟨5, false⟩, ⟨6, false⟩] := by
  refine ⟨net5_hist, rfl, asgOf 4 4, asgOf_th rfl 4 4, ?_⟩
  rintro ⟨l, hl, hs⟩
  simp only [List.mem_cons, List.not_mem_nil, or_false] at hl
  rcases hl with rfl | rfl
  · exact absurd (show asgOf _ _ _ = _ from hs) (by decide)
  · exact absurd (show asgOf _ _ _ = _ from hs) (by decide)

end DL
end Semitone
