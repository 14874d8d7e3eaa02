import Verif.DL.PropsA

/-!
# Difference logic: concrete histories

Small integer networks used to show that the hypotheses of the theorems are met, and the histories in which the code does not do what is expected.
-/
namespace Semitone

/-- The final state of a theory call when the recorded clauses do not change the values. -/
def TAct.final {T : Type} (v : Lit → Option Bool) : TAct T → Option T
  | .ok t => some t
  | .confl _ _ => none
  | .record _ k => TAct.final v (k v)
  | .fail _ => none

theorem TAct.final_ends {T : Type} {v : Lit → Option Bool} {t : T} : ∀ {a : TAct T}, a.final v = some t → a.Ends t
  | .ok _, h => by injection h with h; exact h ▸ .ok
  | .confl _ _, h => by cases h
  | .record _ _, h => .record (TAct.final_ends h)
  | .fail _, h => by cases h

namespace DL

/-- Asserts a literal. -/
def go {W : Type} [AddCommGroup W] [LinearOrder W] [IsOrderedAddMonoid W] [Dom W] (t : DL W) (val : Lit → Option Bool) (p : Lit) : DL W := ((t.propagate val p).final val).getD t

theorem go_hist {W : Type} [AddCommGroup W] [LinearOrder W] [IsOrderedAddMonoid W] [Dom W] {t : DL W} {a : List (Dist W × Bool)} {A : List (List (Dist W × Bool))} (h : Hist (t, a :: A))
    (val : Lit → Option Bool) (p : Lit) (dd : Dist W) (sg : Bool)
    (h1 : t.vd p.var = some dd) (h2 : val ⟨dd.b, true⟩ = some sg) (h3 : ((t.propagate val p).final val).isSome = true) :
    Hist (t.go val p, ((dd, sg) :: a) :: A) := by
  refine h.call (Call.lit (val := val) (p := p) h1 h2 (TAct.final_ends (v := val) ?_))
  unfold go
  cases hh : (t.propagate val p).final val with
  | none => rw [hh] at h3; cases h3
  | some x => rfl

/-- The variables in `on` are true, the others undefined. -/
def valOn (on : List Nat) (l : Lit) : Option Bool := if l.var ∈ on then some l.sign else none

/-- `tp1 - tp0 <= 1`, `tp2 - tp1 <= 1`, `tp2 - tp0 <= 1`, `tp0 - tp2 <= -3`, `tp1 - tp0 <= 5`, `tp0 - tp1 <= -4`. -/
def e1 : Dist ℤ := ⟨1, 0, 1, 1⟩
def e2 : Dist ℤ := ⟨2, 1, 2, 1⟩
def e3 : Dist ℤ := ⟨3, 0, 2, 1⟩
def e4 : Dist ℤ := ⟨4, 2, 0, -3⟩
def e5 : Dist ℤ := ⟨5, 0, 1, 5⟩
def e6 : Dist ℤ := ⟨6, 1, 0, -4⟩

/-- Three time points and six constraints. -/
def net0 : DL ℤ := ((((((((init 2).newVar.1).newVar.1).register e1).register e2).register e3).register e4).register e5).register e6
/-- The first two constraints are asserted. -/
def net1 : DL ℤ := (net0.go (valOn [1]) ⟨1, true⟩).go (valOn [1, 2, 5]) ⟨2, true⟩
/-- A level is opened, the third one is asserted. -/
def net2 : DL ℤ := net1.push.go (valOn [1, 2, 5, 3]) ⟨3, true⟩
/-- The level is closed. -/
def net3 : DL ℤ := match net2.pop with
  | .ok t => t
  | .error _ => net2

theorem net0_hist : Hist (net0, [[]]) := by
  refine Hist.call ?_ (Call.register (dd := e6) (by decide) (by decide) (by decide) (by decide) (by decide))
  refine Hist.call ?_ (Call.register (dd := e5) (by decide) (by decide) (by decide) (by decide) (by decide))
  refine Hist.call ?_ (Call.register (dd := e4) (by decide) (by decide) (by decide) (by decide) (by decide))
  refine Hist.call ?_ (Call.register (dd := e3) (by decide) (by decide) (by decide) (by decide) (by decide))
  refine Hist.call ?_ (Call.register (dd := e2) (by decide) (by decide) (by decide) (by decide) (by decide))
  refine Hist.call ?_ (Call.register (dd := e1) (by decide) (by decide) (by decide) (by decide) (by decide))
  exact ((Hist.init (by decide)).call Call.newVar).call Call.newVar

theorem net1_hist : Hist (net1, [[(e2, true), (e1, true)]]) := by
  have h := go_hist net0_hist (valOn [1]) ⟨1, true⟩ e1 true (by decide) (by decide) (by decide)
  exact go_hist h (valOn [1, 2, 5]) ⟨2, true⟩ e2 true (by decide) (by decide) (by decide)

theorem net2_hist : Hist (net2, [[(e3, true)], [(e2, true), (e1, true)]]) :=
  go_hist (net1_hist.call Call.push) (valOn [1, 2, 5, 3]) ⟨3, true⟩ e3 true (by decide) (by decide) (by decide)

theorem net2_within : Within 2 (net1.push, [[], [(e2, true), (e1, true)]]) (net2, [[(e3, true)], [(e2, true), (e1, true)]]) := by
  refine Within.call (Within.refl (by simp)) (Call.lit (val := valOn [1, 2, 5, 3]) (p := ⟨3, true⟩) (dd := e3) (sg := true) (by decide) (by decide)
    (TAct.final_ends (v := valOn [1, 2, 5, 3]) ?_)) (by simp)
  show (net1.push.propagate (valOn [1, 2, 5, 3]) ⟨3, true⟩).final _ = some (net1.push.go (valOn [1, 2, 5, 3]) ⟨3, true⟩)
  have h3 : ((net1.push.propagate (valOn [1, 2, 5, 3]) ⟨3, true⟩).final (valOn [1, 2, 5, 3])).isSome = true := by decide
  unfold go
  cases hh : (net1.push.propagate (valOn [1, 2, 5, 3]) ⟨3, true⟩).final (valOn [1, 2, 5, 3]) with
  | none => rw [hh] at h3; cases h3
  | some x => rfl

/-- The networks are not trivial: the distances before, during and after the level. -/
example : net1.distance 0 2 = (⊥, ((2 : ℤ) : WithTop ℤ)) ∧ net2.distance 0 2 = (⊥, ((1 : ℤ) : WithTop ℤ)) ∧ net3.distance 0 2 = (⊥, ((2 : ℤ) : WithTop ℤ)) := by decide

/-- C29 is not vacuous: in `net1` the literal of `tp0 - tp2 <= -3` is refused. -/
example : ∃ t' cl, net1.propagate (valOn [1, 2, 5, 4]) ⟨4, true⟩ = .confl t' cl := by
  refine ⟨net1, [⟨2, false⟩, ⟨1, false⟩, ⟨4, false⟩], ?_⟩
  rfl

theorem net3_hist : Hist (net3, [[(e2, true), (e1, true)]]) := by
  refine net2_hist.call (Call.pop (by simp) ?_)
  rfl

/-- C31, what fails: after `push`, one assertion and `pop`, the predecessor from time point 0 to time point 2 is not the one before the `push`,
and the explanation of the same distance is empty instead of naming the two constraints of the path. -/
theorem C31_witness : Hist (net1, [[(e2, true), (e1, true)]]) ∧ Within 2 (net1.push, [[], [(e2, true), (e1, true)]]) (net2, [[(e3, true)], [(e2, true), (e1, true)]]) ∧
    net2.pop = .ok net3 ∧ net1.pred 0 2 = some 1 ∧ net3.pred 0 2 = some 0 ∧
    net1.explain (valOn [1, 2, 5]) 0 3 2 = .ok [⟨2, false⟩, ⟨1, false⟩] ∧ net3.explain (valOn [1, 2, 5]) 0 3 2 = .ok [] :=
  ⟨net1_hist, net2_within, rfl, by decide, by decide, rfl, rfl⟩

/-- C36, what fails: with initial capacity 0 the matrix is not enlarged, and the time points are outside of it. -/
theorem C36_witness : ¬ ((init (W := ℤ) 0).newVar.1.nv ≤ (init (W := ℤ) 0).newVar.1.cap) ∧ ¬ ((init (W := ℤ) 0).nv ≤ (init (W := ℤ) 0).cap) := by decide

end DL
end Semitone
