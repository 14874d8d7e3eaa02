import Verif.LRA.Model
import Verif.Sat.Spec

/-!
# Specification vocabulary for linear arithmetic

Valuations of the arithmetic variables, what the definitions, the assertions and the bounds say about them. Nothing here mentions rows, watches or pivots.
-/
namespace Semitone

/-- What the assertion says about the valuation `X` when its literal has the sign `s`: `x <= v`, or `x >= v`; when false, `x >= v + ε` (`x <= v - ε`). -/
def Asrt.means (a : Asrt) (s : Bool) (X : Nat → IQ) : Prop :=
  match a.le, s with
  | true, true => X a.x ≤ a.v
  | true, false => a.v + IQ.eps ≤ X a.x
  | false, true => a.v ≤ X a.x
  | false, false => X a.x ≤ a.v - IQ.eps

/-- What a bound imposed together with the literal `p` says. -/
def Fact.holds (f : Fact) (α : Asg) (X : Nat → IQ) : Prop :=
  match f with
  | .lo p x v => α.sat p → v ≤ ((X x : IQ) : WithBot IQ)
  | .hi p x v => α.sat p → ((X x : IQ) : WithTop IQ) ≤ v

/-- The literal of an imposed bound. -/
def Fact.lit : Fact → Lit
  | .lo p _ _ => p
  | .hi p _ _ => p

/-- The variable of an imposed bound. -/
def Fact.var : Fact → Nat
  | .lo _ x _ => x
  | .hi _ x _ => x

namespace LRA

/-- Every derived variable has the value of the expression it was created with. -/
def Defs (ds : List (Nat × Lin)) (X : Nat → IQ) : Prop := ∀ d ∈ ds, X d.1 = d.2.eval IQ.one X

/-- The truth assignment `α` and the valuation `X` are compatible with the theory `t`: definitions, assertion literals, bounds imposed. -/
structure Mod (t : LRA) (α : Asg) (X : Nat → IQ) : Prop where
  zero : α 0 = false
  asrt : ∀ b a, t.vas b = some a → a.means (α b) X
  defs : Defs t.defs X
  fact : ∀ f ∈ t.facts, f.holds α X

/-- The clause is a valid lemma: every compatible assignment and valuation satisfies it. -/
def Lemma (t : LRA) (cl : List Lit) : Prop := ∀ α X, Mod t α X → α.clause cl

/-- A bound that has been asserted. -/
inductive BF where
  | lo (x : Nat) (v : IQ)
  | hi (x : Nat) (v : IQ)

/-- The asserted bound holds under `X`. -/
def BF.holds (f : BF) (X : Nat → IQ) : Prop :=
  match f with
  | .lo x v => v ≤ X x
  | .hi x v => X x ≤ v

/-- The bound that the literal of the assertion `a`, with sign `s`, asserts. -/
def _root_.Semitone.Asrt.bf (a : Asrt) (s : Bool) : BF :=
  match a.le, s with
  | true, true => .hi a.x a.v
  | true, false => .lo a.x (a.v + IQ.eps)
  | false, true => .lo a.x a.v
  | false, false => .hi a.x (a.v - IQ.eps)

theorem bf_holds (a : Asrt) (s : Bool) (X : Nat → IQ) : (a.bf s).holds X ↔ a.means s X := by
  unfold Asrt.bf Asrt.means BF.holds
  cases a.le <;> cases s <;> exact Iff.rfl

end LRA
end Semitone
