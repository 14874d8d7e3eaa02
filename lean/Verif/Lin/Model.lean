import Verif.Sat.Model
import Mathlib.Algebra.Module.Basic
import Mathlib.Algebra.Order.Ring.Rat
import Mathlib.Tactic.Linarith
import Mathlib.Tactic.Ring
import Mathlib.Tactic.FieldSimp
import Mathlib.Tactic.Module

/-!
# Model of the linear expressions

Model of `/repo/include/arith/lin.h` and `/repo/src/arith/lin.cpp`.

`utils::rational` (external library, not part of this repository) is modelled by the exact rationals `ℚ`: overflow of its 64-bit
numerator and denominator and its values `+∞`/`-∞` as *coefficients* are not modelled.
`std::map<var, rational>` is a list of pairs in the order of the map's iteration (increasing variables).
-/
namespace Semitone

/-- `class lin` (`lin.h:11-64`). -/
structure Lin where
  vars : List (Nat × ℚ)
  kt : ℚ
deriving DecidableEq

namespace Lin

/-- `std::map::find` + `insert`/`+=`/`erase` on one term: the body of the loops of `operator+`, `+=` (`lin.cpp:14-25`, `103-111`) and, with
the opposite coefficient, of `operator-`, `-=` (`lin.cpp:47-55`, `124-132`). -/
def addTerm (v : Nat) (c : ℚ) : List (Nat × ℚ) → List (Nat × ℚ)
  | [] => [(v, c)]
  | (w, d) :: l =>
    if v < w then (v, c) :: (w, d) :: l
    else if v = w then if d + c = 0 then l else (w, d + c) :: l
    else (w, d) :: addTerm v c l

/-- The loop over the terms of the right operand (`lin.cpp:14-25`). -/
def addTerms (l r : List (Nat × ℚ)) : List (Nat × ℚ) := r.foldl (fun l t => addTerm t.1 t.2 l) l

/-- The loop over the terms of the right operand of a subtraction (`lin.cpp:47-55`). -/
def subTerms (l r : List (Nat × ℚ)) : List (Nat × ℚ) := r.foldl (fun l t => addTerm t.1 (-t.2) l) l

/-- `lin::lin()` (`lin.cpp:7`). -/
def zero : Lin := ⟨[], 0⟩
/-- `lin::lin(const rational &)` (`lin.cpp:8`). -/
def const (k : ℚ) : Lin := ⟨[], k⟩
/-- `lin::lin(var, const rational &)` (`lin.cpp:9`). -/
def ofVar (v : Nat) (c : ℚ) : Lin := ⟨[(v, c)], 0⟩

/-- `lin::operator+(const lin &)` (`lin.cpp:11-28`); the known term added is the *left* operand's own (`lin.cpp:26`). -/
def add (a b : Lin) : Lin := ⟨addTerms a.vars b.vars, a.kt + a.kt⟩
/-- `lin::operator+(const rational &)` (`lin.cpp:30-35`). -/
def addC (a : Lin) (c : ℚ) : Lin := ⟨a.vars, a.kt + c⟩
/-- `operator+(const rational &, const lin &)` (`lin.cpp:37-42`). -/
def cAdd (c : ℚ) (a : Lin) : Lin := ⟨a.vars, a.kt + c⟩
/-- `lin::operator-(const lin &)` (`lin.cpp:44-58`). -/
def sub (a b : Lin) : Lin := ⟨subTerms a.vars b.vars, a.kt - b.kt⟩
/-- `lin::operator-(const rational &)` (`lin.cpp:60-65`). -/
def subC (a : Lin) (c : ℚ) : Lin := ⟨a.vars, a.kt - c⟩
/-- `lin::operator-()` (`lin.cpp:172-179`): `res.vars` is empty, so `res.vars.at(v)` throws as soon as there is a variable, inside a
`noexcept` function. -/
def neg (a : Lin) : Except Err Lin :=
  match a.vars with
  | [] => .ok ⟨[], -a.kt⟩
  | _ :: _ => .error .terminate
/-- `operator-(const rational &, const lin &)` (`lin.cpp:67-72`). -/
def cSub (c : ℚ) (a : Lin) : Except Err Lin :=
  match a.neg with
  | .error e => .error e
  | .ok r => .ok ⟨r.vars, r.kt + c⟩
/-- `lin::operator*(const rational &)` (`lin.cpp:74-81`). -/
def mul (a : Lin) (c : ℚ) : Lin := ⟨a.vars.map (fun t => (t.1, t.2 * c)), a.kt * c⟩
/-- `operator*(const rational &, const lin &)` (`lin.cpp:83-90`). -/
def cMul (c : ℚ) (a : Lin) : Lin := ⟨a.vars.map (fun t => (t.1, t.2 * c)), a.kt * c⟩
/-- `lin::operator/(const rational &)` (`lin.cpp:92-99`). -/
def div (a : Lin) (c : ℚ) : Lin := ⟨a.vars.map (fun t => (t.1, t.2 / c)), a.kt / c⟩
/-- `lin::operator+=(const lin &)` (`lin.cpp:101-114`), the operands being different objects. -/
def addAssign (a b : Lin) : Lin := ⟨addTerms a.vars b.vars, a.kt + b.kt⟩
/-- `lin::operator+=(const rational &)` (`lin.cpp:116-120`). -/
def addAssignC (a : Lin) (c : ℚ) : Lin := ⟨a.vars, a.kt + c⟩
/-- `lin::operator-=(const lin &)` (`lin.cpp:122-135`), the operands being different objects. -/
def subAssign (a b : Lin) : Lin := ⟨subTerms a.vars b.vars, a.kt - b.kt⟩
/-- `a -= a` (`lin.cpp:122-135` with `&right == this`): the element under the iterator of the range-based loop is erased, then the
iterator is incremented. -/
def subAssignSelf (a : Lin) : Except Err Lin :=
  match a.vars with
  | [] => .ok ⟨[], a.kt - a.kt⟩
  | _ :: _ => .error .ub
/-- `lin::operator-=(const rational &)` (`lin.cpp:137-141`). -/
def subAssignC (a : Lin) (c : ℚ) : Lin := ⟨a.vars, a.kt - c⟩
/-- `lin::operator*=(const rational &)` (`lin.cpp:143-155`): the known term is not scaled. -/
def mulAssign (a : Lin) (c : ℚ) : Lin :=
  if c = 0 then ⟨[], 0⟩ else ⟨a.vars.map (fun t => (t.1, t.2 * c)), a.kt⟩
/-- `lin::operator/=(const rational &)` (`lin.cpp:157-170`), finite divisor. -/
def divAssign (a : Lin) (c : ℚ) : Except Err Lin :=
  if c = 0 then .error .assert else .ok ⟨a.vars.map (fun t => (t.1, t.2 / c)), a.kt / c⟩

section
variable {M : Type} [AddCommGroup M] [Module ℚ M]

/-- Value of a list of terms. -/
def evalT (x : Nat → M) (l : List (Nat × ℚ)) : M := (l.map (fun t => t.2 • x t.1)).sum

/-- Specification: the value of a linear expression under the valuation `x`; `u` is the unit of `M` (`1` for the rationals, the standard
unit for numbers with an infinitesimal part). -/
def eval (u : M) (x : Nat → M) (a : Lin) : M := evalT x a.vars + a.kt • u

end

/-- Each variable once, in increasing order. -/
def Sorted (a : Lin) : Prop := (a.vars.map Prod.fst).Pairwise (· < ·)

/-- Canonical expressions: each variable once, in increasing order, no zero coefficient. -/
def Canon (a : Lin) : Prop := a.Sorted ∧ ∀ t ∈ a.vars, t.2 ≠ 0

/-- The expression really depends on `v`: two valuations differing only at `v` give different values. -/
def Depends (a : Lin) (v : Nat) : Prop := ∃ x y : Nat → ℚ, (∀ w, w ≠ v → x w = y w) ∧ a.eval 1 x ≠ a.eval 1 y

end Lin
end Semitone
