/-!
# Literals

Model of `/repo/include/lit.h` and `/repo/include/defs.h`.

`Lit` is the abstract literal (variable, sign) used by the rest of the development; `RawLit` is the
64-bit representation of the code. `Verif/LitProps.lean` proves that the two agree for every variable
number below `2^63 - 1`.
-/
namespace Semitone

/-- A propositional literal: `lit.h:12-49`. The code packs it as `x = (v << 1) + sign`
(`lit.h:15`); see `RawLit` for the packed form. `sign = true` is the direct literal. -/
structure Lit where
  var : Nat
  sign : Bool
deriving DecidableEq, Repr, Inhabited

namespace Lit

/-- `lit::operator!` (`lit.h:35-40`): flips the sign bit. -/
def neg (p : Lit) : Lit := ⟨p.var, !p.sign⟩

/-- `index(p)` (`lit.h:32`): the packed word, `2 * v + sign`. -/
def index (p : Lit) : Nat := 2 * p.var + (if p.sign then 1 else 0)

/-- `to_string(lit)` (`lit.h:45`). -/
def str (p : Lit) : String :=
  if p.sign then "b" ++ toString p.var else "¬b" ++ toString p.var

@[simp] theorem neg_neg (p : Lit) : p.neg.neg = p := by cases p; simp [neg]
@[simp] theorem neg_var (p : Lit) : p.neg.var = p.var := rfl
@[simp] theorem neg_sign (p : Lit) : p.neg.sign = !p.sign := rfl
theorem neg_ne (p : Lit) : p.neg ≠ p := by
  intro h; have := congrArg Lit.sign h; simp at this
theorem ne_neg (p : Lit) : p ≠ p.neg := fun h => neg_ne p h.symm
theorem neg_inj {p q : Lit} : p.neg = q.neg ↔ p = q :=
  ⟨fun h => by have := congrArg Lit.neg h; simpa using this, fun h => by rw [h]⟩
theorem neg_eq_iff {p q : Lit} : p.neg = q ↔ p = q.neg :=
  ⟨fun h => by rw [← h, neg_neg], fun h => by rw [h, neg_neg]⟩
/-- Two literals of the same variable are equal or complementary. -/
theorem eq_or_neg {p q : Lit} (h : p.var = q.var) : p = q ∨ p = q.neg := by
  cases p; cases q; simp_all [neg]; rename_i a b; cases a <;> cases b <;> simp

end Lit

/-- `FALSE_var = 0` (`defs.h:8`), `FALSE_lit(FALSE_var)` (`lit.h:51`): the direct literal of variable 0. -/
def FALSE_lit : Lit := ⟨0, true⟩
/-- `TRUE_lit = !FALSE_lit` (`lit.h:52`). -/
def TRUE_lit : Lit := FALSE_lit.neg

/-! ## The packed representation -/

/-- `class lit` (`lit.h:12-49`): one `size_t` word. -/
structure RawLit where
  x : BitVec 64
deriving DecidableEq

namespace RawLit

/-- `lit(var v, bool sign)` (`lit.h:15`): `x((v << 1) + sign)`, modulo `2^64`. -/
def mk' (v : BitVec 64) (sign : Bool) : RawLit := ⟨(v <<< 1) + (if sign then 1#64 else 0#64)⟩
/-- `lit()` (`lit.h:15`): the default arguments, `numeric_limits<var>::max()` and `true`. -/
def undef : RawLit := mk' (BitVec.allOnes 64) true
/-- `variable(p)` (`lit.h:23`): `p.x >> 1`. -/
def vr (p : RawLit) : BitVec 64 := p.x >>> 1
/-- `sign(p)` (`lit.h:30`): `p.x & 1`. -/
def sign (p : RawLit) : Bool := (p.x &&& 1#64) != 0#64
/-- `index(p)` (`lit.h:32`). -/
def index (p : RawLit) : BitVec 64 := p.x
/-- `is_undefined(p)` (`lit.h:33`): `p.x == numeric_limits<var>::max()`. -/
def isUndefined (p : RawLit) : Bool := p.x == BitVec.allOnes 64
/-- `operator!` (`lit.h:35-40`): `x ^ 1`. -/
def neg (p : RawLit) : RawLit := ⟨p.x ^^^ 1#64⟩

end RawLit
end Semitone
