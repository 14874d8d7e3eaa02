import Verif.Lit

/-!
# C01: literals encode and decode losslessly

Statements about the packed 64-bit representation (`RawLit`), for every variable number below `2^63 - 1`,
and the agreement of the packed operations with the abstract ones (`Lit`).
-/
namespace Semitone

/-- Variables the code can really hold: the undefined literal uses the remaining number. -/
def ValidVar (v : BitVec 64) : Prop := v.toNat < 2 ^ 63 - 1

private theorem mk'_toNat {v : BitVec 64} (h : ValidVar v) (b : Bool) :
    (RawLit.mk' v b).x.toNat = 2 * v.toNat + (if b then 1 else 0) := by
  unfold ValidVar at h
  cases b <;> simp [RawLit.mk', BitVec.toNat_add, BitVec.toNat_shiftLeft, Nat.shiftLeft_eq] <;> omega

private theorem xor_one_toNat (x : BitVec 64) :
    (x ^^^ 1#64).toNat = if x.toNat % 2 = 0 then x.toNat + 1 else x.toNat - 1 := by
  rw [BitVec.toNat_xor]
  have h1 : (1#64).toNat = 1 := rfl
  rw [h1]
  have hm : (x.toNat ^^^ 1) % 2 = (x.toNat + 1) % 2 := by
    have := Nat.xor_mod_two_eq_one (a := x.toNat) (b := 1)
    have h1 : ((1 : Nat) % 2 = 1) = True := by simp
    rw [h1, iff_true] at this
    omega
  have hd : (x.toNat ^^^ 1) / 2 = x.toNat / 2 := by
    have := Nat.xor_div_two (a := x.toNat) (b := 1)
    simpa using this
  split <;> omega

private theorem shr_toNat (x : BitVec 64) : (x >>> 1).toNat = x.toNat / 2 := by
  simp [BitVec.toNat_ushiftRight, Nat.shiftRight_eq_div_pow]

private theorem sign_iff (x : BitVec 64) : ((x &&& 1#64) != 0#64) = decide (x.toNat % 2 = 1) := by
  have : (x &&& 1#64).toNat = x.toNat % 2 := by
    rw [BitVec.toNat_and]; exact Nat.and_one_is_mod _
  rw [Bool.eq_iff_iff]
  simp only [bne_iff_ne, ne_eq, decide_eq_true_eq]
  rw [← BitVec.toNat_inj, this]
  simp

/-- The variable of `lit(v, sign)` is `v`. -/
theorem C01_variable (v : BitVec 64) (h : ValidVar v) (b : Bool) : (RawLit.mk' v b).vr = v := by
  apply BitVec.eq_of_toNat_eq
  rw [RawLit.vr, shr_toNat, mk'_toNat h]
  cases b <;> simp <;> omega

/-- The sign of `lit(v, sign)` is `sign`. -/
theorem C01_sign (v : BitVec 64) (h : ValidVar v) (b : Bool) : (RawLit.mk' v b).sign = b := by
  rw [RawLit.sign, sign_iff, mk'_toNat h]
  cases b <;> simp <;> omega

/-- `!` flips exactly the sign. -/
theorem C01_neg (v : BitVec 64) (h : ValidVar v) (b : Bool) : (RawLit.mk' v b).neg = RawLit.mk' v (!b) := by
  have : (RawLit.mk' v b).neg.x = (RawLit.mk' v (!b)).x := by
    apply BitVec.eq_of_toNat_eq
    rw [mk'_toNat h, RawLit.neg, xor_one_toNat, mk'_toNat h]
    cases b <;> simp <;> omega
  cases h1 : (RawLit.mk' v b).neg; cases h2 : RawLit.mk' v (!b); simp_all

/-- `!!p == p` and `p != !p`, for every word. -/
theorem C01_neg_involutive (p : RawLit) : p.neg.neg = p ∧ p.neg ≠ p := by
  constructor
  · cases p; simp [RawLit.neg, BitVec.xor_assoc]
  · intro h
    have := congrArg (fun q => q.x.toNat) h
    simp only [RawLit.neg, xor_one_toNat] at this
    split at this <;> omega

/-- Distinct pairs give distinct literals and distinct indices. -/
theorem C01_injective (v w : BitVec 64) (hv : ValidVar v) (hw : ValidVar w) (b c : Bool) :
    ((RawLit.mk' v b).index = (RawLit.mk' w c).index ↔ v = w ∧ b = c) ∧
    (RawLit.mk' v b = RawLit.mk' w c ↔ v = w ∧ b = c) := by
  have key : (RawLit.mk' v b).x = (RawLit.mk' w c).x → v = w ∧ b = c := by
    intro h
    have h1 := C01_variable v hv b
    have h2 := C01_variable w hw c
    have h3 := C01_sign v hv b
    have h4 := C01_sign w hw c
    simp only [RawLit.vr, RawLit.sign, h] at h1 h2 h3 h4
    exact ⟨h1.symm.trans h2, h3.symm.trans h4⟩
  refine ⟨⟨key, ?_⟩, ⟨fun h => key (congrArg RawLit.x h), ?_⟩⟩ <;> rintro ⟨rfl, rfl⟩ <;> rfl

/-- The index is `2 * v + sign` and no literal is the undefined one or its negation. -/
theorem C01_index (v : BitVec 64) (h : ValidVar v) (b : Bool) :
    (RawLit.mk' v b).index.toNat = Lit.index ⟨v.toNat, b⟩ ∧
    (RawLit.mk' v b).isUndefined = false ∧ (RawLit.mk' v b).neg.isUndefined = false ∧
    RawLit.mk' v b ≠ RawLit.undef ∧ RawLit.mk' v b ≠ RawLit.undef.neg := by
  have hu : ∀ c, (RawLit.mk' v c).x ≠ BitVec.allOnes 64 := by
    intro c hc
    have := congrArg BitVec.toNat hc
    rw [mk'_toNat h] at this
    unfold ValidVar at h
    simp at this
    cases c <;> simp at this <;> omega
  have hund : RawLit.undef.x = BitVec.allOnes 64 := by decide
  refine ⟨mk'_toNat h b, ?_, ?_, ?_, ?_⟩
  · simpa [RawLit.isUndefined] using hu b
  · rw [C01_neg v h]; simpa [RawLit.isUndefined] using hu (!b)
  · intro hc; exact hu b (hc ▸ hund)
  · intro hc
    apply hu (!b)
    rw [← C01_neg v h, hc, (C01_neg_involutive _).1, hund]

/-- The undefined literal is recognised. -/
theorem C01_undef : RawLit.undef.isUndefined = true := by decide

/-- Non-vacuity: the largest admissible variable. -/
example : ValidVar (BitVec.ofNat 64 (2 ^ 63 - 2)) ∧ (RawLit.mk' (BitVec.ofNat 64 (2 ^ 63 - 2)) true).neg.sign = false := by
  constructor
  · unfold ValidVar; decide
  · decide

/-- The bound is sharp: `lit(2^63 - 1)` is the undefined literal, and `2^63` wraps around to variable 0. -/
theorem C01_bound_sharp :
    RawLit.mk' (BitVec.ofNat 64 (2 ^ 63 - 1)) true = RawLit.undef ∧
    RawLit.mk' (BitVec.ofNat 64 (2 ^ 63)) true = RawLit.mk' 0#64 true := by decide

end Semitone
