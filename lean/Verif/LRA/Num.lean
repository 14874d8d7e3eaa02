import Verif.LRA.Model
import Verif.Lin.Props

/-!
# Numbers with an infinitesimal part
-/
namespace Semitone
namespace IQ

theorem fst_smul (c : ℚ) (a : IQ) : (ofLex (c • a)).1 = c * (ofLex a).1 := rfl
theorem snd_smul (c : ℚ) (a : IQ) : (ofLex (c • a)).2 = c * (ofLex a).2 := rfl
theorem fst_add (a b : IQ) : (ofLex (a + b)).1 = (ofLex a).1 + (ofLex b).1 := rfl
theorem snd_add (a b : IQ) : (ofLex (a + b)).2 = (ofLex a).2 + (ofLex b).2 := rfl
theorem fst_sub (a b : IQ) : (ofLex (a - b)).1 = (ofLex a).1 - (ofLex b).1 := rfl
theorem snd_sub (a b : IQ) : (ofLex (a - b)).2 = (ofLex a).2 - (ofLex b).2 := rfl

theorem le_def (a b : IQ) : a ≤ b ↔ (ofLex a).1 < (ofLex b).1 ∨ (ofLex a).1 = (ofLex b).1 ∧ (ofLex a).2 ≤ (ofLex b).2 := Prod.Lex.le_iff
theorem lt_def (a b : IQ) : a < b ↔ (ofLex a).1 < (ofLex b).1 ∨ (ofLex a).1 = (ofLex b).1 ∧ (ofLex a).2 < (ofLex b).2 := Prod.Lex.lt_iff

theorem smul_lt {c : ℚ} (hc : 0 < c) {a b : IQ} (h : a < b) : c • a < c • b := by
  rw [lt_def] at *
  rw [fst_smul, fst_smul, snd_smul, snd_smul]
  rcases h with h | ⟨h1, h2⟩
  · exact Or.inl (by nlinarith)
  · exact Or.inr ⟨by rw [h1], by nlinarith⟩

theorem smul_le {c : ℚ} (hc : 0 ≤ c) {a b : IQ} (h : a ≤ b) : c • a ≤ c • b := by
  rcases hc.lt_or_eq with hc | rfl
  · rcases h.lt_or_eq with h | rfl
    · exact (smul_lt hc h).le
    · exact le_refl _
  · simp

theorem smul_le_neg {c : ℚ} (hc : c ≤ 0) {a b : IQ} (h : a ≤ b) : c • b ≤ c • a := by
  have h1 : 0 ≤ -c := by linarith
  have := smul_le h1 h
  rw [neg_smul, neg_smul] at this
  exact neg_le_neg_iff.mp this

theorem smul_lt_neg {c : ℚ} (hc : c < 0) {a b : IQ} (h : a < b) : c • b < c • a := by
  have h1 : 0 < -c := by linarith
  have := smul_lt h1 h
  rw [neg_smul, neg_smul] at this
  exact neg_lt_neg_iff.mp this

theorem eps_pos : (0 : IQ) < eps := by rw [lt_def]; right; exact ⟨rfl, by show (0 : ℚ) < 1; norm_num⟩

theorem ofQ_add (a b : ℚ) : ofQ (a + b) = ofQ a + ofQ b := by
  show toLex (a + b, (0 : ℚ)) = toLex (a + b, (0 : ℚ) + 0)
  rw [add_zero]
theorem ofQ_smul (c a : ℚ) : ofQ (c * a) = c • ofQ a := by
  show toLex (c * a, (0 : ℚ)) = toLex (c * a, c * (0 : ℚ))
  rw [mul_zero]
theorem ofQ_neg (a : ℚ) : ofQ (-a) = - ofQ a := by
  show toLex (-a, (0 : ℚ)) = toLex (-a, -(0 : ℚ))
  rw [neg_zero]
theorem ofQ_zero : ofQ 0 = 0 := rfl
theorem ofQ_one : ofQ 1 = one := rfl
theorem ofQ_eq (k : ℚ) : ofQ k = k • one := by rw [← ofQ_one, ← ofQ_smul, mul_one]

theorem ofQ_le (a b : ℚ) : ofQ a ≤ ofQ b ↔ a ≤ b := by
  rw [le_def]
  show a < b ∨ a = b ∧ (0 : ℚ) ≤ 0 ↔ _
  simp only [le_refl, and_true]
  exact le_iff_lt_or_eq.symm
theorem ofQ_le_mk (a r i : ℚ) : ofQ a ≤ mk r i ↔ a < r ∨ a = r ∧ 0 ≤ i := le_def _ _
theorem mk_le_ofQ (a r i : ℚ) : mk r i ≤ ofQ a ↔ r < a ∨ r = a ∧ i ≤ 0 := le_def _ _

end IQ

namespace Lin

theorem evalT_ofQ (x : Nat → ℚ) (l : List (Nat × ℚ)) : evalT (fun v => IQ.ofQ (x v)) l = IQ.ofQ (evalT x l) := by
  induction l with
  | nil => rfl
  | cons t l ih =>
    show t.2 • IQ.ofQ (x t.1) + evalT (fun v => IQ.ofQ (x v)) l = IQ.ofQ (t.2 * x t.1 + evalT x l)
    rw [ih, IQ.ofQ_add, IQ.ofQ_smul]

/-- Rational valuations are valuations. -/
theorem eval_ofQ (x : Nat → ℚ) (l : Lin) : l.eval IQ.one (fun v => IQ.ofQ (x v)) = IQ.ofQ (l.eval 1 x) := by
  unfold eval
  rw [evalT_ofQ, IQ.ofQ_add, IQ.ofQ_eq (l.kt • 1)]
  simp

end Lin
end Semitone
