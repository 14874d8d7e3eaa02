import Verif.LRA.Hist
import Verif.LRA.Eps

/-!
# The expressions and the tests of the relational constructors
-/
namespace Semitone
namespace LRA
open Lin
variable {t : LRA} {A : Nat → Lit → Prop} {Fs : List (List BF)}

/-- Specification: the relation between two rationals. -/
def Rel4.holds : Rel4 → ℚ → ℚ → Prop
  | .lt, a, b => a < b
  | .leq, a, b => a ≤ b
  | .geq, a, b => b ≤ a
  | .gt, a, b => b < a

/-- A rational valuation, as a valuation with infinitesimal parts. -/
def rat (x : Nat → ℚ) : Nat → IQ := fun v => IQ.ofQ (x v)

theorem eval_rat (x : Nat → ℚ) (l : Lin) : l.eval IQ.one (rat x) = IQ.ofQ (l.eval 1 x) := eval_ofQ x l

theorem ofQ_inj {a b : ℚ} (h : IQ.ofQ a = IQ.ofQ b) : a = b := congrArg (fun a : IQ => (ofLex a).1) h

/-- Specification: what the literal of an assertion says about a rational valuation. -/
def _root_.Semitone.Asrt.says (a : Asrt) (x : Nat → ℚ) : Prop :=
  if a.le then IQ.ofQ (x a.x) ≤ a.v else a.v ≤ IQ.ofQ (x a.x)

/-- The bounds that the relational constructors create: `k`, `k - ε` for upper bounds, `k + ε` for lower bounds. -/
def _root_.Semitone.Asrt.Ok (a : Asrt) : Prop := (ofLex a.v).2 = 0 ∨ (ofLex a.v).2 = if a.le then -1 else 1

/-- For rational valuations, the literal is false exactly when the relation does not hold. -/
theorem means_iff {a : Asrt} (h : a.Ok) (s : Bool) (x : Nat → ℚ) : a.means s (rat x) ↔ (s = true ↔ a.says x) := by
  obtain ⟨le, b, y, v⟩ := a
  obtain ⟨r, i, rfl⟩ : ∃ r i, v = IQ.mk r i := ⟨(ofLex v).1, (ofLex v).2, rfl⟩
  unfold Asrt.Ok at h
  unfold Asrt.means Asrt.says rat
  simp only at h
  have e3 : IQ.mk r i + IQ.eps = IQ.mk r (i + 1) := by show toLex (r + 0, i + 1) = _; rw [add_zero]; rfl
  have e4 : IQ.mk r i - IQ.eps = IQ.mk r (i - 1) := by show toLex (r - 0, i - 1) = _; rw [sub_zero]; rfl
  have hi : (ofLex (IQ.mk r i)).2 = i := rfl
  rw [hi] at h
  cases le <;> cases s <;> simp [e3, e4, IQ.ofQ_le_mk, IQ.mk_le_ofQ] at * <;> grind

theorem ite_cases {P Q : Prop} [Decidable P] [Decidable Q] {b : Bool} (h : (if P then some true else if Q then some false else none) = some b) : (P ∧ b = true) ∨ (Q ∧ b = false) := by
  by_cases hP : P
  · rw [if_pos hP] at h; cases h; exact Or.inl ⟨hP, rfl⟩
  · rw [if_neg hP] at h
    by_cases hQ : Q
    · rw [if_pos hQ] at h; cases h; exact Or.inr ⟨hQ, rfl⟩
    · rw [if_neg hQ] at h; cases h

theorem says_iff (R : Rel4) (b y : Nat) (kt : ℚ) (x : Nat → ℚ) : (⟨R.le, b, y, R.bound kt⟩ : Asrt).says x ↔ R.holds (x y) (-kt) := by
  unfold Asrt.says
  cases R <;> simp only [Rel4.le, Rel4.bound, Rel4.holds, if_true, Bool.false_eq_true, if_false, ← IQ.ofQ_neg, IQ.ofQ_le, IQ.ofQ_le_mk, IQ.mk_le_ofQ] <;> norm_num

theorem bound_ok (R : Rel4) (b y : Nat) (kt : ℚ) : (⟨R.le, b, y, R.bound kt⟩ : Asrt).Ok := by
  unfold Asrt.Ok
  cases R
  · exact Or.inr rfl
  · left; simp only [Rel4.bound, ← IQ.ofQ_neg]; rfl
  · left; simp only [Rel4.bound, ← IQ.ofQ_neg]; rfl
  · exact Or.inr rfl

/-- The tests decide the relation for every value within the interval. -/
theorem test_sound {R : Rel4} {lb : WithBot IQ} {ub : WithTop IQ} {kt : ℚ} {b : Bool} (h : R.test lb ub (R.bound kt) = some b) {q : ℚ} (hq : InB lb ub (IQ.ofQ q)) :
    b = true ↔ R.holds q (-kt) := by
  obtain ⟨h1, h2⟩ := hq
  have up : ∀ c : IQ, ub ≤ (c : WithTop IQ) → IQ.ofQ q ≤ c := fun c h => WithTop.coe_le_coe.mp (h2.trans h)
  have up' : ∀ c : IQ, ub < (c : WithTop IQ) → IQ.ofQ q < c := fun c h => WithTop.coe_lt_coe.mp (h2.trans_lt h)
  have lw : ∀ c : IQ, (c : WithBot IQ) ≤ lb → c ≤ IQ.ofQ q := fun c h => WithBot.coe_le_coe.mp (h.trans h1)
  have lw' : ∀ c : IQ, (c : WithBot IQ) < lb → c < IQ.ofQ q := fun c h => WithBot.coe_lt_coe.mp (h.trans_le h1)
  have lt1 : ∀ r i : ℚ, IQ.ofQ q < IQ.mk r i ↔ q < r ∨ q = r ∧ 0 < i := fun r i => IQ.lt_def _ _
  have lt2 : ∀ r i : ℚ, IQ.mk r i < IQ.ofQ q ↔ r < q ∨ r = q ∧ i < 0 := fun r i => IQ.lt_def _ _
  have hk : -IQ.ofQ kt = IQ.mk (-kt) 0 := by rw [← IQ.ofQ_neg]; rfl
  cases R <;> simp only [Rel4.test, Rel4.bound, Rel4.holds, hk] at h ⊢ <;> rcases ite_cases h with ⟨e, rfl⟩ | ⟨e, rfl⟩
  · have := up' _ e; rw [lt1] at this; grind
  · have := lw _ e; rw [IQ.mk_le_ofQ] at this; grind
  · have := up _ e; rw [IQ.ofQ_le_mk] at this; grind
  · have := lw' _ e; rw [lt2] at this; grind
  · have := lw _ e; rw [IQ.mk_le_ofQ] at this; grind
  · have := up' _ e; rw [lt1] at this; grind
  · have := lw' _ e; rw [lt2] at this; grind
  · have := up _ e; rw [IQ.ofQ_le_mk] at this; grind

/-! ### Substitution of the basic variables -/

theorem lookup_addTerms_ne (r : List (Nat × ℚ)) : ∀ l : List (Nat × ℚ), (keys l).Pairwise (· < ·) → ∀ w, w ∉ keys r → (addTerms l r).lookup w = l.lookup w := by
  induction r with
  | nil => intro l _ w _; rfl
  | cons x r ih =>
    intro l hl w hw
    simp only [keys, List.map_cons, List.mem_cons, not_or] at hw
    show (addTerms (addTerm x.1 x.2 l) r).lookup w = _
    rw [ih _ (addTerm_sorted _ _ _ hl) w hw.2, lookup_addTerm _ _ _ _ hl, if_neg hw.1]

theorem lookup_subst {v w : Nat} {e l : Lin} (he : e.Canon) (hw : w ≠ v) (hl : w ∉ keys l.vars) : (subst v l e).coef w = e.coef w := by
  unfold subst Lin.coef
  rw [lookup_addTerms_ne _ _ (erase_canon he v).1 w (by rw [keys_map_mul]; exact hl)]
  show (e.vars.filter _).lookup w = _
  rw [lookup_filter_ne, if_neg hw]

theorem substBasic_spec (hs : Shape t.n t.row) : ∀ (vs : List Nat) (e : Lin), vs.Nodup → e.Canon → (∀ v ∈ vs, t.row v ≠ none → v ∈ keys e.vars) →
    (∀ w ∈ keys e.vars, w < t.n ∧ (t.row w ≠ none → w ∈ vs)) →
    (t.substBasic vs e).Canon ∧ (∀ w ∈ keys (t.substBasic vs e).vars, w < t.n ∧ t.row w = none) ∧
    ∀ X, Rows t.row X → (t.substBasic vs e).eval IQ.one X = e.eval IQ.one X
  | [], e, _, hc, _, h2 => ⟨hc, fun w hw => ⟨(h2 w hw).1, by
      by_contra hr
      exact absurd ((h2 w hw).2 hr) List.not_mem_nil⟩, fun _ _ => rfl⟩
  | v :: vs, e, hn, hc, h1, h2 => by
    obtain ⟨hv, hn⟩ := List.nodup_cons.mp hn
    unfold substBasic
    split
    · next hr =>
      refine substBasic_spec hs vs e hn hc (fun w hw => h1 w (List.mem_cons_of_mem _ hw)) (fun w hw => ⟨(h2 w hw).1, fun hr' => ?_⟩)
      rcases List.mem_cons.mp ((h2 w hw).2 hr') with rfl | h
      · exact absurd hr hr'
      · exact h
    · next l hl =>
      have hk : v ∈ keys e.vars := h1 v List.mem_cons_self (by rw [hl]; simp)
      obtain ⟨c, hcf⟩ := mem_keys_iff.mp hk
      have hcf : e.coef v = some c := hcf
      have hsub : (e.erase v).addAssign (l.mul ((e.coef v).getD 0)) = subst v l e := rfl
      rw [hsub]
      have hlc := hs.canon v l hl
      have hlv := hs.vars v l hl
      obtain ⟨a, b, d⟩ := substBasic_spec hs vs (subst v l e) hn (subst_canon hc hlc hcf) (fun w hw hr => by
        have hwv : w ≠ v := fun e => hv (e ▸ hw)
        have : w ∉ keys l.vars := fun hk => hr (hlv w hk).2
        have h3 := h1 w (List.mem_cons_of_mem _ hw) hr
        rw [mem_keys_iff] at h3 ⊢
        obtain ⟨c', h3⟩ := h3
        exact ⟨c', (lookup_subst hc hwv this).trans h3⟩) (fun w hw => by
        rcases subst_keys w hw with ⟨hwv, hw⟩ | hw
        · refine ⟨(h2 w hw).1, fun hr => ?_⟩
          rcases List.mem_cons.mp ((h2 w hw).2 hr) with h | h
          · exact absurd h hwv
          · exact h
        · exact ⟨(hlv w hw).1, fun hr => absurd (hlv w hw).2 hr⟩)
      refine ⟨a, b, fun X hX => ?_⟩
      rw [d X hX, eval_subst hc hcf, hX v l hl, sub_self, smul_zero, add_zero]

/-- The expression built by the constructors: canonical, over existing non-basic variables, equal to the difference in every solution of the rows. -/
theorem diffExpr_spec (h : Good t A Fs) {l r : Lin} (hl : l.Canon) (hr : r.Canon) (hvl : ∀ w ∈ keys l.vars, w < t.n) (hvr : ∀ w ∈ keys r.vars, w < t.n) :
    (t.diffExpr l r).Canon ∧ (∀ w ∈ keys (t.diffExpr l r).vars, w < t.n ∧ t.row w = none) ∧
    ∀ X, Defs t.defs X → (t.diffExpr l r).eval IQ.one X = l.eval IQ.one X - r.eval IQ.one X := by
  have hc : (l.sub r).Canon := (C26_canonical hl hr 0).2.2.1
  have hv : ∀ w ∈ keys (l.sub r).vars, w < t.n := by
    intro w hw
    have : (l.sub r).vars = addTerms l.vars (r.vars.map (fun t => (t.1, -t.2))) := subTerms_eq _ _
    rw [this] at hw
    rcases addTerms_keys _ _ w hw with h | h
    · exact hvl w h
    · rw [keys_map_mul] at h
      exact hvr w h
  obtain ⟨a, b, d⟩ := substBasic_spec h.tab.shape (keys (l.sub r).vars) (l.sub r) (hc.1.imp (fun h => Nat.ne_of_lt h)) hc (fun _ h _ => h) (fun w hw => ⟨hv w hw, fun _ => hw⟩)
  exact ⟨a, b, fun X hX => by rw [← eval_sub]; exact d X ((h.tab.equiv X).mpr hX)⟩

end LRA
end Semitone
