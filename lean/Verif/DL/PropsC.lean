import Verif.DL.Query
import Mathlib.Algebra.Order.Ring.Rat
import Mathlib.Algebra.Order.Module.Defs

/-!
# C35: bounds, distances and matching of linear expressions
-/
namespace Semitone
namespace DL
variable {V W U : Type} [AddCommGroup W] [LinearOrder W] [IsOrderedAddMonoid W] [Dom W] [AddCommGroup U] [LinearOrder U] [IsOrderedAddMonoid U]

/-- The computations with numbers are exact where the code accepts them. -/
structure NumOK (N : Num W U) (I : Interp V W) : Prop where
  hi : ∀ x y w, I.emb x - I.emb y ≤ w → N.exact (I.q x - I.q y) ≤ N.emb w
  lo : ∀ x y w, w ≤ I.emb x - I.emb y → N.emb w ≤ N.exact (I.q x - I.q y)
  add : ∀ a b, N.exact (a + b) = N.exact a + N.exact b
  scale : ∀ c r, okQ W c → N.scale c (N.exact r) = N.exact (c * r)
  mono : ∀ c a b, 0 < c → okQ W c → a ≤ b → N.scale c a ≤ N.scale c b
  num : ∀ k, okQ W k → N.num k = N.exact k

theorem okZ {q : ℚ} : okQ ℤ q = true ↔ q = (q.num : ℚ) := by
  unfold okQ
  simp only [Dom.ofQ]
  split
  · next h => simp [((Rat.den_eq_one_iff q).mp h)]
  · next h =>
    simp only [Option.isSome_none, Bool.false_eq_true, false_iff]
    intro e
    exact h (by rw [e]; rfl)

theorem okR (q : ℚ) : okQ (ℚ ×ₗ ℤ) q = true := rfl

theorem intOK : NumOK intN intI where
  hi := fun x y w h => by simp only [intI, intN, id] at *; exact_mod_cast h
  lo := fun x y w h => by simp only [intI, intN, id] at *; exact_mod_cast h
  add := fun _ _ => rfl
  scale := fun c r h => by simp only [intN, id]; rw [← okZ.mp h]; ring
  mono := fun c a b h0 h hab => by simp only [intN]; rw [← okZ.mp h]; exact mul_le_mul_of_nonneg_right hab h0.le
  num := fun k h => by simp only [intN, id]; exact (okZ.mp h).symm

theorem ratOK : NumOK ratN ratI where
  hi := fun x y w h => by
    simp only [ratI, ratN, id] at *
    rw [← toLex_sub, Prod.Lex.le_iff] at h
    rw [Prod.Lex.le_iff]
    simpa using h
  lo := fun x y w h => by
    simp only [ratI, ratN, id] at *
    rw [← toLex_sub, Prod.Lex.le_iff] at h
    rw [Prod.Lex.le_iff]
    simpa using h
  add := fun a b => by simp only [ratN]; rw [← toLex_add]; simp
  scale := fun c r h => by simp [ratN]
  mono := fun c a b h0 h hab => by
    simp only [ratN]
    rw [Prod.Lex.le_iff] at hab ⊢
    rcases hab with hab | ⟨e, hab⟩
    · exact Or.inl (mul_lt_mul_of_pos_left hab h0)
    · exact Or.inr ⟨by simp [e], mul_le_mul_of_nonneg_left hab h0.le⟩
  num := fun _ _ => rfl

namespace Ext
theorem below_plus {a : Ext U} {u v : U} (h : a.below u) : (a.plus v).below (u + v) := by
  cases a with
  | ninf => trivial
  | fin a => exact add_le_add_left h v
  | pinf => exact h
theorem above_plus {a : Ext U} {u v : U} (h : a.above u) : (a.plus v).above (u + v) := by
  cases a with
  | ninf => exact h
  | fin a => exact add_le_add_left h v
  | pinf => trivial
end Ext

variable {N : Num W U} {I : Interp V W}

theorem NumOK.below_times (hN : NumOK N I) {c : ℚ} (h0 : 0 < c) (hc : okQ W c) {a : Ext U} {r : ℚ} (h : a.below (N.exact r)) :
    (N.times c a).below (N.exact (c * r)) := by
  cases a with
  | ninf => simp only [Num.times, if_neg h0.not_gt]; trivial
  | fin a =>
    show N.scale c a ≤ _
    rw [← hN.scale c r hc]
    exact hN.mono _ _ _ h0 hc h
  | pinf => exact h.elim

theorem NumOK.above_times (hN : NumOK N I) {c : ℚ} (h0 : 0 < c) (hc : okQ W c) {a : Ext U} {r : ℚ} (h : a.above (N.exact r)) :
    (N.times c a).above (N.exact (c * r)) := by
  cases a with
  | pinf => simp only [Num.times, if_neg h0.not_gt]; trivial
  | fin a =>
    show _ ≤ N.scale c a
    rw [← hN.scale c r hc]
    exact hN.mono _ _ _ h0 hc h
  | ninf => exact h.elim

theorem distE_ok (hN : NumOK N I) {t : DL W} {A : List (List (Dist W × Bool))} (h : Hist (t, A)) {x : Nat → V} (hX : SatF (fun i => I.emb (x i)) A.flatten)
    {i j : Nat} (hi : i < t.nv) (hj : j < t.nv) {b : Ext U × Ext U} (hb : distE N t i j = .ok b) : Contains b (N.exact (I.q (x j) - I.q (x i))) := by
  unfold distE at hb
  split at hb
  · injection hb with hb
    subst hb
    have := (C27_distances_sound h _ hX).1 i j hi hj
    constructor
    · have h1 := this.1
      revert h1
      cases (t.distance i j).1 with
      | bot => intro _; trivial
      | coe a => intro h1; exact hN.lo _ _ _ (by exact_mod_cast h1)
    · have h1 := this.2
      revert h1
      cases (t.distance i j).2 with
      | top => intro _; trivial
      | coe a => intro h1; exact hN.hi _ _ _ (by exact_mod_cast h1)
  · cases hb

/-- The expressions whose bounds the code computes correctly: constants; one variable with a positive coefficient; in the integer theory also
`x - y + k` with `x` created before `y`. -/
def GoodBounds (N : Num W U) (l : Lin) : Prop :=
  l.vars = [] ∨ (∃ v c, 0 < c ∧ l.vars = [(v, c)]) ∨ (N.flip = true ∧ ∃ v w c, l.vars = [(v, 1), (w, c)])

theorem boundsL_ok (hN : NumOK N I) {t : DL W} {A : List (List (Dist W × Bool))} (h : Hist (t, A)) {x : Nat → V} (hX : SatF (fun i => I.emb (x i)) A.flatten)
    (h0 : I.q (x 0) = 0) {l : Lin} (hv : ∀ y ∈ l.vars, y.1 < t.nv) (hg : GoodBounds N l) {b : Ext U × Ext U} (hb : boundsL N t l = .ok b) :
    Contains b (N.exact (l.eval 1 (fun i => I.q (x i)))) := by
  have one : 0 < t.nv := h.good.1.core.one
  rcases hg with e | ⟨v, c, hc, e⟩ | ⟨hf, v, w, c, e⟩
  · unfold boundsL at hb
    rw [e] at hb
    simp only at hb
    split at hb
    · next hk =>
      injection hb with hb; subst hb
      rw [hN.num _ hk]
      simp [Contains, Ext.below, Ext.above, Lin.eval, e]
    · cases hb
  · unfold boundsL at hb
    rw [e] at hb
    simp only at hb
    split at hb
    · next hk =>
      simp only [Bool.and_eq_true] at hk
      split at hb
      · next hcap =>
        injection hb with hb; subst hb
        have hvn := hv (v, c) (by rw [e]; simp)
        have hd : distE N t 0 v = .ok (N.lo (t.lb v), N.hi (t.ub v)) := by
          unfold distE
          rw [if_pos ⟨one.trans_le h.good.1.core.cap, hcap⟩]
          rfl
        have := distE_ok hN h hX one hvn hd
        rw [h0, sub_zero] at this
        have he : l.eval 1 (fun i => I.q (x i)) = c * I.q (x v) + l.kt := by simp [Lin.eval, e]
        rw [he, hN.add, hN.num _ hk.2]
        exact ⟨Ext.below_plus (hN.below_times hc hk.1 this.1), Ext.above_plus (hN.above_times hc hk.1 this.2)⟩
      · cases hb
    · cases hb
  · unfold boundsL at hb
    rw [e] at hb
    simp only [hf, if_true, div_one] at hb
    split at hb
    · next hk =>
      simp only [Bool.and_eq_true, decide_eq_true_eq] at hk
      split at hb
      · cases hb
      · next d hd =>
        injection hb with hb; subst hb
        have := distE_ok hN h hX (hv (w, c) (by rw [e]; simp)) (hv (v, 1) (by rw [e]; simp)) hd
        have he : l.eval 1 (fun i => I.q (x i)) = (I.q (x v) - I.q (x w)) + l.kt := by
          simp [Lin.eval, e, hk.1]
          ring
        rw [he, hN.add, hN.num _ hk.2]
        exact ⟨Ext.below_plus this.1, Ext.above_plus this.2⟩
    · cases hb

/-- The pairs of expressions whose distance the code computes correctly: the difference is `0`, `x`, or `x - y` with `x` created before `y`. -/
def GoodDistance (l r : Lin) : Prop :=
  (l.sub r).kt = 0 ∧ ((l.sub r).vars = [] ∨ (∃ v, (l.sub r).vars = [(v, 1)]) ∨ ∃ v w c, (l.sub r).vars = [(v, 1), (w, c)])

theorem distanceL_ok (hN : NumOK N I) {t : DL W} {A : List (List (Dist W × Bool))} (h : Hist (t, A)) {x : Nat → V} (hX : SatF (fun i => I.emb (x i)) A.flatten)
    (h0 : I.q (x 0) = 0) {l r : Lin} (hz : okQ W 0) (hlv : ∀ y ∈ l.vars, y.1 < t.nv) (hrv : ∀ y ∈ r.vars, y.1 < t.nv) (hg : GoodDistance l r) {b : Ext U × Ext U}
    (hb : distanceL N t l r = .ok b) : Contains b (N.exact (r.eval 1 (fun i => I.q (x i)) - l.eval 1 (fun i => I.q (x i)))) := by
  have one : 0 < t.nv := h.good.1.core.one
  have hv : ∀ y ∈ (l.sub r).vars, y.1 < t.nv := sub_keys hlv hrv
  have hd : r.eval 1 (fun i => I.q (x i)) - l.eval 1 (fun i => I.q (x i)) = - (l.sub r).eval 1 (fun i => I.q (x i)) := by
    rw [Lin.eval_sub]; ring
  rw [hd]
  unfold distanceL at hb
  obtain ⟨hk, hg⟩ := hg
  generalize l.sub r = e at *
  rcases hg with he | ⟨v, he⟩ | ⟨v, w, c, he⟩
  · rw [he] at hb
    simp only at hb
    injection hb with hb; subst hb
    rw [hk, hN.num 0 hz]
    simp [Contains, Ext.below, Ext.above, Lin.eval, he, hk]
  · rw [he] at hb
    simp only at hb
    split at hb
    · have := distE_ok hN h hX (hv (v, 1) (by rw [he]; simp)) one hb
      have e2 : -e.eval 1 (fun i => I.q (x i)) = I.q (x 0) - I.q (x v) := by simp [Lin.eval, he, hk, h0]
      rwa [e2]
    · cases hb
  · rw [he] at hb
    simp only at hb
    split at hb
    · next hc =>
      simp only [Bool.and_eq_true, decide_eq_true_eq, div_one] at hc
      have := distE_ok hN h hX (hv (v, 1) (by rw [he]; simp)) (hv (w, c) (by rw [he]; simp)) hb
      have e2 : -e.eval 1 (fun i => I.q (x i)) = I.q (x w) - I.q (x v) := by simp [Lin.eval, he, hk, hc.1]; ring
      rwa [e2]
    · cases hb

/-- The pairs of expressions for which `matches` is correct: two constants; a constant and an expression whose bounds are correct; `c x + k` and
`c y + k`. -/
def GoodMatch (N : Num W U) (l r : Lin) : Prop :=
  (l.vars = [] ∧ r.vars = []) ∨ (l.vars = [] ∧ GoodBounds N r) ∨ (r.vars = [] ∧ GoodBounds N l) ∨
  (l.kt = r.kt ∧ ∃ v w c, c ≠ 0 ∧ l.vars = [(v, c)] ∧ r.vars = [(w, c)])

theorem matchesL_ok (hN : NumOK N I) {t : DL W} {A : List (List (Dist W × Bool))} (h : Hist (t, A)) {x : Nat → V} (hX : SatF (fun i => I.emb (x i)) A.flatten)
    (h0 : I.q (x 0) = 0) {l r : Lin} (hlv : ∀ y ∈ l.vars, y.1 < t.nv) (hrv : ∀ y ∈ r.vars, y.1 < t.nv) (hg : GoodMatch N l r)
    (hb : matchesL N t l r = .ok false) : l.eval 1 (fun i => I.q (x i)) ≠ r.eval 1 (fun i => I.q (x i)) := by
  intro heq
  have key : ∀ {a b : Ext U} {u : U}, Contains (a, b) u → (decide (a.below u) && decide (b.above u)) = true := by
    intro a b u h
    simp only [Bool.and_eq_true, decide_eq_true_eq]
    exact h
  unfold matchesL at hb
  split at hb
  · next e1 e2 =>
    injection hb with hb
    simp only [decide_eq_false_iff_not] at hb
    apply hb
    simpa [Lin.eval, e1, e2] using heq
  · next _ e1 e2 =>
    split at hb
    · cases hb
    · next b hbb =>
      injection hb with hb
      have hgb : GoodBounds N r := by
        rcases hg with ⟨_, e⟩ | ⟨_, e⟩ | ⟨e, _⟩ | ⟨_, v, w, c, _, e, _⟩
        · exact Or.inl e
        · exact e
        · exact Or.inl e
        · rw [e] at e1; cases e1
      have := boundsL_ok hN h hX h0 hrv hgb hbb
      rw [← heq] at this
      have hl : l.eval 1 (fun i => I.q (x i)) = l.kt := by simp [Lin.eval, e1]
      rw [hl] at this
      rw [key this] at hb
      cases hb
  · next _ e1 e2 =>
    split at hb
    · cases hb
    · next b hbb =>
      injection hb with hb
      have hgb : GoodBounds N l := by
        rcases hg with ⟨e, _⟩ | ⟨e, _⟩ | ⟨_, e⟩ | ⟨_, v, w, c, _, _, e⟩
        · exact Or.inl e
        · exact Or.inl e
        · exact e
        · rw [e] at e2; cases e2
      have := boundsL_ok hN h hX h0 hlv hgb hbb
      rw [heq] at this
      have hl : r.eval 1 (fun i => I.q (x i)) = r.kt := by simp [Lin.eval, e2]
      rw [hl] at this
      rw [key this] at hb
      cases hb
  · next v0 c0 v1 c1 e1 e2 =>
    split at hb
    · cases hb
    · next d hd =>
      injection hb with hb
      rcases hg with ⟨e, _⟩ | ⟨e, _⟩ | ⟨e, _⟩ | ⟨hk, v, w, c, hc, e, e'⟩
      · rw [e] at e1; cases e1
      · rw [e] at e1; cases e1
      · rw [e] at e2; cases e2
      · rw [e1] at e; rw [e2] at e'
        simp only [List.cons.injEq, Prod.mk.injEq, and_true] at e e'
        obtain ⟨rfl, rfl⟩ := e
        obtain ⟨rfl, rfl⟩ := e'
        have hq : I.q (x v1) - I.q (x v0) = 0 := by
          simp only [Lin.eval, e1, e2, hk, Lin.evalT_cons, Lin.evalT_nil, smul_eq_mul] at heq
          have : c1 * (I.q (x v1) - I.q (x v0)) = 0 := by linarith
          rcases mul_eq_zero.mp this with h | h
          · exact absurd h hc
          · exact h
        have := distE_ok hN h hX (hlv (v0, c1) (by rw [e1]; simp)) (hrv (v1, c1) (by rw [e2]; simp)) hd
        rw [hq] at this
        have h1 := Ext.below_plus (v := N.exact (l.kt - r.kt)) this.1
        have h2 := Ext.above_plus (v := N.exact (l.kt - r.kt)) this.2
        rw [← hN.add, hk, sub_self, add_zero] at h1 h2
        rw [hk, sub_self] at hb
        have h3 := key (a := d.1.plus (N.exact 0)) (b := d.2.plus (N.exact 0)) ⟨h1, h2⟩
        rw [h3] at hb
        cases hb
  · cases hb

/-- What `matches` tells about `c x + k` and `c' y + k'`: it ignores the coefficients and exchanges the known terms, so that the answer false means that no solution has `x + k' = y + k`. -/
theorem matchesL_two (hN : NumOK N I) {t : DL W} {A : List (List (Dist W × Bool))} (h : Hist (t, A)) {x : Nat → V} (hX : SatF (fun i => I.emb (x i)) A.flatten)
    {l r : Lin} {v w : Nat} {c c' : ℚ} (hl : l.vars = [(v, c)]) (hr : r.vars = [(w, c')]) (hv : v < t.nv) (hw : w < t.nv)
    (hb : matchesL N t l r = .ok false) : I.q (x v) + r.kt ≠ I.q (x w) + l.kt := by
  intro heq
  unfold matchesL at hb
  rw [hl, hr] at hb
  simp only at hb
  split at hb
  · cases hb
  · next d hd =>
    injection hb with hb
    have := distE_ok hN h hX hv hw hd
    have e : I.q (x w) - I.q (x v) + (l.kt - r.kt) = 0 := by linarith
    have h1 := Ext.below_plus (v := N.exact (l.kt - r.kt)) this.1
    have h2 := Ext.above_plus (v := N.exact (l.kt - r.kt)) this.2
    rw [← hN.add, e] at h1 h2
    simp only [Bool.and_eq_false_iff, decide_eq_false_iff_not] at hb
    rcases hb with hb | hb
    · exact hb h1
    · exact hb h2

/-- C35 (partial), integer theory: in every history, the interval reported by `bounds(l)` contains the value of `l` in every solution of the asserted
constraints, the one reported by `distance(l, r)` contains the value of `r - l`, and `matches(l, r)` answers false only if no solution makes the two
equal. Missing: the expressions outside of `GoodBounds`, `GoodDistance`, `GoodMatch`, for which the code is wrong (`C35_idl_witness`). -/
theorem C35_idl_partial {t : DL ℤ} {A : List (List (Dist ℤ × Bool))} (h : Hist (t, A)) {x : Nat → ℤ} (hX : SatF x A.flatten) (h0 : x 0 = 0)
    {l r : Lin} (hlv : ∀ y ∈ l.vars, y.1 < t.nv) (hrv : ∀ y ∈ r.vars, y.1 < t.nv) :
    (GoodBounds intN l → ∀ b, boundsL intN t l = .ok b → Contains b (l.eval 1 (fun i => (x i : ℚ)))) ∧
    (GoodDistance l r → ∀ b, distanceL intN t l r = .ok b → Contains b (r.eval 1 (fun i => (x i : ℚ)) - l.eval 1 (fun i => (x i : ℚ)))) ∧
    (GoodMatch intN l r → matchesL intN t l r = .ok false → l.eval 1 (fun i => (x i : ℚ)) ≠ r.eval 1 (fun i => (x i : ℚ))) := by
  have h0' : intI.q (x 0) = 0 := by simp [intI, h0]
  refine ⟨fun hg b hb => boundsL_ok intOK h hX h0' hlv hg hb, fun hg b hb => distanceL_ok intOK h hX h0' ?_ hlv hrv hg hb,
    fun hg hb => matchesL_ok intOK h hX h0' hlv hrv hg hb⟩
  rw [okZ]; rfl

/-- C35 (partial), rational theory; `toLex (q, 0)` is the number `q` without infinitesimal part. Missing: as above, and `x - y + k` in `bounds`
(`C35_rdl_witness`). -/
theorem C35_rdl_partial {t : DL (ℚ ×ₗ ℤ)} {A : List (List (Dist (ℚ ×ₗ ℤ) × Bool))} (h : Hist (t, A)) {x : Nat → ℚ}
    (hX : SatF (fun i => toLex (x i, 0)) A.flatten) (h0 : x 0 = 0) {l r : Lin} (hlv : ∀ y ∈ l.vars, y.1 < t.nv) (hrv : ∀ y ∈ r.vars, y.1 < t.nv) :
    (GoodBounds ratN l → ∀ b, boundsL ratN t l = .ok b → Contains b (toLex (l.eval 1 x, 0))) ∧
    (GoodDistance l r → ∀ b, distanceL ratN t l r = .ok b → Contains b (toLex (r.eval 1 x - l.eval 1 x, 0))) ∧
    (GoodMatch ratN l r → matchesL ratN t l r = .ok false → l.eval 1 x ≠ r.eval 1 x) := by
  exact ⟨fun hg b hb => boundsL_ok ratOK h hX h0 hlv hg hb, fun hg b hb => distanceL_ok ratOK h hX h0 (okR _) hlv hrv hg hb,
    fun hg hb => matchesL_ok ratOK h hX h0 hlv hrv hg hb⟩

/-- C35 (partial), what `matches(c x + k, c' y + k')` does tell when it answers false: that no solution has `x + k' = y + k`, the coefficients being ignored and the known terms exchanged. -/
theorem C35_matches_partial {t : DL ℤ} {A : List (List (Dist ℤ × Bool))} (h : Hist (t, A)) {x : Nat → ℤ} (hX : SatF x A.flatten) {l r : Lin} {v w : Nat} {c c' : ℚ}
    (hl : l.vars = [(v, c)]) (hr : r.vars = [(w, c')]) (hv : v < t.nv) (hw : w < t.nv) (hb : matchesL intN t l r = .ok false) : (x v : ℚ) + r.kt ≠ (x w : ℚ) + l.kt :=
  matchesL_two intOK h hX hl hr hv hw hb

/-- The same in the rational theory. -/
theorem C35_rdl_matches_partial {t : DL (ℚ ×ₗ ℤ)} {A : List (List (Dist (ℚ ×ₗ ℤ) × Bool))} (h : Hist (t, A)) {x : Nat → ℚ} (hX : SatF (fun i => toLex (x i, 0)) A.flatten)
    {l r : Lin} {v w : Nat} {c c' : ℚ} (hl : l.vars = [(v, c)]) (hr : r.vars = [(w, c')]) (hv : v < t.nv) (hw : w < t.nv) (hb : matchesL ratN t l r = .ok false) : x v + r.kt ≠ x w + l.kt :=
  matchesL_two ratOK h hX hl hr hv hw hb

/-! ### What fails -/

/-- A position for each of the first three time points. -/
def at3 {V : Type} [Zero V] (a b : V) : Nat → V
  | 1 => a
  | 2 => b
  | _ => 0

theorem satF1 {a b : ℤ} (h1 : a ≤ 1) (h2 : b - a ≤ 1) : SatF (at3 a b) [[(e2, true), (e1, true)]].flatten := by
  intro e he
  simp at he
  rcases he with rfl | rfl <;> rw [holds_iff]
  · exact h2
  · show a - 0 ≤ 1
    omega

/-- C35, what fails in the integer theory, in the network `tp1 <= 1`, `tp2 - tp1 <= 1`:
* the interval of `-tp1` is `[+∞, -1]`: the bounds are not swapped for a negative coefficient;
* the interval of `2 tp1 - 2 tp2` is that of `tp1 - tp2`;
* the distance from the constant 3 to the constant 5 is `-2`;
* the distance from `tp1 + 2` to the origin ignores the known term;
* `matches(tp1, tp2 + 2)` is false although the solution `tp1 = 0`, `tp2 = -2` makes them equal. -/
theorem C35_idl_witness : Hist (net1, [[(e2, true), (e1, true)]]) ∧
    (∃ b, boundsL intN net1 ⟨[(1, -1)], 0⟩ = .ok b ∧ ∃ x : Nat → ℤ, SatF x [[(e2, true), (e1, true)]].flatten ∧ x 0 = 0 ∧
      ¬ Contains b (Lin.eval 1 (fun i => (x i : ℚ)) ⟨[(1, -1)], 0⟩)) ∧
    (∃ b, boundsL intN net1 ⟨[(1, 2), (2, -2)], 0⟩ = .ok b ∧ ∃ x : Nat → ℤ, SatF x [[(e2, true), (e1, true)]].flatten ∧ x 0 = 0 ∧
      ¬ Contains b (Lin.eval 1 (fun i => (x i : ℚ)) ⟨[(1, 2), (2, -2)], 0⟩)) ∧
    (∃ b, distanceL intN net1 (.const 3) (.const 5) = .ok b ∧ ¬ Contains b (5 - 3 : ℚ)) ∧
    (∃ b, distanceL intN net1 ⟨[(1, 1)], 2⟩ (.const 0) = .ok b ∧ ∃ x : Nat → ℤ, SatF x [[(e2, true), (e1, true)]].flatten ∧ x 0 = 0 ∧
      ¬ Contains b (0 - Lin.eval 1 (fun i => (x i : ℚ)) ⟨[(1, 1)], 2⟩)) ∧
    (matchesL intN net1 ⟨[(1, 1)], 0⟩ ⟨[(2, 1)], 2⟩ = .ok false ∧ ∃ x : Nat → ℤ, SatF x [[(e2, true), (e1, true)]].flatten ∧ x 0 = 0 ∧
      Lin.eval 1 (fun i => (x i : ℚ)) ⟨[(1, 1)], 0⟩ = Lin.eval 1 (fun i => (x i : ℚ)) ⟨[(2, 1)], 2⟩) := by
  have d12 : net1.distance 1 2 = (⊥, ((1 : ℤ) : WithTop ℤ)) := by decide
  have d21 : net1.distance 2 1 = (((-1 : ℤ) : WithBot ℤ), ⊤) := by decide
  have d10 : net1.distance 1 0 = (((-1 : ℤ) : WithBot ℤ), ⊤) := by decide
  have cp : 2 < net1.cap := by decide
  have c1 : 1 < net1.cap := by decide
  have c0 : 0 < net1.cap := by decide
  refine ⟨net1_hist, ⟨_, rfl, at3 0 0, satF1 (by decide) (by decide), rfl, fun h => h.1⟩,
    ⟨(Ext.fin (-1), Ext.pinf), ?_, at3 0 1, satF1 (by decide) (by decide), rfl, fun h => ?_⟩, ⟨_, rfl, ?_⟩,
    ⟨(Ext.fin (-1), Ext.pinf), ?_, at3 1 0, satF1 (by decide) (by decide), rfl, fun h => ?_⟩, ?_, at3 0 (-2), satF1 (by decide) (by decide), rfl, ?_⟩
  · simp [boundsL, okZ, intN, distE, cp, c1, d21, Num.lo, Num.hi, Ext.plus]
  · have h1 := h.1
    simp only [Ext.below, Lin.eval, at3, Lin.evalT_cons, Lin.evalT_nil, smul_eq_mul] at h1
    norm_num at h1
  · simp [Contains, Ext.below, Ext.above, intN, Lin.sub, Lin.const]
    norm_num
  · simp [distanceL, Lin.sub, Lin.subTerms, Lin.const, okZ, intN, distE, c0, c1, d10, Num.lo, Num.hi]
  · have h1 := h.1
    simp only [Ext.below, Lin.eval, at3, Lin.evalT_cons, Lin.evalT_nil, smul_eq_mul] at h1
    norm_num at h1
  · simp [matchesL, intN, distE, c1, cp, d12, Num.lo, Num.hi, Ext.plus, Ext.below, Ext.above]
  · simp [Lin.eval, at3]

/-- A rational network: `tp2 - tp1 <= 1` is asserted. -/
def q1 : Dist (ℚ ×ₗ ℤ) := ⟨1, 1, 2, toLex (1, 0)⟩
def rnet0 : DL (ℚ ×ₗ ℤ) := ((((init 3).newVar.1).newVar.1).register q1)
def rnet1 : DL (ℚ ×ₗ ℤ) := ((rnet0.propagate (valOn [1]) ⟨1, true⟩).final (valOn [1])).getD rnet0

theorem rnet1_hist : Hist (rnet1, [[(q1, true)]]) := by
  have h : Hist (rnet0, [[]]) := by
    refine Hist.call (((Hist.init (by decide)).call Call.newVar).call Call.newVar) (Call.register (dd := q1) (by decide) (by decide) (by decide) (by decide) (by decide))
  refine h.call (Call.lit (val := valOn [1]) (p := ⟨1, true⟩) (dd := q1) (sg := true) (by rfl) (by decide) (TAct.final_ends (v := valOn [1]) ?_))
  have h3 : ((rnet0.propagate (valOn [1]) ⟨1, true⟩).final (valOn [1])).isSome = true := by decide +kernel
  unfold rnet1
  cases hh : (rnet0.propagate (valOn [1]) ⟨1, true⟩).final (valOn [1]) with
  | none => rw [hh] at h3; cases h3
  | some x => rfl

/-- C35, what fails in the rational theory, in the network `tp2 - tp1 <= 1`: the interval of `tp1 - tp2` is that of `tp2 - tp1`. -/
theorem C35_rdl_witness : Hist (rnet1, [[(q1, true)]]) ∧
    ∃ b, boundsL ratN rnet1 ⟨[(1, 1), (2, -1)], 0⟩ = .ok b ∧ ∃ x : Nat → ℚ, SatF (fun i => toLex (x i, 0)) [[(q1, true)]].flatten ∧ x 0 = 0 ∧
      ¬ Contains b (toLex (Lin.eval 1 x ⟨[(1, 1), (2, -1)], 0⟩, 0)) := by
  have d12 : rnet1.distance 1 2 = (⊥, ((toLex (1, 0) : ℚ ×ₗ ℤ) : WithTop (ℚ ×ₗ ℤ))) := by decide +kernel
  have cp : 2 < rnet1.cap := by decide +kernel
  have c1 : 1 < rnet1.cap := by decide +kernel
  refine ⟨rnet1_hist, (Ext.ninf, Ext.fin (toLex (1, 0))), ?_, at3 5 0, ?_, rfl, fun h => ?_⟩
  · simp [boundsL, okR, ratN, distE, cp, c1, d12, Num.lo, Num.hi, Ext.plus, ← toLex_add]
  · intro e he
    simp at he
    subst he
    rw [holds_iff]
    show toLex ((0 : ℚ), (0 : ℤ)) - toLex (5, 0) ≤ toLex (1, 0)
    rw [← toLex_sub, Prod.Lex.toLex_le_toLex]
    norm_num
  · have h1 := h.2
    simp only [Ext.above, Lin.eval, at3, Lin.evalT_cons, Lin.evalT_nil, smul_eq_mul, Prod.Lex.toLex_le_toLex] at h1
    norm_num at h1

/-- The hypotheses of the partial theorems are met: `2 tp1 + 3` in `net1` has bounds `[-∞, 5]`. -/
example : GoodBounds intN ⟨[(1, 2)], 3⟩ ∧ boundsL intN net1 ⟨[(1, 2)], 3⟩ = .ok (.ninf, .fin 5) := by
  refine ⟨Or.inr (Or.inl ⟨1, 2, by norm_num, rfl⟩), ?_⟩
  have c1 : 1 < net1.cap := by decide
  have h1 : net1.lb 1 = ⊥ := by decide
  have h2 : net1.ub 1 = ((1 : ℤ) : WithTop ℤ) := by decide
  simp [boundsL, okZ, intN, c1, h1, h2, Num.times, Num.lo, Num.hi, Ext.plus]
  norm_num

end DL
end Semitone
