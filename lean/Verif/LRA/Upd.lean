import Verif.LRA.Tab
import Mathlib.Tactic.Abel

/-!
# Changing the value of a non-basic variable
-/
namespace Semitone
namespace LRA
open Lin

theorem coef_getD {l : Lin} {v : Nat} (h : v ∉ keys l.vars) : (l.coef v).getD 0 = 0 := by
  have : l.coef v = none := lookup_none_iff.mpr h
  rw [this]; rfl

/-- Moving a non-basic variable by `θ` and the basic ones along with it keeps the rows. -/
theorem rows_shift {n : Nat} {row : Nat → Option Lin} (hs : Shape n row) {vals vals' : Nat → IQ} (hr : Rows row vals) {x : Nat} {θ : IQ}
    (h1 : vals' x = vals x + θ) (h2 : ∀ w, row w = none → w ≠ x → vals' w = vals w)
    (h3 : ∀ w l, row w = some l → vals' w = vals w + (l.coef x).getD 0 • θ) : Rows row vals' := by
  intro w l hl
  rw [h3 w l hl, hr w l hl]
  have hk : evalT vals' l.vars = evalT (upd vals x (vals x + θ)) l.vars := by
    refine evalT_congr (fun u hu => ?_)
    have hu' := (hs.vars w l hl u hu).2
    by_cases e : u = x
    · subst e; rw [upd_self, h1]
    · rw [upd_ne _ _ e, h2 u hu' e]
  unfold Lin.eval
  rw [hk]
  by_cases hx : x ∈ keys l.vars
  · obtain ⟨c, hc⟩ := mem_keys_iff.mp hx
    rw [evalT_upd _ _ _ (hs.canon w l hl).1 hc]
    have : l.coef x = some c := hc
    rw [this, Option.getD_some, add_sub_cancel_left]
    abel
  · rw [evalT_upd_not _ _ _ hx, coef_getD hx, zero_smul, add_zero]

theorem updRows_spec {t : LRA} {x : Nat} {v : IQ} : ∀ (rs : List Nat) (vals : Nat → IQ) (T : List (Nat × Nat × IQ)), rs.Nodup → x ∉ rs → (∀ r ∈ rs, ∃ l c, t.row r = some l ∧ l.coef x = some c) →
    ∃ vals' T', t.updRows x v rs (vals, T) = .ok (vals', T') ∧ (∀ w, w ∉ rs → vals' w = vals w) ∧
      ∀ w l, w ∈ rs → t.row w = some l → vals' w = vals w + (l.coef x).getD 0 • (v - vals x)
  | [], vals, T, _, _, _ => ⟨vals, T, rfl, fun _ _ => rfl, fun _ _ h => by cases h⟩
  | r :: rs, vals, T, hn, hx, h => by
    rw [List.nodup_cons] at hn
    obtain ⟨l, c, hl, hc⟩ := h r List.mem_cons_self
    have hxr : x ≠ r := fun e => hx (by rw [e]; exact List.mem_cons_self)
    obtain ⟨vals', T', a, b, d⟩ := updRows_spec rs (upd vals r (vals r + c • (v - vals x))) (t.tell r (vals r + c • (v - vals x)) T) hn.2 (fun h' => hx (List.mem_cons_of_mem _ h'))
      (fun s hs => h s (List.mem_cons_of_mem _ hs))
    refine ⟨vals', T', ?_, fun w hw => ?_, fun w l' hw hl' => ?_⟩
    · unfold updRows
      rw [hl]
      simp only [Option.bind_some, hc]
      exact a
    · rw [b w (fun h' => hw (List.mem_cons_of_mem _ h')), upd_ne _ _ (fun e => hw (by rw [e]; exact List.mem_cons_self))]
    · by_cases hwr : w = r
      · subst hwr
        rw [b w hn.1, upd_self]
        rw [hl] at hl'; injection hl' with hl'; subst hl'
        rw [hc]; rfl
      · rcases List.mem_cons.mp hw with e | hw
        · exact absurd e hwr
        · rw [d w l' hw hl', upd_ne _ _ hwr, upd_ne _ _ hxr]

/-- What a change of the values does. -/
structure Moved (row : Nat → Option Lin) (vals vals' : Nat → IQ) (x : Nat) : Prop where
  rows : Rows row vals'
  same : ∀ w, row w = none → w ≠ x → vals' w = vals w

theorem update_spec (E : LEnv) {t : LRA} (hs : Shape t.n t.row) (hw : Wat t.row t.tw) (hr : Rows t.row t.vals) {x : Nat} (hx : t.row x = none) (v : IQ) :
    ∃ vals' T', t.update E x v = .ok { t with vals := vals', told := T' } ∧ Moved t.row t.vals vals' x ∧ vals' x = v := by
  have hp := E.perm (t.tw x)
  have hm : ∀ r, r ∈ E.ord (t.tw x) ↔ ∃ l, t.row r = some l ∧ x ∈ keys l.vars := fun r => by rw [hp.mem_iff, hw.mem]
  have hxn : x ∉ E.ord (t.tw x) := fun h => by obtain ⟨l, hl, _⟩ := (hm x).mp h; rw [hx] at hl; cases hl
  obtain ⟨vals', T', a, b, c⟩ := updRows_spec (t := t) (x := x) (v := v) (E.ord (t.tw x)) t.vals t.told (hp.nodup_iff.mpr (hw.nodup x)) hxn (fun r hr => by
    obtain ⟨l, hl, hk⟩ := (hm r).mp hr
    obtain ⟨c, hc⟩ := mem_keys_iff.mp hk
    exact ⟨l, c, hl, hc⟩)
  have hsame : ∀ w, t.row w = none → w ≠ x → upd vals' x v w = t.vals w := by
    intro w h1 h2
    rw [upd_ne _ _ h2, b w (fun h => by obtain ⟨l, hl, _⟩ := (hm w).mp h; rw [h1] at hl; cases hl)]
  refine ⟨upd vals' x v, t.tell x v T', ?_, ⟨?_, hsame⟩, upd_self _ _ _⟩
  · unfold update
    rw [if_neg (by simp [basic, hx]), a]
  · refine rows_shift hs hr (x := x) (vals' := upd vals' x v) (θ := v - t.vals x) (by rw [upd_self]; abel) hsame (fun w l hl => ?_)
    have hwx : w ≠ x := fun e => by rw [e, hx] at hl; cases hl
    rw [upd_ne _ _ hwx]
    by_cases hk : x ∈ keys l.vars
    · exact c w l ((hm w).mpr ⟨l, hl, hk⟩) hl
    · rw [coef_getD hk, zero_smul, add_zero]
      exact b w (fun h => by obtain ⟨l', hl', hk'⟩ := (hm w).mp h; rw [hl] at hl'; injection hl' with e; subst e; exact hk hk')

theorem shiftRows_spec {t : LRA} {xi xj : Nat} {θ : IQ} : ∀ (rs : List Nat) (vals : Nat → IQ) (T : List (Nat × Nat × IQ)), rs.Nodup → (∀ r ∈ rs, ∃ l c, t.row r = some l ∧ l.coef xj = some c) →
    ∃ vals' T', t.shiftRows xi xj θ rs (vals, T) = .ok (vals', T') ∧ (∀ w, (w ∉ rs ∨ w = xi) → vals' w = vals w) ∧
      ∀ w l, w ∈ rs → w ≠ xi → t.row w = some l → vals' w = vals w + (l.coef xj).getD 0 • θ
  | [], vals, T, _, _ => ⟨vals, T, rfl, fun _ _ => rfl, fun _ _ h => by cases h⟩
  | r :: rs, vals, T, hn, h => by
    rw [List.nodup_cons] at hn
    obtain ⟨l, c, hl, hc⟩ := h r List.mem_cons_self
    by_cases hri : r = xi
    · obtain ⟨vals', T', a, b, d⟩ := shiftRows_spec (xi := xi) (θ := θ) rs vals T hn.2 (fun s hs => h s (List.mem_cons_of_mem _ hs))
      refine ⟨vals', T', by unfold shiftRows; rw [if_pos hri]; exact a, fun w hw => b w (hw.imp (fun h' h'' => h' (List.mem_cons_of_mem _ h'')) id), fun w l' hw hwi hl' => ?_⟩
      rcases List.mem_cons.mp hw with e | hw
      · exact absurd (e.trans hri) hwi
      · exact d w l' hw hwi hl'
    · obtain ⟨vals', T', a, b, d⟩ := shiftRows_spec (xi := xi) (θ := θ) rs (upd vals r (vals r + c • θ)) (t.tell r (vals r + c • θ) T) hn.2 (fun s hs => h s (List.mem_cons_of_mem _ hs))
      refine ⟨vals', T', ?_, fun w hw => ?_, fun w l' hw hwi hl' => ?_⟩
      · unfold shiftRows
        rw [if_neg hri, hl]
        simp only [Option.bind_some, hc]
        exact a
      · have hwr : w ≠ r := by
          rintro rfl
          rcases hw with hw | hw
          · exact hw List.mem_cons_self
          · exact hri hw
        rw [b w (hw.imp (fun h' h'' => h' (List.mem_cons_of_mem _ h'')) id), upd_ne _ _ hwr]
      · by_cases hwr : w = r
        · subst hwr
          rw [b w (Or.inl hn.1), upd_self]
          rw [hl] at hl'; injection hl' with hl'; subst hl'
          rw [hc]; rfl
        · rcases List.mem_cons.mp hw with e | hw
          · exact absurd e hwr
          · rw [d w l' hw hwi hl', upd_ne _ _ hwr]

theorem pivotAndUpdate_spec (E : LEnv) {t : LRA} (hs : Shape t.n t.row) (hw : Wat t.row t.tw) (hr : Rows t.row t.vals) {xi xj : Nat} {l : Lin} {a : ℚ}
    (hl : t.row xi = some l) (ha : l.coef xj = some a) (v : IQ) :
    ∃ row' tw' vals' T', t.pivotAndUpdate E xi xj v = .ok { t with row := row', tw := tw', vals := vals', told := T' } ∧ Shape t.n row' ∧ Wat row' tw' ∧
      Pivoted t.row row' xi xj ∧ Moved t.row t.vals vals' xj ∧ vals' xi = v ∧ vals' xj = t.vals xj + a⁻¹ • (v - t.vals xi) := by
  have hlc := hs.canon xi l hl
  have ha0 : a ≠ 0 := hlc.2 _ (lookup_some_mem ha)
  have hjv := hs.vars xi l hl xj (mem_keys_iff.mpr ⟨a, ha⟩)
  have hij : xj ≠ xi := fun e => by rw [e, hl] at hjv; cases hjv.2
  have hp := E.perm (t.tw xj)
  have hm : ∀ r, r ∈ E.ord (t.tw xj) ↔ ∃ l, t.row r = some l ∧ xj ∈ keys l.vars := fun r => by rw [hp.mem_iff, hw.mem]
  have hjn : xj ∉ E.ord (t.tw xj) := fun h => by obtain ⟨l, hl, _⟩ := (hm xj).mp h; rw [hjv.2] at hl; cases hl
  obtain ⟨vals', T', b1, b2, b3⟩ := shiftRows_spec (t := t) (xi := xi) (xj := xj) (θ := (1 / a) • (v - t.vals xi)) (E.ord (t.tw xj))
    (upd (upd t.vals xi v) xj (upd t.vals xi v xj + (1 / a) • (v - t.vals xi)))
    (t.tell xj (upd (upd t.vals xi v) xj (upd t.vals xi v xj + (1 / a) • (v - t.vals xi)) xj) (t.tell xi v t.told)) (hp.nodup_iff.mpr (hw.nodup xj)) (fun r hr => by
    obtain ⟨l, hl, hk⟩ := (hm r).mp hr
    obtain ⟨c, hc⟩ := mem_keys_iff.mp hk
    exact ⟨l, c, hl, hc⟩)
  obtain ⟨row', tw', c1, c2, c3, c4⟩ := pivot_spec E (t := { t with vals := vals', told := T' }) hs hw hl ha
  have hvi : vals' xi = v := by rw [b2 xi (Or.inr rfl), upd_ne _ _ (Ne.symm hij), upd_self]
  have hvj : vals' xj = t.vals xj + a⁻¹ • (v - t.vals xi) := by rw [b2 xj (Or.inl hjn), upd_self, upd_ne _ _ hij, one_div]
  have hsame : ∀ w, t.row w = none → w ≠ xj → vals' w = t.vals w := by
    intro w h1 h2
    have hwi : w ≠ xi := fun e => by rw [e, hl] at h1; cases h1
    rw [b2 w (Or.inl (fun h => by obtain ⟨l, hl, _⟩ := (hm w).mp h; rw [h1] at hl; cases hl)), upd_ne _ _ h2, upd_ne _ _ hwi]
  refine ⟨row', tw', vals', T', ?_, c2, c3, c4, ⟨rows_shift hs hr (θ := a⁻¹ • (v - t.vals xi)) hvj hsame (fun w l' hl' => ?_), hsame⟩, hvi, hvj⟩
  · unfold pivotAndUpdate
    rw [hl]
    simp only [Option.bind_some, ha]
    rw [if_neg (by simp [basic, hjv.2]), b1]
    exact c1
  · by_cases hwi : w = xi
    · subst hwi
      rw [hl] at hl'; injection hl' with e; subst e
      rw [ha, hvi, Option.getD_some, smul_smul, mul_inv_cancel₀ ha0, one_smul]
      abel
    · have hwj : w ≠ xj := fun e => by rw [e, hjv.2] at hl'; cases hl'
      by_cases hk : xj ∈ keys l'.vars
      · rw [b3 w l' ((hm w).mpr ⟨l', hl', hk⟩) hwi hl', upd_ne _ _ hwj, upd_ne _ _ hwi, one_div]
      · rw [coef_getD hk, zero_smul, add_zero, b2 w (Or.inl (fun h => by
          obtain ⟨l'', hl'', hk'⟩ := (hm w).mp h; rw [hl'] at hl''; injection hl'' with e; subst e; exact hk hk')), upd_ne _ _ hwj, upd_ne _ _ hwi]

end LRA
end Semitone
