import Verif.LRA.Terms

/-!
# The tableau: what a pivot does
-/
namespace Semitone
namespace LRA
open Lin

/-- The rows hold under the valuation `X`. -/
def Rows (row : Nat → Option Lin) (X : Nat → IQ) : Prop := ∀ v l, row v = some l → X v = l.eval IQ.one X

/-- The watches are the rows: `r` watches `v` when `v` occurs in the row of `r`. -/
structure Wat (row : Nat → Option Lin) (tw : Nat → List Nat) : Prop where
  mem : ∀ v r, r ∈ tw v ↔ ∃ l, row r = some l ∧ v ∈ keys l.vars
  nodup : ∀ v, (tw v).Nodup

/-- Shape of the rows: over existing non-basic variables. -/
structure Shape (n : Nat) (row : Nat → Option Lin) : Prop where
  lt : ∀ v l, row v = some l → v < n
  canon : ∀ v l, row v = some l → l.Canon
  vars : ∀ v l, row v = some l → ∀ w ∈ keys l.vars, w < n ∧ row w = none

theorem mem_ins {r s : Nat} {l : List Nat} : s ∈ ins r l ↔ s = r ∨ s ∈ l := by
  unfold ins
  split
  · next h =>
    constructor
    · exact Or.inr
    · rintro (rfl | h')
      · exact h
      · exact h'
  · exact List.mem_cons

theorem nodup_ins {r : Nat} {l : List Nat} (h : l.Nodup) : (ins r l).Nodup := by
  unfold ins
  split
  · exact h
  · next h' => exact List.nodup_cons.mpr ⟨h', h⟩

/-- The row `l` after the substitution of `xj` by `e`. -/
def subst (xj : Nat) (e l : Lin) : Lin :=
  ⟨addTerms (l.erase xj).vars (e.vars.map (fun t => (t.1, t.2 * (l.coef xj).getD 0))), l.kt + e.kt * (l.coef xj).getD 0⟩

theorem erase_canon {l : Lin} (h : l.Canon) (v : Nat) : (l.erase v).Canon :=
  ⟨filter_sorted h.1 _, fun t ht => h.2 t (List.mem_of_mem_filter ht)⟩

theorem mem_keys_erase {l : Lin} {v w : Nat} : w ∈ keys (l.erase v).vars ↔ w ≠ v ∧ w ∈ keys l.vars := by
  constructor
  · intro h
    obtain ⟨t, ht, rfl⟩ := List.mem_map.mp h
    simp only [Lin.erase, List.mem_filter, decide_eq_true_eq] at ht
    exact ⟨ht.2, mem_keys_of ht.1⟩
  · rintro ⟨h1, h2⟩
    obtain ⟨t, ht, rfl⟩ := List.mem_map.mp h2
    exact mem_keys_of (List.mem_filter.mpr ⟨ht, by simpa using h1⟩)

theorem addTerms_keys (r : List (Nat × ℚ)) : ∀ l : List (Nat × ℚ), ∀ w ∈ keys (addTerms l r), w ∈ keys l ∨ w ∈ keys r := by
  induction r with
  | nil => intro l w h; exact Or.inl h
  | cons t r ih =>
    intro l w h
    rcases ih (addTerm t.1 t.2 l) w h with h | h
    · obtain ⟨u, hu, rfl⟩ := List.mem_map.mp h
      rcases addTerm_keys t.1 t.2 l u hu with e | ⟨u', hu', e⟩
      · exact Or.inr (by rw [e]; simp [keys])
      · exact Or.inl (e ▸ mem_keys_of hu')
    · exact Or.inr (List.mem_cons_of_mem _ h)

theorem keys_map_mul (l : List (Nat × ℚ)) (f : Nat × ℚ → ℚ) : keys (l.map (fun t => (t.1, f t))) = keys l := by
  simp [keys, Function.comp_def]

theorem subst_canon {xj : Nat} {e l : Lin} (hl : l.Canon) (he : e.Canon) {c : ℚ} (hc : l.coef xj = some c) : (subst xj e l).Canon := by
  have hc0 : c ≠ 0 := hl.2 _ (lookup_some_mem hc)
  have h := erase_canon hl xj
  unfold subst
  rw [hc]
  refine (addTerms_canon _ _ h.1).imp_right (fun h' => h' h.2 ?_)
  intro t ht
  obtain ⟨u, hu, rfl⟩ := List.mem_map.mp ht
  exact mul_ne_zero (he.2 u hu) hc0

theorem subst_keys {xj : Nat} {e l : Lin} : ∀ w ∈ keys (subst xj e l).vars, (w ≠ xj ∧ w ∈ keys l.vars) ∨ w ∈ keys e.vars := by
  intro w hw
  rcases addTerms_keys _ _ w hw with h | h
  · exact Or.inl (mem_keys_erase.mp h)
  · rw [keys_map_mul] at h
    exact Or.inr h

theorem eval_subst {xj : Nat} {e l : Lin} (hl : l.Canon) {c : ℚ} (hc : l.coef xj = some c) (X : Nat → IQ) :
    (subst xj e l).eval IQ.one X = l.eval IQ.one X + c • (e.eval IQ.one X - X xj) := by
  unfold subst Lin.eval
  rw [hc]
  simp only [Option.getD_some]
  rw [evalT_addTerms, evalT_scale, evalT_split X hl.1 hc]
  show evalT X (l.vars.filter (fun t => decide (t.1 ≠ xj))) + c • evalT X e.vars + (l.kt + e.kt * c) • IQ.one = _
  module

/-- The loop over the terms. -/
theorem substTerms_spec (r : Nat) (cc : ℚ) : ∀ (ts l : List (Nat × ℚ)) (tw : Nat → List Nat), (keys l).Pairwise (· < ·) → (∀ v, r ∈ tw v ↔ v ∈ keys l) →
    (∀ v, (tw v).Nodup) →
    (substTerms r cc ts (l, tw)).1 = addTerms l (ts.map (fun t => (t.1, t.2 * cc))) ∧
    (∀ v, r ∈ (substTerms r cc ts (l, tw)).2 v ↔ v ∈ keys (substTerms r cc ts (l, tw)).1) ∧
    (∀ v s, s ≠ r → (s ∈ (substTerms r cc ts (l, tw)).2 v ↔ s ∈ tw v)) ∧
    (∀ v, ((substTerms r cc ts (l, tw)).2 v).Nodup) ∧
    (∀ v, v ∉ keys ts → (substTerms r cc ts (l, tw)).2 v = tw v)
  | [], l, tw, _, h, hn => ⟨rfl, h, fun _ _ _ => Iff.rfl, hn, fun _ _ => rfl⟩
  | (v, c) :: ts, l, tw, hs, h, hn => by
    have hs' := addTerm_sorted v (c * cc) l hs
    have key : ∃ tw', substTerms r cc ((v, c) :: ts) (l, tw) = substTerms r cc ts (addTerm v (c * cc) l, tw') ∧
        (∀ w, r ∈ tw' w ↔ w ∈ keys (addTerm v (c * cc) l)) ∧ (∀ w s, s ≠ r → (s ∈ tw' w ↔ s ∈ tw w)) ∧ (∀ w, (tw' w).Nodup) ∧ (∀ w, w ≠ v → tw' w = tw w) := by
      have hk : ∀ w, w ∈ keys (addTerm v (c * cc) l) ↔ (addTerm v (c * cc) l).lookup w ≠ none := fun w => by
        rw [Ne, lookup_none_iff, not_not]
      have hk' : ∀ w, w ∈ keys l ↔ l.lookup w ≠ none := fun w => by
        rw [Ne, lookup_none_iff, not_not]
      cases hl : l.lookup v with
      | none =>
        refine ⟨upd tw v (ins r (tw v)), by simp only [substTerms, hl], fun w => ?_, fun w s hs => ?_, fun w => ?_, fun w hw => upd_ne _ _ hw⟩
        · rw [hk, lookup_addTerm _ _ _ _ hs, hl]
          by_cases hw : w = v
          · subst hw; simp [mem_ins]
          · rw [upd_ne _ _ hw, if_neg hw, h, hk']
        · by_cases hw : w = v
          · subst hw; rw [upd_self, mem_ins]; simp [hs]
          · rw [upd_ne _ _ hw]
        · by_cases hw : w = v
          · subst hw; rw [upd_self]; exact nodup_ins (hn w)
          · rw [upd_ne _ _ hw]; exact hn w
      | some d =>
        by_cases h0 : d + c * cc = 0
        · refine ⟨upd tw v ((tw v).erase r), by simp only [substTerms, hl, h0, if_true], fun w => ?_, fun w s hs => ?_, fun w => ?_, fun w hw => upd_ne _ _ hw⟩
          · rw [hk, lookup_addTerm _ _ _ _ hs, hl]
            by_cases hw : w = v
            · subst hw
              rw [upd_self, if_pos rfl]
              simp only [h0, if_true, ne_eq, not_true_eq_false, iff_false]
              exact (hn w).not_mem_erase
            · rw [upd_ne _ _ hw, if_neg hw, h, hk']
          · by_cases hw : w = v
            · subst hw; rw [upd_self]; exact List.mem_erase_of_ne hs
            · rw [upd_ne _ _ hw]
          · by_cases hw : w = v
            · subst hw; rw [upd_self]; exact (hn w).erase _
            · rw [upd_ne _ _ hw]; exact hn w
        · refine ⟨tw, by simp only [substTerms, hl, h0, if_false], fun w => ?_, fun w s hs => Iff.rfl, hn, fun w _ => rfl⟩
          rw [hk, lookup_addTerm _ _ _ _ hs, hl, h, hk']
          by_cases hw : w = v
          · subst hw; simp [h0, hl]
          · rw [if_neg hw]
    obtain ⟨tw', e, a1, a2, a3, a4⟩ := key
    obtain ⟨b1, b2, b3, b4, b5⟩ := substTerms_spec r cc ts (addTerm v (c * cc) l) tw' hs' a1 a3
    rw [e]
    refine ⟨b1, b2, fun w s hs => (b3 w s hs).trans (a2 w s hs), b4, fun w hw => ?_⟩
    rw [b5 w (fun h => hw (List.mem_cons_of_mem _ h)), a4 w (fun h => hw (by rw [h]; simp [keys]))]

/-- The loop over the rows. -/
theorem substRows_spec (xj : Nat) (e : Lin) (he : xj ∉ keys e.vars) (hec : e.Canon) : ∀ (rs : List Nat) (row : Nat → Option Lin) (tw : Nat → List Nat), rs.Nodup →
    (∀ v l, row v = some l → l.Canon) →
    (∀ r ∈ rs, ∃ l, row r = some l ∧ xj ∈ keys l.vars) → tw xj = [] → (∀ v, v ≠ xj → ∀ r, r ∈ tw v ↔ ∃ l, row r = some l ∧ v ∈ keys l.vars) → (∀ v, (tw v).Nodup) →
    ∃ tw', substRows xj e rs (row, tw) = .ok ((fun r => if r ∈ rs then (row r).map (subst xj e) else row r), tw') ∧ tw' xj = [] ∧
      (∀ v, v ≠ xj → ∀ r, r ∈ tw' v ↔ ∃ l, (if r ∈ rs then (row r).map (subst xj e) else row r) = some l ∧ v ∈ keys l.vars) ∧ ∀ v, (tw' v).Nodup
  | [], row, tw, _, _, _, h0, h1, h2 => ⟨tw, by simp [substRows], h0, by simpa using h1, h2⟩
  | r :: rs, row, tw, hnd, hcn, hr, h0, h1, h2 => by
    rw [List.nodup_cons] at hnd
    obtain ⟨l, hl, hx⟩ := hr r List.mem_cons_self
    obtain ⟨c, hc⟩ := mem_keys_iff.mp hx
    have hc : l.coef xj = some c := hc
    have hlc := hcn r l hl
    have hk : ∀ v, r ∈ tw v ↔ v ∈ keys (l.erase xj).vars := by
      intro v
      rw [mem_keys_erase]
      by_cases hv : v = xj
      · subst hv; rw [h0]; simp
      · rw [h1 v hv r]
        constructor
        · rintro ⟨l', e, h⟩; rw [hl] at e; injection e with e; subst e; exact ⟨hv, h⟩
        · rintro ⟨_, h⟩; exact ⟨l, hl, h⟩
    obtain ⟨a1, a2, a3, a4, a5⟩ := substTerms_spec r c e.vars (l.erase xj).vars tw (erase_canon hlc xj).1 hk h2
    have hsub : (⟨(substTerms r c e.vars ((l.erase xj).vars, tw)).1, l.kt + e.kt * c⟩ : Lin) = subst xj e l := by
      rw [a1]; unfold subst; rw [hc]; rfl
    have hsubk : keys (substTerms r c e.vars ((l.erase xj).vars, tw)).1 = keys (subst xj e l).vars := by rw [← hsub]
    obtain ⟨tw', b1, b2, b3, b4⟩ := substRows_spec xj e he hec rs (upd row r (some (subst xj e l))) (substTerms r c e.vars ((l.erase xj).vars, tw)).2 hnd.2
      (by
        intro v l' h
        by_cases hv : v = r
        · subst hv
          rw [upd_self] at h
          injection h with h
          rw [← h]
          exact subst_canon hlc hec hc
        · rw [upd_ne _ _ hv] at h; exact hcn v l' h)
      (by
        intro s hs
        have : s ≠ r := fun e => hnd.1 (e ▸ hs)
        rw [upd_ne _ _ this]
        exact hr s (List.mem_cons_of_mem _ hs))
      (by rw [a5 xj he, h0])
      (by
        intro v hv s
        by_cases hs : s = r
        · subst hs
          rw [a2, hsubk, upd_self]
          constructor
          · intro h; exact ⟨_, rfl, h⟩
          · rintro ⟨l', e, h⟩; injection e with e; rw [e]; exact h
        · rw [a3 v s hs, upd_ne _ _ hs, h1 v hv])
      a4
    have hrow : (fun s => if s ∈ rs then (upd row r (some (subst xj e l)) s).map (subst xj e) else upd row r (some (subst xj e l)) s) =
        fun s => if s ∈ r :: rs then (row s).map (subst xj e) else row s := by
      funext s
      by_cases hs : s = r
      · subst hs
        rw [if_neg hnd.1, if_pos List.mem_cons_self, upd_self, hl]; rfl
      · rw [upd_ne _ _ hs]
        simp [hs]
    refine ⟨tw', ?_, b2, fun v hv s => ?_, b4⟩
    · rw [← hrow, ← b1]
      conv => lhs; unfold substRows
      rw [hl]
      simp only [hc, Option.getD_some]
      rw [hsub]
    · rw [b3 v hv s]
      have := congrFun hrow s
      rw [this]

/-- Solving a row for one of its variables. -/
theorem solveFor_spec {l : Lin} (hl : l.Canon) {xi xj : Nat} {a : ℚ} (ha : l.coef xj = some a) (hi : xi ∉ keys l.vars) :
    ∃ e, solveFor l xi xj = .ok e ∧ e.Canon ∧ (∀ w, w ∈ keys e.vars ↔ w = xi ∨ (w ≠ xj ∧ w ∈ keys l.vars)) ∧
      (∀ X : Nat → IQ, X xi = l.eval IQ.one X ↔ X xj = e.eval IQ.one X) ∧ (l.kt = 0 → e.kt = 0) := by
  have ha0 : a ≠ 0 := hl.2 _ (lookup_some_mem ha)
  have ha1 : -a ≠ 0 := neg_ne_zero.mpr ha0
  have hec := erase_canon hl xj
  have hkd : keys ((l.erase xj).vars.map (fun t => (t.1, t.2 / -a))) = keys (l.erase xj).vars := keys_map_mul _ _
  have hin : xi ∉ keys (l.erase xj).vars := fun h => hi (mem_keys_erase.mp h).2
  refine ⟨⟨addTerm xi (1 / a) ((l.erase xj).vars.map (fun t => (t.1, t.2 / -a))), (l.erase xj).kt / -a⟩, ?_, ⟨?_, ?_⟩, fun w => ?_, fun X => ?_, fun h => ?_⟩
  · unfold solveFor
    rw [ha]
    simp only [Option.getD_some]
    unfold Lin.divAssign
    rw [if_neg ha1]
  · refine addTerm_sorted _ _ _ ?_
    show (keys _).Pairwise _
    rw [hkd]; exact hec.1
  · refine addTerm_nonzero _ (by simpa using ha0) _ ?_
    intro t ht
    obtain ⟨u, hu, rfl⟩ := List.mem_map.mp ht
    exact div_ne_zero (hec.2 u hu) ha1
  · have hlk : ∀ w : Nat, w ∈ keys (addTerm xi (1 / a) ((l.erase xj).vars.map (fun t => (t.1, t.2 / -a)))) ↔ w = xi ∨ w ∈ keys (l.erase xj).vars := by
      intro w
      have hs : (keys ((l.erase xj).vars.map (fun t => (t.1, t.2 / -a)))).Pairwise (· < ·) := by rw [hkd]; exact hec.1
      have hn : ((l.erase xj).vars.map (fun t => (t.1, t.2 / -a))).lookup xi = none := by rw [lookup_none_iff, hkd]; exact hin
      rw [← not_iff_not, ← lookup_none_iff, lookup_addTerm _ _ _ _ hs, hn]
      by_cases hw : w = xi
      · subst hw; simp
      · rw [if_neg hw, lookup_none_iff, hkd]
        simp only [hw, false_or]
    rw [hlk, mem_keys_erase]
  · have h1 : l.eval IQ.one X = a • X xj + (l.erase xj).eval IQ.one X := by
      unfold Lin.eval
      rw [evalT_split X hl.1 ha]
      show _ = a • X xj + (evalT X (l.vars.filter (fun t => decide (t.1 ≠ xj))) + l.kt • IQ.one)
      module
    have h2 : Lin.eval IQ.one X ⟨addTerm xi (1 / a) ((l.erase xj).vars.map (fun t => (t.1, t.2 / -a))), (l.erase xj).kt / -a⟩ =
        a⁻¹ • (X xi - (l.erase xj).eval IQ.one X) := by
      unfold Lin.eval
      simp only
      rw [evalT_addTerm, evalT_div, inv_neg, div_neg, one_div, div_eq_mul_inv]
      module
    rw [h1, h2]
    constructor
    · intro h
      rw [h, add_sub_cancel_right, smul_smul, inv_mul_cancel₀ ha0, one_smul]
    · intro h
      rw [h, smul_smul, mul_inv_cancel₀ ha0, one_smul, sub_add_cancel]
  · show l.kt / -a = 0
    rw [h, zero_div]

/-- What `pivot` does to the tableau. -/
structure Pivoted (row row' : Nat → Option Lin) (xi xj : Nat) : Prop where
  rows : ∀ X, Rows row' X ↔ Rows row X
  basic : ∀ v, (row' v).isSome ↔ v = xj ∨ (v ≠ xi ∧ (row v).isSome)
  kt : (∀ v l, row v = some l → l.kt = 0) → ∀ v l, row' v = some l → l.kt = 0

theorem newRow_wat {n : Nat} {row : Nat → Option Lin} {tw : Nat → List Nat} (hw : Wat row tw) {x : Nat} (hx : row x = none) (l : Lin) :
    Wat (upd row x (some l)) (fun v => if v ∈ l.vars.map Prod.fst then ins x (tw v) else tw v) := by
  constructor
  · intro v r
    have hxn : ∀ v, x ∉ tw v := fun v h => by
      obtain ⟨l', e, _⟩ := (hw.mem v x).mp h
      rw [hx] at e; cases e
    by_cases hr : r = x
    · subst hr
      rw [upd_self]
      constructor
      · intro h
        refine ⟨l, rfl, ?_⟩
        by_contra hn
        rw [if_neg hn] at h
        exact hxn v h
      · rintro ⟨l', e, h⟩
        injection e with e
        subst e
        rw [if_pos h, mem_ins]
        exact Or.inl rfl
    · rw [upd_ne _ _ hr, ← hw.mem v r]
      split
      · rw [mem_ins]; simp [hr]
      · exact Iff.rfl
  · intro v
    show (if v ∈ l.vars.map Prod.fst then ins x (tw v) else tw v).Nodup
    split
    · exact nodup_ins (hw.nodup v)
    · exact hw.nodup v

theorem pivot_spec (E : LEnv) {t : LRA} (hs : Shape t.n t.row) (hw : Wat t.row t.tw) {xi xj : Nat} {l : Lin} {a : ℚ} (hl : t.row xi = some l) (ha : l.coef xj = some a) :
    ∃ row' tw', t.pivot E xi xj = .ok { t with row := row', tw := tw' } ∧ Shape t.n row' ∧ Wat row' tw' ∧ Pivoted t.row row' xi xj := by
  have hlc := hs.canon xi l hl
  have hxj : xj ∈ keys l.vars := mem_keys_iff.mpr ⟨a, ha⟩
  have hjv := hs.vars xi l hl xj hxj
  have hij : xi ≠ xj := fun e => by rw [← e, hl] at hjv; cases hjv.2
  have hi : xi ∉ keys l.vars := fun h => by have := (hs.vars xi l hl xi h).2; rw [hl] at this; cases this
  obtain ⟨e, he1, he2, he3, he4, he5⟩ := solveFor_spec hlc ha hi
  have hje : xj ∉ keys e.vars := fun h => by
    rcases (he3 xj).mp h with h | h
    · exact hij h.symm
    · exact h.1 rfl
  -- after the removal of the row of xi
  let row1 := upd t.row xi none
  let tw1 : Nat → List Nat := fun v => if v ∈ l.vars.map Prod.fst then (t.tw v).erase xi else t.tw v
  have hw1 : Wat row1 tw1 := by
    constructor
    · intro v r
      show r ∈ (if v ∈ l.vars.map Prod.fst then (t.tw v).erase xi else t.tw v) ↔ ∃ l, upd t.row xi none r = some l ∧ _
      by_cases hr : r = xi
      · subst hr
        rw [upd_self]
        constructor
        · intro h
          exfalso
          split at h
          · exact (hw.nodup v).not_mem_erase h
          · next hn =>
            obtain ⟨l', e', h'⟩ := (hw.mem v r).mp h
            rw [hl] at e'; injection e' with e'; subst e'
            exact hn h'
        · rintro ⟨_, e', _⟩; cases e'
      · rw [upd_ne _ _ hr, ← hw.mem v r]
        split
        · exact List.mem_erase_of_ne hr
        · exact Iff.rfl
    · intro v
      show (if v ∈ l.vars.map Prod.fst then (t.tw v).erase xi else t.tw v).Nodup
      split
      · exact (hw.nodup v).erase _
      · exact hw.nodup v
  have hperm := E.perm (tw1 xj)
  have hmem : ∀ r, r ∈ E.ord (tw1 xj) ↔ ∃ l, row1 r = some l ∧ xj ∈ keys l.vars := fun r => by rw [hperm.mem_iff, hw1.mem]
  have hcn1 : ∀ v l', row1 v = some l' → l'.Canon := by
    intro v l' h
    by_cases hv : v = xi
    · subst hv; simp only [row1, upd_self] at h; cases h
    · simp only [row1, upd_ne _ _ hv] at h; exact hs.canon v l' h
  obtain ⟨tw2, b1, b2, b3, b4⟩ := substRows_spec xj e hje he2 (E.ord (tw1 xj)) row1 (upd tw1 xj []) (hperm.nodup_iff.mpr (hw1.nodup xj)) hcn1
    (fun r hr => (hmem r).mp hr) (upd_self _ _ _) (fun v hv r => by rw [upd_ne _ _ hv]; exact hw1.mem v r)
    (fun v => by by_cases hv : v = xj <;> simp [upd, hv, hw1.nodup])
  generalize hrow2 : (fun r => if r ∈ E.ord (tw1 xj) then (row1 r).map (subst xj e) else row1 r) = row2 at b1
  have hrow2' : ∀ r, row2 r = (row1 r).map (fun l' => if xj ∈ keys l'.vars then subst xj e l' else l') := by
    intro r
    rw [← hrow2]
    show (if r ∈ E.ord (tw1 xj) then (row1 r).map (subst xj e) else row1 r) = _
    cases hr : row1 r with
    | none => simp
    | some l' =>
      by_cases hx : xj ∈ keys l'.vars
      · rw [if_pos ((hmem r).mpr ⟨l', hr, hx⟩)]; simp [hx]
      · rw [if_neg (fun h => by obtain ⟨l'', e', h'⟩ := (hmem r).mp h; rw [hr] at e'; injection e' with e'; subst e'; exact hx h')]
        simp only [Option.map_some]
        rw [if_neg hx]
  have hw2 : Wat row2 tw2 := by
    refine ⟨fun v r => ?_, b4⟩
    by_cases hv : v = xj
    · subst hv
      rw [b2]
      simp only [List.not_mem_nil, false_iff]
      rintro ⟨l', e', h'⟩
      rw [hrow2'] at e'
      cases hr : row1 r with
      | none => rw [hr] at e'; cases e'
      | some l'' =>
        rw [hr] at e'
        simp only [Option.map_some, Option.some.injEq] at e'
        split at e'
        · rw [← e'] at h'
          rcases subst_keys v h' with h | h
          · exact h.1 rfl
          · exact hje h
        · next hn => rw [← e'] at h'; exact hn h'
    · rw [b3 v hv r, ← hrow2]
  have hxj2 : row2 xj = none := by
    rw [hrow2']
    show Option.map _ (upd t.row xi none xj) = none
    rw [upd_ne _ _ (Ne.symm hij), hjv.2]; rfl
  -- the rows other than those of xi and xj
  have hother : ∀ v l', upd row2 xj (some e) v = some l' → (v = xj ∧ l' = e) ∨ (v ≠ xj ∧ v ≠ xi ∧ ∃ l0, t.row v = some l0 ∧
      l' = if xj ∈ keys l0.vars then subst xj e l0 else l0) := by
    intro v l' h
    by_cases hv : v = xj
    · subst hv; rw [upd_self] at h; injection h with h; exact Or.inl ⟨rfl, h.symm⟩
    · rw [upd_ne _ _ hv, hrow2'] at h
      by_cases hvi : v = xi
      · subst hvi; simp [row1] at h
      · simp only [row1, upd_ne _ _ hvi] at h
        cases h0 : t.row v with
        | none => rw [h0] at h; cases h
        | some l0 =>
          rw [h0] at h
          simp only [Option.map_some, Option.some.injEq] at h
          exact Or.inr ⟨hv, hvi, l0, rfl, h.symm⟩
  have hnon : ∀ w, w ≠ xj → t.row w = none ∨ w = xi → upd row2 xj (some e) w = none := by
    intro w hwj hw'
    rw [upd_ne _ _ hwj, hrow2']
    simp only [row1]
    rcases hw' with hw' | rfl
    · by_cases hwi : w = xi
      · subst hwi; rw [upd_self]; rfl
      · rw [upd_ne _ _ hwi, hw']; rfl
    · rw [upd_self]; rfl
  have hke : ∀ w ∈ keys e.vars, w < t.n ∧ upd row2 xj (some e) w = none := by
    intro w hw'
    have hwj : w ≠ xj := fun h => hje (h ▸ hw')
    rcases (he3 w).mp hw' with rfl | ⟨_, h⟩
    · exact ⟨hs.lt _ _ hl, hnon _ hwj (Or.inr rfl)⟩
    · obtain ⟨h1, h2⟩ := hs.vars xi l hl w h
      exact ⟨h1, hnon w hwj (Or.inl h2)⟩
  refine ⟨upd row2 xj (some e), _, ?_, ⟨?_, ?_, ?_⟩, newRow_wat (n := t.n) hw2 hxj2 e, ⟨?_, ?_, ?_⟩⟩
  · unfold pivot
    rw [hl]
    simp only
    rw [he1]
    simp only
    change (match substRows xj e (E.ord (tw1 xj)) (row1, upd tw1 xj []) with
      | .error e => Except.error e
      | .ok (row, tw) => .ok ({ t with row := row, tw := tw }.newRow xj e)) = _
    rw [b1]
    rfl
  · intro v l' h
    rcases hother v l' h with ⟨rfl, _⟩ | ⟨_, _, l0, h0, _⟩
    · exact hjv.1
    · exact hs.lt v l0 h0
  · intro v l' h
    rcases hother v l' h with ⟨_, rfl⟩ | ⟨_, _, l0, h0, rfl⟩
    · exact he2
    · split
      · next hx =>
        obtain ⟨c, hc⟩ := mem_keys_iff.mp hx
        exact subst_canon (hs.canon v l0 h0) he2 hc
      · exact hs.canon v l0 h0
  · intro v l' h w hw'
    rcases hother v l' h with ⟨_, rfl⟩ | ⟨_, _, l0, h0, rfl⟩
    · exact hke w hw'
    · split at hw'
      · rcases subst_keys w hw' with ⟨h1, h2⟩ | h1
        · obtain ⟨h3, h4⟩ := hs.vars v l0 h0 w h2
          exact ⟨h3, hnon w h1 (Or.inl h4)⟩
        · exact hke w h1
      · next hx =>
        obtain ⟨h3, h4⟩ := hs.vars v l0 h0 w hw'
        exact ⟨h3, hnon w (fun h => hx (h ▸ hw')) (Or.inl h4)⟩
  · intro X
    constructor
    · intro h v l0 h0
      have hj : X xj = e.eval IQ.one X := h xj e (upd_self _ _ _)
      by_cases hvi : v = xi
      · subst hvi
        rw [hl] at h0; injection h0 with h0; subst h0
        exact (he4 X).mpr hj
      · have hvj : v ≠ xj := fun h => by rw [h, hjv.2] at h0; cases h0
        have h1 := h v (if xj ∈ keys l0.vars then subst xj e l0 else l0) (by
          rw [upd_ne _ _ hvj, hrow2']
          simp only [row1, upd_ne _ _ hvi, h0, Option.map_some])
        split at h1
        · next hx =>
          obtain ⟨c, hc⟩ := mem_keys_iff.mp hx
          rw [eval_subst (hs.canon v l0 h0) hc, ← hj, sub_self, smul_zero, add_zero] at h1
          exact h1
        · exact h1
    · intro h v l' h'
      have hj : X xj = e.eval IQ.one X := (he4 X).mp (h xi l hl)
      rcases hother v l' h' with ⟨rfl, rfl⟩ | ⟨_, _, l0, h0, rfl⟩
      · exact hj
      · split
        · next hx =>
          obtain ⟨c, hc⟩ := mem_keys_iff.mp hx
          rw [eval_subst (hs.canon v l0 h0) hc, ← hj, sub_self, smul_zero, add_zero]
          exact h v l0 h0
        · exact h v l0 h0
  · intro v
    by_cases hvj : v = xj
    · subst hvj; simp
    · rw [upd_ne _ _ hvj, hrow2']
      simp only [row1]
      by_cases hvi : v = xi
      · subst hvi; simp [hij]
      · rw [upd_ne _ _ hvi]; simp [hvi, hvj]
  · intro hk v l' h'
    have hek : e.kt = 0 := he5 (hk xi l hl)
    rcases hother v l' h' with ⟨rfl, rfl⟩ | ⟨_, _, l0, h0, rfl⟩
    · exact hek
    · split
      · show l0.kt + e.kt * _ = 0
        rw [hek, hk v l0 h0]; ring
      · exact hk v l0 h0

end LRA
end Semitone
