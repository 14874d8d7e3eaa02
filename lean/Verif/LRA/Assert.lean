import Verif.LRA.Inv

/-!
# Assertion of a bound
-/
namespace Semitone
namespace LRA
open Lin
variable {t t' : LRA} {A A' : Nat → Lit → Prop} {Fs : List (List BF)}

/-- Same variables, rows, definitions and assertions; same number of levels. -/
structure Same (t t' : LRA) : Prop where
  n : t'.n = t.n
  row : t'.row = t.row
  tw : t'.tw = t.tw
  exprs : t'.exprs = t.exprs
  sas : t'.sas = t.sas
  vas : t'.vas = t.vas
  aw : t'.aw = t.aw
  defs : t'.defs = t.defs
  facts : t'.facts = t.facts
  lay : t'.layers.length = t.layers.length

theorem Same.refl (t : LRA) : Same t t := ⟨rfl, rfl, rfl, rfl, rfl, rfl, rfl, rfl, rfl, rfl⟩

theorem Same.mod (h : Same t t') (α : Asg) (X : Nat → IQ) : Mod t' α X ↔ Mod t α X := mod_congr h.vas h.defs h.facts α X

theorem setLo_same (t : LRA) (x : Nat) (v : IQ) (p : Lit) : Same t (t.setLo x v p) := by
  refine ⟨rfl, rfl, rfl, rfl, rfl, rfl, rfl, rfl, rfl, ?_⟩
  unfold setLo
  simp only
  split <;> simp [*]

theorem setHi_same (t : LRA) (x : Nat) (v : IQ) (p : Lit) : Same t (t.setHi x v p) := by
  refine ⟨rfl, rfl, rfl, rfl, rfl, rfl, rfl, rfl, rfl, ?_⟩
  unfold setHi
  simp only
  split <;> simp [*]

/-- The jobs of the rows never fail. -/
theorem rowJobsLb_ok (hw : Wat t.row t.tw) {x r : Nat} (h : r ∈ t.tw x) : ∃ J, t.rowJobsLb x r = .ok J := by
  obtain ⟨l, hl, hk⟩ := (hw.mem x r).mp h
  obtain ⟨c, hc⟩ := mem_keys_iff.mp hk
  have hc : l.coef x = some c := hc
  unfold rowJobsLb
  rw [hl]
  simp only [hc]
  split
  · split <;> exact ⟨_, rfl⟩
  · split <;> exact ⟨_, rfl⟩

theorem rowJobsUb_ok (hw : Wat t.row t.tw) {x r : Nat} (h : r ∈ t.tw x) : ∃ J, t.rowJobsUb x r = .ok J := by
  obtain ⟨l, hl, hk⟩ := (hw.mem x r).mp h
  obtain ⟨c, hc⟩ := mem_keys_iff.mp hk
  have hc : l.coef x = some c := hc
  unfold rowJobsUb
  rw [hl]
  simp only [hc]
  split
  · split <;> exact ⟨_, rfl⟩
  · split <;> exact ⟨_, rfl⟩

theorem rowsJobs_ok {f : Nat → Except Err (List (Lit × List Lit))} : ∀ rs : List Nat, (∀ r ∈ rs, ∃ J, f r = .ok J) →
    ∃ J, rowsJobs f rs = .ok J ∧ ∀ j ∈ J, ∃ r ∈ rs, ∃ K, f r = .ok K ∧ j ∈ K
  | [], _ => ⟨[], rfl, fun _ h => by cases h⟩
  | r :: rs, h => by
    obtain ⟨J, hJ⟩ := h r List.mem_cons_self
    obtain ⟨K, hK, hK'⟩ := rowsJobs_ok rs (fun s hs => h s (List.mem_cons_of_mem _ hs))
    refine ⟨J ++ K, by unfold rowsJobs; rw [hJ, hK], fun j hj => ?_⟩
    rcases List.mem_append.mp hj with hj | hj
    · exact ⟨r, List.mem_cons_self, J, hJ, hj⟩
    · obtain ⟨s, hs, K', hK1, hK2⟩ := hK' j hj
      exact ⟨s, List.mem_cons_of_mem _ hs, K', hK1, hK2⟩

theorem Good.vals {F : List (List BF)} (h : Good t A F) {vals' : Nat → IQ} {T' : List (Nat × Nat × IQ)} {x : Nat} (hm : Moved t.row t.vals vals' x) (hx : x < t.n → t.row x = none → InB (t.lo x) (t.hi x) (vals' x)) :
    Good { t with vals := vals', told := T' } A F := by
  refine ⟨⟨h.tab.shape, h.tab.wat, hm.rows, h.tab.equiv, h.tab.regs, h.tab.aw⟩, fun v hv hr => ?_, ?_⟩
  · show InB (t.lo v) (t.hi v) (vals' v)
    by_cases e : v = x
    · subst e; exact hx hv hr
    · rw [hm.same v hr e]; exact h.inb v hv hr
  · refine Lev.congr (t := t) (A := A) (A' := A) h.lev (fun α X => ?_) (Nat.le_refl _) (fun _ _ _ h => h)
    refine (mod_congr ?_ ?_ ?_ α X).mp <;> rfl

/-- `assert_lower`: already known, refused at once, or stored and propagated. -/
theorem assertLower_cases (E : LEnv) {F : List BF} (h : Good t A (F :: Fs)) {val : Lit → Option Bool} {x : Nat} {v : IQ} {p : Lit} (hx : x < t.n)
    (hp : A t.layers.length p) (hval : val p ≠ none) (hj : ∀ α X, Mod t α X → α.sat p → v ≤ X x) :
    (t.assertLower E val x v p = .ok t ∧ (v : WithBot IQ) ≤ t.lo x) ∨
    (t.assertLower E val x v p = .confl t [p.neg, (t.hiR x).neg] ∧ t.hi x < (v : WithTop IQ)) ∨
    ∃ t' J, Good t' A ((.lo x v :: F) :: Fs) ∧ Same t t' ∧ t'.lo x = (v : WithBot IQ) ∧ (t'.loR x = p ∧ t'.bd = (t.setLo x v p).bd ∧ t'.layers = (t.setLo x v p).layers) ∧
      rowsJobs (t'.rowJobsLb x) (E.ord (t'.tw x)) = .ok J ∧
      t.assertLower E val x v p = emit t' ((t'.aw x).filterMap (fun a => (decLo a v).map (fun q => (q, [(t'.loR x).neg]))) ++ J) val := by
  unfold assertLower
  rw [if_neg hval, if_neg (not_not.mpr hx)]
  by_cases h1 : (v : WithBot IQ) ≤ t.lo x
  · rw [if_pos h1]; exact Or.inl ⟨rfl, h1⟩
  · rw [if_neg h1]
    by_cases h2 : t.hi x < (v : WithTop IQ)
    · rw [if_pos h2]; exact Or.inr (Or.inl ⟨rfl, h2⟩)
    · rw [if_neg h2]
      refine Or.inr (Or.inr ?_)
      have hs := setLo_same t x v p
      have hlo : t.lo x ≤ (v : WithBot IQ) := le_of_lt (not_le.mp h1)
      have hhi : (v : WithTop IQ) ≤ t.hi x := not_lt.mp h2
      have hlev := setLo_lev h.lev hx hlo hhi hp hj
      have htab : Tab (t.setLo x v p) := ⟨h.tab.shape, h.tab.wat, h.tab.rows, h.tab.equiv, h.tab.regs, h.tab.aw⟩
      have hlev' : Lev (t.setLo x v p) A (t.setLo x v p).bd (t.setLo x v p).layers ((.lo x v :: F) :: Fs) :=
        hlev.congr (fun α X => (hs.mod α X).mp) (Nat.le_refl _) (fun _ _ _ h => h)
      have hbx : (t.setLo x v p).lo x = (v : WithBot IQ) := by simp [setLo]
      have hbr : (t.setLo x v p).loR x = p := by simp [setLo]
      have hother : ∀ w, w ≠ x → (t.setLo x v p).lo w = t.lo w := fun w hw => by simp [setLo, upd_ne _ _ hw]
      have fin : ∀ t1 : LRA, Good t1 A ((.lo x v :: F) :: Fs) → Same (t.setLo x v p) t1 → t1.lo x = (v : WithBot IQ) → t1.loR x = p → ∃ J,
          rowsJobs (t1.rowJobsLb x) (E.ord (t1.tw x)) = .ok J := by
        intro t1 hg _ _ _
        obtain ⟨J, hJ, _⟩ := rowsJobs_ok (f := t1.rowJobsLb x) (E.ord (t1.tw x)) (fun r hr => rowJobsLb_ok hg.tab.wat ((E.perm _).mem_iff.mp hr))
        exact ⟨J, hJ⟩
      have trans : ∀ t1 : LRA, Same (t.setLo x v p) t1 → Same t t1 := fun t1 h' =>
        ⟨h'.n.trans hs.n, h'.row.trans hs.row, h'.tw.trans hs.tw, h'.exprs.trans hs.exprs, h'.sas.trans hs.sas, h'.vas.trans hs.vas, h'.aw.trans hs.aw, h'.defs.trans hs.defs,
          h'.facts.trans hs.facts, h'.lay.trans hs.lay⟩
      have hv1 : (t.setLo x v p).vals = t.vals := rfl
      by_cases hc : (t.setLo x v p).vals x < v ∧ (t.setLo x v p).basic x = false
      · simp only [hc, and_self, if_true]
        have hrx : (t.setLo x v p).row x = none := by simpa [basic] using hc.2
        obtain ⟨vals', T', e, hm, hv⟩ := update_spec E htab.shape htab.wat htab.rows hrx v
        rw [e]
        simp only
        have hg : Good { (t.setLo x v p) with vals := vals', told := T' } A ((.lo x v :: F) :: Fs) := by
          refine ⟨⟨htab.shape, htab.wat, hm.rows, htab.equiv, htab.regs, htab.aw⟩, fun w hw hr => ?_, ?_⟩
          · show InB ((t.setLo x v p).lo w) (t.hi w) (vals' w)
            by_cases ew : w = x
            · subst ew; rw [hv, hbx]; exact ⟨le_refl _, hhi⟩
            · rw [hm.same w hr ew, hother w ew]; exact h.inb w hw hr
          · refine Lev.congr (t := t.setLo x v p) (A := A) (A' := A) hlev' (fun α X => ?_) (Nat.le_refl _) (fun _ _ _ h => h)
            refine (mod_congr ?_ ?_ ?_ α X).mp <;> rfl
        have hsm : Same (t.setLo x v p) { (t.setLo x v p) with vals := vals', told := T' } := ⟨rfl, rfl, rfl, rfl, rfl, rfl, rfl, rfl, rfl, rfl⟩
        obtain ⟨J, hJ⟩ := fin _ hg hsm hbx hbr
        refine ⟨_, J, hg, trans _ hsm, hbx, ⟨hbr, rfl, rfl⟩, hJ, ?_⟩
        rw [hJ]
      · simp only [hc, if_false]
        have hg : Good (t.setLo x v p) A ((.lo x v :: F) :: Fs) := by
          refine ⟨htab, fun w hw hr => ?_, hlev'⟩
          show InB ((t.setLo x v p).lo w) (t.hi w) (t.vals w)
          by_cases ew : w = x
          · subst ew
            rw [hbx]
            refine ⟨?_, (h.inb w hw hr).2⟩
            rw [WithBot.coe_le_coe]
            by_contra hn
            exact hc ⟨not_le.mp hn, by simp [basic, hr]⟩
          · rw [hother w ew]; exact h.inb w hw hr
        obtain ⟨J, hJ⟩ := fin _ hg (Same.refl _) hbx hbr
        refine ⟨_, J, hg, hs, hbx, ⟨hbr, rfl, rfl⟩, hJ, ?_⟩
        rw [hJ]

/-- `assert_upper`. -/
theorem assertUpper_cases (E : LEnv) {F : List BF} (h : Good t A (F :: Fs)) {val : Lit → Option Bool} {x : Nat} {v : IQ} {p : Lit} (hx : x < t.n)
    (hp : A t.layers.length p) (hval : val p ≠ none) (hj : ∀ α X, Mod t α X → α.sat p → X x ≤ v) :
    (t.assertUpper E val x v p = .ok t ∧ t.hi x ≤ (v : WithTop IQ)) ∨
    (t.assertUpper E val x v p = .confl t [p.neg, (t.loR x).neg] ∧ (v : WithBot IQ) < t.lo x) ∨
    ∃ t' J, Good t' A ((.hi x v :: F) :: Fs) ∧ Same t t' ∧ t'.hi x = (v : WithTop IQ) ∧ (t'.hiR x = p ∧ t'.bd = (t.setHi x v p).bd ∧ t'.layers = (t.setHi x v p).layers) ∧
      rowsJobs (t'.rowJobsUb x) (E.ord (t'.tw x)) = .ok J ∧
      t.assertUpper E val x v p = emit t' ((t'.aw x).filterMap (fun a => (decHi a (v : WithTop IQ)).map (fun q => (q, [(t'.hiR x).neg]))) ++ J) val := by
  unfold assertUpper
  rw [if_neg hval, if_neg (not_not.mpr hx)]
  by_cases h1 : t.hi x ≤ (v : WithTop IQ)
  · rw [if_pos h1]; exact Or.inl ⟨rfl, h1⟩
  · rw [if_neg h1]
    by_cases h2 : (v : WithBot IQ) < t.lo x
    · rw [if_pos h2]; exact Or.inr (Or.inl ⟨rfl, h2⟩)
    · rw [if_neg h2]
      refine Or.inr (Or.inr ?_)
      have hs := setHi_same t x v p
      have hhi : (v : WithTop IQ) ≤ t.hi x := le_of_lt (not_le.mp h1)
      have hlo : t.lo x ≤ (v : WithBot IQ) := not_lt.mp h2
      have hlev := setHi_lev h.lev hx hhi hlo hp hj
      have htab : Tab (t.setHi x v p) := ⟨h.tab.shape, h.tab.wat, h.tab.rows, h.tab.equiv, h.tab.regs, h.tab.aw⟩
      have hlev' : Lev (t.setHi x v p) A (t.setHi x v p).bd (t.setHi x v p).layers ((.hi x v :: F) :: Fs) :=
        hlev.congr (fun α X => (hs.mod α X).mp) (Nat.le_refl _) (fun _ _ _ h => h)
      have hbx : (t.setHi x v p).hi x = (v : WithTop IQ) := by simp [setHi]
      have hbr : (t.setHi x v p).hiR x = p := by simp [setHi]
      have hother : ∀ w, w ≠ x → (t.setHi x v p).hi w = t.hi w := fun w hw => by simp [setHi, upd_ne _ _ hw]
      have fin : ∀ t1 : LRA, Good t1 A ((.hi x v :: F) :: Fs) → ∃ J, rowsJobs (t1.rowJobsUb x) (E.ord (t1.tw x)) = .ok J := by
        intro t1 hg
        obtain ⟨J, hJ, _⟩ := rowsJobs_ok (f := t1.rowJobsUb x) (E.ord (t1.tw x)) (fun r hr => rowJobsUb_ok hg.tab.wat ((E.perm _).mem_iff.mp hr))
        exact ⟨J, hJ⟩
      have trans : ∀ t1 : LRA, Same (t.setHi x v p) t1 → Same t t1 := fun t1 h' =>
        ⟨h'.n.trans hs.n, h'.row.trans hs.row, h'.tw.trans hs.tw, h'.exprs.trans hs.exprs, h'.sas.trans hs.sas, h'.vas.trans hs.vas, h'.aw.trans hs.aw, h'.defs.trans hs.defs,
          h'.facts.trans hs.facts, h'.lay.trans hs.lay⟩
      by_cases hc : v < (t.setHi x v p).vals x ∧ (t.setHi x v p).basic x = false
      · simp only [hc, and_self, if_true]
        have hrx : (t.setHi x v p).row x = none := by simpa [basic] using hc.2
        obtain ⟨vals', T', e, hm, hv⟩ := update_spec E htab.shape htab.wat htab.rows hrx v
        rw [e]
        simp only
        have hg : Good { (t.setHi x v p) with vals := vals', told := T' } A ((.hi x v :: F) :: Fs) := by
          refine ⟨⟨htab.shape, htab.wat, hm.rows, htab.equiv, htab.regs, htab.aw⟩, fun w hw hr => ?_, ?_⟩
          · show InB (t.lo w) ((t.setHi x v p).hi w) (vals' w)
            by_cases ew : w = x
            · subst ew; rw [hv, hbx]; exact ⟨hlo, le_refl _⟩
            · rw [hm.same w hr ew, hother w ew]; exact h.inb w hw hr
          · refine Lev.congr (t := t.setHi x v p) (A := A) (A' := A) hlev' (fun α X => ?_) (Nat.le_refl _) (fun _ _ _ h => h)
            refine (mod_congr ?_ ?_ ?_ α X).mp <;> rfl
        have hsm : Same (t.setHi x v p) { (t.setHi x v p) with vals := vals', told := T' } := ⟨rfl, rfl, rfl, rfl, rfl, rfl, rfl, rfl, rfl, rfl⟩
        obtain ⟨J, hJ⟩ := fin _ hg
        refine ⟨_, J, hg, trans _ hsm, hbx, ⟨hbr, rfl, rfl⟩, hJ, ?_⟩
        rw [hJ]
      · simp only [hc, if_false]
        have hg : Good (t.setHi x v p) A ((.hi x v :: F) :: Fs) := by
          refine ⟨htab, fun w hw hr => ?_, hlev'⟩
          show InB (t.lo w) ((t.setHi x v p).hi w) (t.vals w)
          by_cases ew : w = x
          · subst ew
            rw [hbx]
            refine ⟨(h.inb w hw hr).1, ?_⟩
            rw [WithTop.coe_le_coe]
            by_contra hn
            exact hc ⟨not_le.mp hn, by simp [basic, hr]⟩
          · rw [hother w ew]; exact h.inb w hw hr
        obtain ⟨J, hJ⟩ := fin _ hg
        refine ⟨_, J, hg, hs, hbx, ⟨hbr, rfl, rfl⟩, hJ, ?_⟩
        rw [hJ]

end LRA
end Semitone
