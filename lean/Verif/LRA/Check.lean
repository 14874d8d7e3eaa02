import Verif.LRA.Valid

/-!
# The iterations of `check`
-/
namespace Semitone
namespace LRA
open Lin
variable {t t' : LRA} {A A' : Nat → Lit → Prop} {Fs : List (List BF)}

/-- Everything but the rows, the watches and the values is the same. -/
structure PSame (t t' : LRA) : Prop where
  n : t'.n = t.n
  lo : t'.lo = t.lo
  loR : t'.loR = t.loR
  hi : t'.hi = t.hi
  hiR : t'.hiR = t.hiR
  exprs : t'.exprs = t.exprs
  sas : t'.sas = t.sas
  vas : t'.vas = t.vas
  aw : t'.aw = t.aw
  layers : t'.layers = t.layers
  defs : t'.defs = t.defs
  facts : t'.facts = t.facts

theorem PSame.refl (t : LRA) : PSame t t := ⟨rfl, rfl, rfl, rfl, rfl, rfl, rfl, rfl, rfl, rfl, rfl, rfl⟩

theorem PSame.trans {t'' : LRA} (h : PSame t t') (k : PSame t' t'') : PSame t t'' :=
  ⟨k.n.trans h.n, k.lo.trans h.lo, k.loR.trans h.loR, k.hi.trans h.hi, k.hiR.trans h.hiR, k.exprs.trans h.exprs, k.sas.trans h.sas, k.vas.trans h.vas, k.aw.trans h.aw,
    k.layers.trans h.layers, k.defs.trans h.defs, k.facts.trans h.facts⟩

theorem PSame.mod (h : PSame t t') (α : Asg) (X : Nat → IQ) : Mod t' α X ↔ Mod t α X := mod_congr h.vas h.defs h.facts α X

/-- The direction in which the leaving variable moves: up to its lower bound or down to its upper bound. -/
def sg (up : Bool) : ℚ := if up then 1 else -1

/-- `x` can move in the direction given by the sign of `d`. -/
def Free (t : LRA) (d : ℚ) (x : Nat) : Prop := (0 < d ∧ ((t.vals x : IQ) : WithTop IQ) < t.hi x) ∨ (d < 0 ∧ t.lo x < ((t.vals x : IQ) : WithBot IQ))

/-- One pivoting iteration: the basic variable `xi`, the first outside of its bounds, is moved to the violated bound `b` by means of `xj`, the first variable of its
row that can move in the right direction. -/
structure Step (t t' : LRA) (xi xj : Nat) (l : Lin) (c : ℚ) (up : Bool) (b : IQ) : Prop where
  row : t.row xi = some l
  coef : l.coef xj = some c
  first : ∀ v, v < xi → (t.row v).isSome → InB (t.lo v) (t.hi v) (t.vals v)
  bound : if up then t.lo xi = (b : WithBot IQ) else t.hi xi = (b : WithTop IQ)
  viol : sg up • t.vals xi < sg up • b
  free : Free t (sg up * c) xj
  least : ∀ w d, (w, d) ∈ l.vars → w < xj → ¬ Free t (sg up * d) w
  piv : Pivoted t.row t'.row xi xj
  mov : Moved t.row t.vals t'.vals xj
  vi : t'.vals xi = b
  same : PSame t t'
  shape : Shape t'.n t'.row
  wat : Wat t'.row t'.tw

theorem under_iff (v : Nat) : t.under v = true ↔ ∃ b : IQ, t.lo v = (b : WithBot IQ) ∧ t.vals v < b := by
  unfold under
  split
  · next e =>
    have e : t.lo v = (⊥ : WithBot IQ) := e
    simp [e]
  · next a e =>
    have e : t.lo v = ((a : IQ) : WithBot IQ) := e
    simp [e]

theorem over_iff (v : Nat) : t.over v = true ↔ ∃ b : IQ, t.hi v = (b : WithTop IQ) ∧ b < t.vals v := by
  unfold over
  split
  · next e =>
    have e : t.hi v = (⊤ : WithTop IQ) := e
    simp [e]
  · next a e =>
    have e : t.hi v = ((a : IQ) : WithTop IQ) := e
    simp [e]

theorem canInc_iff (v : Nat) : t.canInc v = true ↔ ((t.vals v : IQ) : WithTop IQ) < t.hi v := by
  unfold canInc
  split
  · next e =>
    have e : t.hi v = (⊤ : WithTop IQ) := e
    simp [e, WithTop.coe_lt_top]
  · next a e =>
    have e : t.hi v = ((a : IQ) : WithTop IQ) := e
    simp [e]

theorem canDec_iff (v : Nat) : t.canDec v = true ↔ t.lo v < ((t.vals v : IQ) : WithBot IQ) := by
  unfold canDec
  split
  · next e =>
    have e : t.lo v = (⊥ : WithBot IQ) := e
    simp [e, WithBot.bot_lt_coe]
  · next a e =>
    have e : t.lo v = ((a : IQ) : WithBot IQ) := e
    simp [e]

theorem inB_iff (v : Nat) : InB (t.lo v) (t.hi v) (t.vals v) ↔ t.under v = false ∧ t.over v = false := by
  unfold InB
  rw [← Bool.not_eq_true, ← Bool.not_eq_true, under_iff, over_iff]
  constructor
  · rintro ⟨h1, h2⟩
    refine ⟨?_, ?_⟩
    · rintro ⟨b, hb, hlt⟩
      rw [hb, WithBot.coe_le_coe] at h1
      exact absurd h1 (not_le.mpr hlt)
    · rintro ⟨b, hb, hlt⟩
      rw [hb, WithTop.coe_le_coe] at h2
      exact absurd h2 (not_le.mpr hlt)
  · rintro ⟨h1, h2⟩
    refine ⟨?_, ?_⟩
    · cases hl : t.lo v with
      | bot => exact bot_le
      | coe a =>
        rw [WithBot.coe_le_coe]
        by_contra hn
        exact h1 ⟨a, hl, not_le.mp hn⟩
    · cases hl : t.hi v with
      | top => exact le_top
      | coe a =>
        rw [WithTop.coe_le_coe]
        by_contra hn
        exact h2 ⟨a, hl, not_le.mp hn⟩

theorem findFlaw_none (hs : Shape t.n t.row) (h : t.findFlaw = none) : ∀ v, (t.row v).isSome → InB (t.lo v) (t.hi v) (t.vals v) := by
  intro v hv
  obtain ⟨l, hl⟩ := Option.isSome_iff_exists.mp hv
  have := List.find?_eq_none.mp h v (List.mem_range.mpr (hs.lt v l hl))
  rw [inB_iff]
  simpa [basic, hv] using this

theorem findFlaw_some {xi : Nat} (h : t.findFlaw = some xi) : (t.row xi).isSome ∧ (t.under xi = true ∨ t.over xi = true) ∧
    ∀ v, v < xi → (t.row v).isSome → InB (t.lo v) (t.hi v) (t.vals v) := by
  unfold findFlaw at h
  have h1 := List.find?_some h
  simp only [Bool.and_eq_true, Bool.or_eq_true, basic] at h1
  refine ⟨h1.1, h1.2, fun v hv hb => ?_⟩
  obtain ⟨_, as, bs, e, hn⟩ := List.find?_eq_some_iff_append.mp h
  have hpw : (List.range t.n).Pairwise (· < ·) := List.pairwise_lt_range
  have hxn : xi < t.n := List.mem_range.mp (by rw [e]; simp)
  have hvm : v ∈ List.range t.n := List.mem_range.mpr (hv.trans hxn)
  rw [e] at hvm hpw
  rcases List.mem_append.mp hvm with hm | hm
  · have := hn v hm
    rw [inB_iff]
    simpa [basic, hb] using this
  · exfalso
    rw [List.pairwise_append] at hpw
    rcases List.mem_cons.mp hm with rfl | hm
    · exact Nat.lt_irrefl _ hv
    · exact absurd hv (Nat.not_lt.mpr (Nat.le_of_lt ((List.pairwise_cons.mp hpw.2.1).1 v hm)))

theorem free_iff (up : Bool) (x : Nat × ℚ) :
    (if up then (decide (0 < x.2) && t.canInc x.1) || (decide (x.2 < 0) && t.canDec x.1)
      else (decide (x.2 < 0) && t.canInc x.1) || (decide (0 < x.2) && t.canDec x.1)) = true ↔ Free t (sg up * x.2) x.1 := by
  unfold Free sg
  rw [← canInc_iff, ← canDec_iff]
  cases up <;> simp

theorem findPivot_none {up : Bool} {l : Lin} (h : t.findPivot up l = none) : ∀ w d, (w, d) ∈ l.vars → ¬ Free t (sg up * d) w := by
  intro w d hm hf
  exact List.find?_eq_none.mp h (w, d) hm ((free_iff up (w, d)).mpr hf)

theorem findPivot_some {up : Bool} {l : Lin} {x : Nat × ℚ} (hs : l.Sorted) (h : t.findPivot up l = some x) :
    x ∈ l.vars ∧ Free t (sg up * x.2) x.1 ∧ ∀ w d, (w, d) ∈ l.vars → w < x.1 → ¬ Free t (sg up * d) w := by
  unfold findPivot at h
  refine ⟨List.mem_of_find?_eq_some h, (free_iff up x).mp (by have := List.find?_some h; exact this), fun w d hm hw hf => ?_⟩
  obtain ⟨_, as, bs, e, hn⟩ := List.find?_eq_some_iff_append.mp h
  unfold Sorted at hs
  rw [e] at hm hs
  rcases List.mem_append.mp hm with hm | hm
  · have := hn _ hm
    rw [(free_iff up (w, d)).mpr hf] at this
    cases this
  · rw [List.pairwise_map, List.pairwise_append] at hs
    rcases List.mem_cons.mp hm with rfl | hm
    · exact Nat.lt_irrefl _ hw
    · exact absurd hw (Nat.not_lt.mpr (Nat.le_of_lt ((List.pairwise_cons.mp hs.2.1).1 _ hm)))

/-- A row that cannot move in the direction needed: the explanation is valid. -/
theorem rowConfl_valid (h : Good t A Fs) {xi : Nat} {l : Lin} (hl : t.row xi = some l) {up : Bool} (hn : ∀ w d, (w, d) ∈ l.vars → ¬ Free t (sg up * d) w)
    {b : IQ} (hb : if up then t.lo xi = (b : WithBot IQ) else t.hi xi = (b : WithTop IQ)) (hv : sg up • t.vals xi < sg up • b) :
    Lemma t (t.rowConfl up l ++ [if up then (t.loR xi).neg else (t.hiR xi).neg]) ∧
      ∀ q ∈ t.rowConfl up l ++ [if up then (t.loR xi).neg else (t.hiR xi).neg], NegReason t q := by
  refine ⟨fun α X hm => ?_, fun q hq => ?_⟩
  · by_contra hcl
    simp only [Asg.clause, not_exists, not_and] at hcl
    have key : ∀ ts : List (Nat × ℚ), (∀ x ∈ ts, x ∈ l.vars) → sg up • evalT X ts ≤ sg up • evalT t.vals ts := by
      intro ts
      induction ts with
      | nil => intro _; exact le_refl _
      | cons x ts ih =>
        intro hts
        obtain ⟨w, d⟩ := x
        have hmem := hts _ List.mem_cons_self
        have ih := ih (fun x hx => hts x (List.mem_cons_of_mem _ hx))
        rw [evalT_cons, evalT_cons, smul_add, smul_add, smul_smul, smul_smul]
        refine add_le_add ?_ ih
        have hnf := hn w d hmem
        unfold Free at hnf
        push Not at hnf
        obtain ⟨n1, n2⟩ := hnf
        rcases lt_trichotomy 0 (sg up * d) with hd | hd | hd
        · refine IQ.smul_le hd.le ?_
          have h1 := n1 hd
          have hr : ¬ α.sat (t.hiR w).neg := by
            refine hcl _ (List.mem_append_left _ (List.mem_filterMap.mpr ⟨(w, d), hmem, ?_⟩))
            cases up
            · have : d < 0 := by simpa [sg] using hd
              simp [this, this.not_gt]
            · have : 0 < d := by simpa [sg] using hd
              simp [this]
          have h2 : ((X w : IQ) : WithTop IQ) ≤ t.hi w := h.bok.jhi w α X hm (sat_of_neg hr)
          exact WithTop.coe_le_coe.mp (h2.trans h1)
        · rw [← hd, zero_smul, zero_smul]
        · refine IQ.smul_le_neg hd.le ?_
          have h1 := n2 hd
          have hr : ¬ α.sat (t.loR w).neg := by
            refine hcl _ (List.mem_append_left _ (List.mem_filterMap.mpr ⟨(w, d), hmem, ?_⟩))
            cases up
            · have : 0 < d := by simpa [sg] using hd
              simp [this]
            · have : d < 0 := by simpa [sg] using hd
              simp [this, this.not_gt]
          have h2 : t.lo w ≤ ((X w : IQ) : WithBot IQ) := h.bok.jlo w α X hm (sat_of_neg hr)
          exact WithBot.coe_le_coe.mp (h1.trans h2)
    have hX : X xi = l.eval IQ.one X := (h.tab.equiv X).mpr hm.defs xi l hl
    have hV : t.vals xi = l.eval IQ.one t.vals := h.tab.rows xi l hl
    have hle : sg up • X xi ≤ sg up • t.vals xi := by
      rw [hX, hV]
      unfold Lin.eval
      rw [smul_add, smul_add]
      exact add_le_add_left (key l.vars (fun _ h => h)) _
    have hlast := hcl (if up then (t.loR xi).neg else (t.hiR xi).neg) (by simp)
    have hfin : sg up • b ≤ sg up • X xi := by
      cases up
      · simp only [Bool.false_eq_true, if_false] at hlast hb
        have h2 : ((X xi : IQ) : WithTop IQ) ≤ t.hi xi := h.bok.jhi xi α X hm (sat_of_neg hlast)
        rw [hb, WithTop.coe_le_coe] at h2
        exact IQ.smul_le_neg (by norm_num [sg]) h2
      · simp only [if_true] at hlast hb
        have h2 : t.lo xi ≤ ((X xi : IQ) : WithBot IQ) := h.bok.jlo xi α X hm (sat_of_neg hlast)
        rw [hb, WithBot.coe_le_coe] at h2
        exact IQ.smul_le (by norm_num [sg]) h2
    exact absurd (hfin.trans hle) (not_le.mpr hv)
  · rcases List.mem_append.mp hq with hq | hq
    · obtain ⟨x, _, hx⟩ := List.mem_filterMap.mp hq
      split at hx
      · injection hx with hx
        subst hx
        split
        · exact ⟨x.1, Or.inr rfl⟩
        · exact ⟨x.1, Or.inl rfl⟩
      · split at hx
        · injection hx with hx
          subst hx
          split
          · exact ⟨x.1, Or.inl rfl⟩
          · exact ⟨x.1, Or.inr rfl⟩
        · cases hx
    · rw [List.mem_singleton] at hq
      subst hq
      split
      · exact ⟨xi, Or.inl rfl⟩
      · exact ⟨xi, Or.inr rfl⟩

/-- The step that a pivot performs. -/
theorem step_of (E : LEnv) (h : Good t A Fs) {xi : Nat} {l : Lin} (hl : t.row xi = some l) (hf : ∀ v, v < xi → (t.row v).isSome → InB (t.lo v) (t.hi v) (t.vals v))
    {up : Bool} {b : IQ} (hb : if up then t.lo xi = (b : WithBot IQ) else t.hi xi = (b : WithTop IQ)) (hv : sg up • t.vals xi < sg up • b) {x : Nat × ℚ}
    (hx : t.findPivot up l = some x) : ∃ t', t.pivotAndUpdate E xi x.1 b = .ok t' ∧ Step t t' xi x.1 l x.2 up b := by
  have hlc := h.tab.shape.canon xi l hl
  obtain ⟨a1, a2, a3⟩ := findPivot_some hlc.1 hx
  have hco : l.coef x.1 = some x.2 := mem_lookup hlc.1 a1
  obtain ⟨row', tw', vals', T', e, s1, s2, s3, s4, s5, s6⟩ := pivotAndUpdate_spec E h.tab.shape h.tab.wat h.tab.rows hl hco b
  exact ⟨_, e, hl, hco, hf, hb, hv, a2, a3, s3, s4, s5, ⟨rfl, rfl, rfl, rfl, rfl, rfl, rfl, rfl, rfl, rfl, rfl, rfl⟩, s1, s2⟩

/-- The three outcomes of an iteration. -/
theorem checkStep_cases (E : LEnv) (h : Good t A Fs) :
    (t.checkStep E = .done ∧ ∀ v, (t.row v).isSome → InB (t.lo v) (t.hi v) (t.vals v)) ∨
    (∃ cl, t.checkStep E = .confl cl ∧ Lemma t cl ∧ ∀ q ∈ cl, NegReason t q) ∨
    ∃ t' xi xj l c up b, t.checkStep E = .next t' ∧ Step t t' xi xj l c up b := by
  unfold checkStep
  split
  · next e => exact Or.inl ⟨rfl, findFlaw_none h.tab.shape e⟩
  · next xi e =>
    obtain ⟨hbas, hvio, hfirst⟩ := findFlaw_some e
    right
    split
    · next hr => rw [hr] at hbas; cases hbas
    · next l hl =>
      split
      · next hu =>
        obtain ⟨b, hb, hlt⟩ := (under_iff xi).mp hu
        have hv : sg true • t.vals xi < sg true • b := IQ.smul_lt (by norm_num [sg]) hlt
        split
        · next e' => rw [hb] at e'; cases e'
        · next b' e' =>
          have e' : t.lo xi = ((b' : IQ) : WithBot IQ) := e'
          have : b' = b := WithBot.coe_inj.mp (e'.symm.trans hb)
          subst this
          split
          · next x hx =>
            right
            obtain ⟨t', e1, e2⟩ := step_of E h hl hfirst (up := true) hb hv hx
            rw [e1]
            exact ⟨t', xi, x.1, l, x.2, true, b', rfl, e2⟩
          · next hx =>
            left
            exact ⟨_, rfl, rowConfl_valid h hl (up := true) (findPivot_none hx) hb hv⟩
      · next hu =>
        obtain ⟨b, hb, hlt⟩ := (over_iff xi).mp (hvio.resolve_left hu)
        have hv : sg false • t.vals xi < sg false • b := IQ.smul_lt_neg (by norm_num [sg]) hlt
        split
        · next e' => rw [hb] at e'; cases e'
        · next b' e' =>
          have e' : t.hi xi = ((b' : IQ) : WithTop IQ) := e'
          have : b' = b := WithTop.coe_inj.mp (e'.symm.trans hb)
          subst this
          split
          · next x hx =>
            right
            obtain ⟨t', e1, e2⟩ := step_of E h hl hfirst (up := false) hb hv hx
            rw [e1]
            exact ⟨t', xi, x.1, l, x.2, false, b', rfl, e2⟩
          · next hx =>
            left
            exact ⟨_, rfl, rowConfl_valid h hl (up := false) (findPivot_none hx) hb hv⟩

/-- An iteration keeps the invariant. -/
theorem Step.good {xi xj : Nat} {l : Lin} {c : ℚ} {up : Bool} {b : IQ} (h : Step t t' xi xj l c up b) (hg : Good t A Fs) : Good t' A Fs := by
  have hs := h.same
  refine ⟨⟨h.shape, h.wat, (h.piv.rows _).mpr h.mov.rows, fun X => (h.piv.rows X).trans ((hg.tab.equiv X).trans (by rw [hs.defs])), ?_, ?_⟩, fun v hv hr => ?_, ?_⟩
  · intro b a hb
    rw [hs.vas] at hb
    rw [hs.n]
    exact hg.tab.regs b a hb
  · intro x a ha
    rw [hs.aw] at ha
    rw [hs.vas]
    exact hg.tab.aw x a ha
  · rw [hs.lo, hs.hi]
    by_cases e : v = xi
    · subst e
      rw [h.vi]
      obtain ⟨w, hw1, hw2⟩ := hg.bok.le v
      have hw1 : t.lo v ≤ (w : WithBot IQ) := hw1
      have hw2 : (w : WithTop IQ) ≤ t.hi v := hw2
      have hb := h.bound
      cases up
      · simp only [Bool.false_eq_true, if_false] at hb
        rw [hb, WithTop.coe_le_coe] at hw2
        exact ⟨hw1.trans (WithBot.coe_le_coe.mpr hw2), le_of_eq hb.symm⟩
      · simp only [if_true] at hb
        rw [hb, WithBot.coe_le_coe] at hw1
        exact ⟨le_of_eq hb, (WithTop.coe_le_coe.mpr hw1).trans hw2⟩
    · have hb := h.piv.basic v
      rw [hr] at hb
      simp only [Option.isSome_none, Bool.false_eq_true, false_iff, not_or, not_and] at hb
      have hr' : t.row v = none := by
        have := hb.2 e
        simpa using this
      rw [h.mov.same v hr' hb.1]
      exact hg.inb v (by rw [← hs.n]; exact hv) hr'
  · have e1 : t'.bd = t.bd := by unfold bd; rw [hs.lo, hs.loR, hs.hi, hs.hiR]
    rw [e1, hs.layers]
    exact hg.lev.congr (fun α X => (hs.mod α X).mp) (le_of_eq hs.n.symm) (fun _ _ _ h => h)

theorem Step.k0 {xi xj : Nat} {l : Lin} {c : ℚ} {up : Bool} {b : IQ} (h : Step t t' xi xj l c up b) (hk : K0 t) : K0 t' := h.piv.kt hk

end LRA
end Semitone
