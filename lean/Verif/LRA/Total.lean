import Verif.LRA.LiveNew
import Verif.Sat.LiveOps
import Verif.Sat.PropsA

/-!
# The core with the linear-arithmetic theory: what the calls do to a live state
-/
namespace Semitone
namespace LRA
open Lin
variable {L : LEnv} {Z : Asg → Prop} {s s' : Sat LRA} {U : List Fact} {d : Bool}

/-- The state is live for the linear-arithmetic theory. -/
abbrev ALive (L : LEnv) (s : Sat LRA) (d : Bool) : Prop := s.LiveD (live L (sig s.th)) d

theorem ALive.li (h : ALive L s d) : LI s.th s.nvars s.bounds s.dl s.tru (fun q => q ∈ s.propQ) := h.live.li

/-- The theory changes, and stays consistent with what is true at every level. -/
theorem ALive.theory {t : LRA} (h : ALive L s d) (hli : LI t s.nvars s.bounds s.dl s.tru (fun q => q ∈ s.propQ)) (hc : ∀ i, s.Cons (lraContract L (sig s.th)) i → ∃ α, Th t α ∧ ∀ q, s.tru i q → α.sat q) :
    ALive L { s with th := t } d :=
  ⟨⟨⟨h.live.fix.nd, h.live.fix.fx⟩, hli, fun i hi => hc i (h.live.cons i hi)⟩, fun x y => hc _ (h.con x y)⟩

theorem tru_lt (h : SInv L Z s U) {i : Nat} {q : Lit} (hq : s.tru i q) : q.var < s.nvars :=
  h.rinv.inv.wf.rng _ (by have := hq.1; rw [Sat.value_true] at this; rw [this]; simp)

/-- `new_var()` -/
theorem newVar_alive (hI : SInv L Z s U) (h : ALive L s d) : ALive L { s with th := s.th.newVar.1 } d := by
  obtain ⟨Fs, hg⟩ := hI.ti.good
  exact h.theory h.li.newVar (fun i ⟨α, a, b⟩ => ⟨α, (Th.newVar hg α).mpr a, b⟩)

/-- `listen` -/
theorem listen_alive (h : ALive L s d) {v l : Nat} {t : LRA} (hn : s.th.listen v l = .ok t) : ALive L { s with th := t } d := by
  obtain ⟨f, e⟩ := listen_eq hn
  subst e
  have hli := h.li
  obtain ⟨Fs, g1, g2, g3, g4, g5⟩ := hli.fs
  have hM : ∀ α X, Mod s.th α X → Mod { s.th with lst := f } α X := fun α X hm => ⟨hm.zero, hm.asrt, hm.defs, hm.fact⟩
  exact h.theory ⟨hli.len, hli.am, hli.nz, ⟨hli.rs.lo, hli.rs.hi, hli.rs.llo, hli.rs.lhi⟩, Fs, g1.lst, g2, ⟨g3.no, g3.yes, g3.lt, g3.pos, g3.eps⟩, g4, g5⟩
    (fun i ⟨α, ⟨x, a⟩, b⟩ => ⟨α, ⟨x, hM α _ a⟩, b⟩)

/-- `new_var(l)` -/
theorem newVarL_alive (hI : SInv L Z s U) (h : ALive L s d) {l : Lin} {t : LRA} {y : Nat} (hc : l.Canon) (hb : ∀ w ∈ keys l.vars, s.th.row w = none) (hk : l.kt = 0)
    (hn : s.th.newVarL s.root l = .ok (t, y)) : ALive L { s with th := t } d := by
  obtain ⟨Fs, hg⟩ := hI.ti.good
  rcases newVarL_cases hg hn with ⟨e, hl⟩ | ⟨hne, _, hr, hv, e, e2⟩
  · subst e; exact h
  · subst e
    have hdl : s.dl = 0 := (Sat.root_iff s).mp hr
    have hvk : ∀ w ∈ keys l.vars, w < s.th.n ∧ s.th.row w = none := fun w hw => by
      obtain ⟨z, hz, e⟩ := List.mem_map.mp hw
      exact ⟨e ▸ hv z hz, hb w hw⟩
    have hli := h.li
    rw [hdl] at hli
    refine ⟨⟨⟨h.live.fix.nd, h.live.fix.fx⟩, ?_, fun i hi => ?_⟩, fun x y => ?_⟩
    · show LI (s.th.defVar l) s.nvars s.bounds s.dl s.tru _
      rw [hdl]
      exact hli.defVar hI.trueLit hI.ti.k0 hc hne hk hvk
    · have hi : i < s.dl := hi
      omega
    · obtain ⟨α, a, b⟩ := h.con x y
      exact ⟨α, hli.th_defVar hvk hI.dvar a (by rw [← hdl]; exact b), b⟩

/-- Registration of a constraint on a fresh variable of the core. -/
theorem register_alive (hI : SInv L Z s U) (h : ALive L s d) {R : Rel4} {y : Nat} {kt : ℚ} (hy : y < s.th.n) :
    ALive L { (s.newVar.1.bind s.newVar.2 0) with th := s.th.addAsrt ⟨R.le, s.newVar.2, y, R.bound kt⟩ } d := by
  have hw := hI.rinv.inv.wf
  have hN := Sat.newVar_live (V := live L (sig s.th)) hI.rinv.inv h
  have hfix := hN.live.fix
  have e := Sat.newVar_eq hw
  rw [e] at hfix ⊢
  simp only at hfix ⊢
  have hok : (⟨R.le, s.nvars, y, R.bound kt⟩ : Asrt).Ok := bound_ok R _ _ _
  have hb0 : s.bounds s.nvars = [] := by
    obtain ⟨Fs, h1, h2, h3, h4, h5⟩ := h.li.fs
    refine h3.no _ ?_
    cases ev : s.th.vas s.nvars with
    | none => rfl
    | some a => exact absurd (h3.lt _ _ ev) (Nat.lt_irrefl _)
  have hcons : ∀ i, s.Cons (lraContract L (sig s.th)) i → ∃ α, Th (s.th.addAsrt ⟨R.le, s.nvars, y, R.bound kt⟩) α ∧ ∀ q, s.tru i q → α.sat q := by
    rintro i ⟨α, a, b⟩
    obtain ⟨β, hβ, hag⟩ := th_addAsrt (a := ⟨R.le, s.nvars, y, R.bound kt⟩) hI.fresh rfl hI.nvars_pos hok hI.flit a
    refine ⟨β, hβ, fun q hq => ?_⟩
    have := b q hq
    unfold Asg.sat at this ⊢
    rw [← hag _ (tru_lt hI hq)]
    exact this
  refine ⟨⟨⟨hfix.nd, hfix.fx⟩, ?_, fun i hi => hcons i (h.live.cons i hi)⟩, fun x y => hcons _ (h.con x y)⟩
  have := h.li.addAsrt (a := ⟨R.le, s.nvars, y, R.bound kt⟩) rfl hI.nvars_pos hy hok (fun i q hq => tru_lt hI hq)
  show LI (s.th.addAsrt _) (s.nvars + 1) (upd s.bounds s.nvars (0 :: (s.bounds s.nvars).erase 0)) s.dl s.tru _
  rw [hb0]
  exact this

/-- `new_lt`, `new_leq`, `new_geq`, `new_gt` -/
theorem newRel_alive (hI : SInv L Z s U) (h : ALive L s d) {R : Rel4} {l r : Lin} {p : Lit} (hl : l.Canon) (hr : r.Canon) (hvl : ∀ w ∈ keys l.vars, w < s.th.n)
    (hvr : ∀ w ∈ keys r.vars, w < s.th.n) (hn : newRel R s l r = .ok (s', p)) : ALive L s' d := by
  obtain ⟨Fs, hg⟩ := hI.ti.good
  obtain ⟨hc, hk, he⟩ := diffExpr_spec hg hl hr hvl hvr
  unfold newRel at hn
  simp only at hn
  generalize s.th.diffExpr l r = e at hc hk he hn
  split at hn
  · cases hn
  · split at hn
    · injection hn with hn; injection hn with e1 e2; subst e1; exact h
    · injection hn with hn; injection hn with e1 e2; subst e1; exact h
    · split at hn
      · cases hn
      · next t y hnv =>
        have hc0 : (⟨e.vars, 0⟩ : Lin).Canon := hc
        obtain ⟨g, hy, -⟩ := newVarL_grows hI hc0 (fun w hw => (hk w hw).2) rfl hnv
        have ha := newVarL_alive hI h hc0 (fun w hw => (hk w hw).2) rfl hnv
        split at hn
        · injection hn with hn; injection hn with e1 e2; subst e1; exact ha
        · injection hn with hn; injection hn with e1 e2; subst e1; exact ha
        · split at hn
          · injection hn with hn; injection hn with e1 e2; subst e1; exact ha
          · injection hn with hn; injection hn with e1 e2; subst e1
            exact register_alive (s := { s with th := t }) g.sinv ha hy

/-- The test on a point always decides. -/
theorem test_point (R : Rel4) (a c : IQ) : R.test (a : WithBot IQ) (a : WithTop IQ) c ≠ none := by
  rcases lt_trichotomy a c with h | h | h
  all_goals
    cases R <;> simp only [Rel4.test, WithTop.coe_lt_coe, WithBot.coe_le_coe, WithTop.coe_le_coe, WithBot.coe_lt_coe] <;>
    first
    | (rw [if_pos (by first | exact h | exact h.le | exact le_of_eq h | exact h.ge)]; simp)
    | (rw [if_neg (by first | exact not_lt.mpr h.ge | exact not_lt.mpr h.le | exact not_le.mpr h | exact not_lt.mpr (le_of_eq h)), if_pos (by first | exact h | exact h.le | exact le_of_eq h.symm | exact le_of_eq h)]; simp)

/-- At root level the relational constructors succeed. -/
theorem newRel_total (hI : SInv L Z s U) (hroot : s.root = true) (R : Rel4) {l r : Lin} (hl : l.Canon) (hr : r.Canon) (hvl : ∀ w ∈ keys l.vars, w < s.th.n)
    (hvr : ∀ w ∈ keys r.vars, w < s.th.n) : ∃ s' p, newRel R s l r = .ok (s', p) := by
  obtain ⟨Fs, hg⟩ := hI.ti.good
  obtain ⟨hc, hk, he⟩ := diffExpr_spec hg hl hr hvl hvr
  unfold newRel
  simp only
  generalize s.th.diffExpr l r = e at hc hk he
  have hall : (e.vars.all (fun y => decide (y.1 < s.th.n))) = true := by
    simp only [List.all_eq_true, decide_eq_true_eq]
    exact fun y hy => (hk y.1 (List.mem_map.mpr ⟨y, hy, rfl⟩)).1
  rw [if_neg (by rw [hall]; simp)]
  cases ht : R.test (s.th.lbL ⟨e.vars, 0⟩) (s.th.ubL ⟨e.vars, 0⟩) (R.bound e.kt) with
  | some b => cases b <;> exact ⟨_, _, rfl⟩
  | none =>
    simp only
    have hne : e.vars ≠ [] := by
      intro e0
      refine test_point R (IQ.ofQ 0) (R.bound e.kt) ?_
      rw [e0] at ht
      exact ht
    have hnv : ∃ t y, s.th.newVarL s.root ⟨e.vars, 0⟩ = .ok (t, y) := by
      unfold newVarL
      rw [if_neg hne]
      split
      · exact ⟨_, _, rfl⟩
      · rw [if_neg (by simp [hroot]), if_neg (by rw [hall]; simp)]
        exact ⟨_, _, rfl⟩
    obtain ⟨t, y, hnv⟩ := hnv
    simp only [hnv]
    cases ht : R.test (t.lo y) (t.hi y) (R.bound e.kt) with
    | some b => cases b <;> exact ⟨_, _, rfl⟩
    | none =>
      simp only
      split <;> exact ⟨_, _, rfl⟩

/-- `new_eq` -/
theorem newEqL_alive {E : Env} (hI : SInv L Z s U) (h : ALive L s d) {l r : Lin} {p : Lit} (hl : l.Canon) (hr : r.Canon) (hvl : ∀ w ∈ keys l.vars, w < s.th.n)
    (hvr : ∀ w ∈ keys r.vars, w < s.th.n) (hn : newEqL E s l r = .ok (s', p)) : ALive L s' d := by
  unfold newEqL at hn
  split at hn
  · cases hn
  · next s1 p1 h1 =>
    have a1 := newRel_adds hI hl hr hvl hvr h1
    have b1 := newRel_alive hI h hl hr hvl hvr h1
    split at hn
    · cases hn
    · next s2 p2 h2 =>
      have hvl1 : ∀ w ∈ keys l.vars, w < s1.th.n := fun w hw => (hvl w hw).trans_le a1.n
      have hvr1 : ∀ w ∈ keys r.vars, w < s1.th.n := fun w hw => (hvr w hw).trans_le a1.n
      have a2 := newRel_adds a1.sinv hl hr hvl1 hvr1 h2
      have b2 := newRel_alive a1.sinv b1 hl hr hvl1 hvr1 h2
      obtain ⟨hroot, hv⟩ := Sat.newConj_pre hn
      obtain ⟨s3, q, a, b⟩ := Sat.newConj_spec (E := E) a2.sinv.rinv.inv hroot hv
      rw [hn] at a
      injection a with a; injection a with e1 e2
      subst e1 e2
      have := b.defd.live (Sat.newConj_quiet hn) a2.sinv.rinv.inv.wf hroot b2
      have hth := b.defd.rstep.th
      unfold ALive
      rw [hth]
      exact this

theorem newEqL_total {E : Env} (hI : SInv L Z s U) (hroot : s.root = true) {l r : Lin} (hl : l.Canon) (hr : r.Canon) (hvl : ∀ w ∈ keys l.vars, w < s.th.n)
    (hvr : ∀ w ∈ keys r.vars, w < s.th.n) : ∃ s' p, newEqL E s l r = .ok (s', p) := by
  obtain ⟨s1, p1, h1⟩ := newRel_total hI hroot .geq hl hr hvl hvr
  have a1 := newRel_adds hI hl hr hvl hvr h1
  have hvl1 : ∀ w ∈ keys l.vars, w < s1.th.n := fun w hw => (hvl w hw).trans_le a1.n
  have hvr1 : ∀ w ∈ keys r.vars, w < s1.th.n := fun w hw => (hvr w hw).trans_le a1.n
  have hr1 : s1.root = true := a1.root.trans hroot
  obtain ⟨s2, p2, h2⟩ := newRel_total a1.sinv hr1 .leq hl hr hvl1 hvr1
  have a2 := newRel_adds a1.sinv hl hr hvl1 hvr1 h2
  have hr2 : s2.root = true := a2.root.trans hr1
  obtain ⟨s3, q, a, -⟩ := Sat.newConj_spec (E := E) (ls := [p1, p2]) a2.sinv.rinv.inv hr2 (by
    intro l hl
    rcases List.mem_cons.mp hl with rfl | hl
    · exact a1.var.trans_le a2.nv
    · rcases List.mem_cons.mp hl with rfl | hl
      · exact a2.var
      · cases hl)
  exact ⟨s3, q, by unfold newEqL; simp only [h1, h2]; exact a⟩

/-! ### Bounds imposed by the user -/

/-- A bound imposed at root level has been asserted. -/
theorem LI.impose {t t' : LRA} {nv : Nat} {b : Nat → List Nat} {A : Nat → Lit → Prop} {P : Lit → Prop} {f : Fact} {g : BF} {F : List BF} {Gs : List (List BF)} (h : LI t nv b 0 A P)
    (h1 : Good t A (F :: Gs)) (h2 : Told t 0 A P (F :: Gs)) (h3 : Reg t nv b (A 0) (rootF 0 (F :: Gs))) (h4 : FactOk t (rootF 0 (F :: Gs))) (h5 : ∀ f ∈ (F :: Gs).flatten, f.Eps)
    (hfg : match f with
      | .lo _ x w => ∃ u : IQ, w = (u : WithBot IQ) ∧ g = .lo x u
      | .hi _ x w => ∃ u : IQ, w = (u : WithTop IQ) ∧ g = .hi x u) (hge : g.Eps)
    (hs : Same ({ t with facts := f :: t.facts } : LRA) t') (hrs : RsAll t' (A 0)) (hg : Good t' A ((g :: F) :: Gs)) : LI t' nv b 0 A P := by
  have hv : t'.vas = t.vas := hs.vas
  have hlen : (F :: Gs).length = 0 + 1 := by rw [h1.lev.length, h.len]
  refine ⟨hs.lay.trans h.len, h.am, h.nz.same hs.n hs.defs, hrs, _, hg, ?_, ?_, fun f' hf' => ?_, fun f' hf' => ?_⟩
  · intro i hi v sg a hva
    rw [hv] at hva
    exact told_add hlen h2 i hi v sg a hva
  · have := h3.mono (Nat.le_refl _) (fun _ h => h) (rootF_add (n := 0) (f := g))
    exact ⟨by rw [hv]; exact this.no, by rw [hv]; exact this.yes, by rw [hv]; exact this.lt, by rw [hv]; exact this.pos, by rw [hv]; exact this.eps⟩
  · rw [hs.facts] at hf'
    rcases List.mem_cons.mp hf' with rfl | hf'
    · cases f' with
      | lo p x w => obtain ⟨u, e, rfl⟩ := hfg; exact Or.inr ⟨u, e, by simp [rootF]⟩
      | hi p x w => obtain ⟨u, e, rfl⟩ := hfg; exact Or.inr ⟨u, e, by simp [rootF]⟩
    · exact h4.mono rootF_add f' hf'
  · rw [List.flatten_cons, List.cons_append] at hf'
    rcases List.mem_cons.mp hf' with rfl | hf'
    · exact hge
    · exact h5 f' hf'

/-- The theory acts at root level on a live state. -/
theorem act_alive {E : Env} {act : TAct LRA} {p : Lit} (hI : SInv L Z s U) (h : s.Fix s.okQ) (hr : s.root = true) (hp : s.value p = some true)
    (ha : ActLive (fun _ => False) (fun t A P => LI t s.nvars s.bounds 0 A P) (fun _ _ => True) s.dl s.nvars p s.tru (fun q => q ∈ s.propQ) s.value act)
    (ho : ActOK Th (TI (sig s.th)) s.th s.dl s.tru act) :
    ∃ s' r, Sat.runAct E act s = .ok (s', r) ∧ (r = none → ALive L s' true) := by
  have hw := hI.rinv.inv.wf
  have hdl : s.dl = 0 := (Sat.root_iff s).mp hr
  have hlp : s.level p.var = s.dl := by
    have := hw.level_le p.var
    omega
  obtain ⟨s', r, h1, h2, -, h3, -⟩ := (Sat.runAct_live (E := E) (lraC L Z (sig s.th)) act s hw h hp hlp ha).resolve_left (fun ⟨_, h, _⟩ => h)
  refine ⟨s', r, h1, fun hrn => ?_⟩
  have k := Sat.runAct_spec (lraC L Z (sig s.th)) True act s s' r hw (fun _ => ⟨hI.rinv.inv.sem, ho.restrict Z⟩) h1
  have hdl' : s'.dl = 0 := k.dl.trans hdl
  refine ⟨⟨h2, ?_, fun i hi => by omega⟩, fun x => by cases x⟩
  have := h3 hrn
  show LI s'.th s'.nvars s'.bounds s'.dl s'.tru _
  rw [k.evo.nv, k.bounds, hdl']
  exact this

/-- `set_lb` at root level, with a bound that no infinitesimal relaxes, succeeds; when it returns no conflict the state is live. -/
theorem setLbC_alive {E : Env} (hI : SInv L Z s U) (h : ALive L s d) (hr : s.root = true) {x : Nat} {v : IQ} {p : Lit} (hx : x < s.th.n) (hp : s.value p = some true) (hv : 0 ≤ (ofLex v).2) :
    ∃ s' r, setLbC E L s x v p = .ok (s', r) ∧ (r = none → ALive L s' true) := by
  have hpv : p.var < s.nvars := hI.rinv.inv.wf.rng _ (by rw [Sat.value_true] at hp; rw [hp]; simp)
  have hs0 := note_sinv hI (f := .lo p x v) (root_true hI hr hp) hpv hx
  have hlen := hs0.ti.len
  have hw := hs0.rinv.inv.wf
  have htru := hw.tru_iff
  have hdl : s.dl = 0 := (Sat.root_iff s).mp hr
  have hli := h.li
  rw [hdl] at hli
  obtain ⟨Fs, h1, h2, h3, h4, h5⟩ := hli.fs
  obtain ⟨F, Gs, rfl⟩ := h1.fs
  have hg : Good (note s (.lo p x v)).th s.tru (F :: Gs) := h1.fact
  have hj : ∀ α X, Mod (note s (.lo p x v)).th α X → α.sat p → v ≤ X x := fun α X hm hs => WithBot.coe_le_coe.mp (hm.fact (.lo p x v) List.mem_cons_self hs)
  have hval := assertLower_valid L hg (val := s.value) (v := v) (p := p) hx (fun q => Sat.value_neg s q) (fun q hq => (htru q).mp (by rw [← hlen]; exact hq))
    (by rw [hlen]; exact (htru p).mpr hp) hj
  have key : ∀ t' Fs', Good t' (note s (.lo p x v)).tru Fs' ∧ Same (note s (.lo p x v)).th t' →
      TI (sig (note s (.lo p x v)).th) t' (note s (.lo p x v)).dl (note s (.lo p x v)).tru ∧ ∀ α, Th t' α ↔ Th (note s (.lo p x v)).th α := by
    rintro t' Fs' ⟨hg', hs⟩
    exact ⟨⟨hs.sig, fun v l hl => hs0.ti.k0 v l (by rw [← hs.row]; exact hl), hs0.ti.exp.same hs, hs.lay.trans hlen, by rw [hs.facts]; exact hs0.ti.fl, Fs', hg'⟩, th_of_sig hs.sig⟩
  have hact := actOK_of hval (fun cl hcl α ⟨x, hx⟩ => hcl hs0.ti.k0 α _ hx) (fun t' h' => key t' _ h') (fun t' h' => key t' _ h') (fun q => Sat.value_neg s q) _ (fun _ _ _ h => h) htru
  refine act_alive (s := note s (.lo p x v)) hs0 ⟨h.live.fix.nd, h.live.fix.fx⟩ hr hp ?_ hact
  have e : (note s (.lo p x v)).dl = 0 := hdl
  rw [e]
  have hA0 : ∀ q, s.tru 0 q ↔ s.value q = some true := by rw [← hdl]; exact hI.rinv.inv.wf.tru_iff
  refine assertLower_live hg (by rw [hlen]; exact hdl) ⟨hli.rs.lo, hli.rs.hi, hli.rs.llo, hli.rs.lhi⟩ h3.lt hx (fun q => Sat.value_neg s q) hA0 hp hj
    ⟨fun w hw => by rw [WithBot.coe_inj] at hw; subst hw; exact hv, Or.inl ((hA0 p).mpr hp)⟩ (fun t' hs hrs hg' A' P' ha => ?_) (fun _ _ _ _ _ _ _ => trivial)
  have := LI.impose (f := .lo p x v) (g := .lo x v) hli h1 h2 h3 h4 h5 ⟨v, rfl, rfl⟩ hv hs hrs hg'
  exact this.adv (Nat.le_refl _) ha

/-- `set_ub` at root level. -/
theorem setUbC_alive {E : Env} (hI : SInv L Z s U) (h : ALive L s d) (hr : s.root = true) {x : Nat} {v : IQ} {p : Lit} (hx : x < s.th.n) (hp : s.value p = some true) (hv : (ofLex v).2 ≤ 0) :
    ∃ s' r, setUbC E L s x v p = .ok (s', r) ∧ (r = none → ALive L s' true) := by
  have hpv : p.var < s.nvars := hI.rinv.inv.wf.rng _ (by rw [Sat.value_true] at hp; rw [hp]; simp)
  have hs0 := note_sinv hI (f := .hi p x v) (root_true hI hr hp) hpv hx
  have hlen := hs0.ti.len
  have hw := hs0.rinv.inv.wf
  have htru := hw.tru_iff
  have hdl : s.dl = 0 := (Sat.root_iff s).mp hr
  have hli := h.li
  rw [hdl] at hli
  obtain ⟨Fs, h1, h2, h3, h4, h5⟩ := hli.fs
  obtain ⟨F, Gs, rfl⟩ := h1.fs
  have hg : Good (note s (.hi p x v)).th s.tru (F :: Gs) := h1.fact
  have hj : ∀ α X, Mod (note s (.hi p x v)).th α X → α.sat p → X x ≤ v := fun α X hm hs => WithTop.coe_le_coe.mp (hm.fact (.hi p x v) List.mem_cons_self hs)
  have hval := assertUpper_valid L hg (val := s.value) (v := v) (p := p) hx (fun q => Sat.value_neg s q) (fun q hq => (htru q).mp (by rw [← hlen]; exact hq))
    (by rw [hlen]; exact (htru p).mpr hp) hj
  have key : ∀ t' Fs', Good t' (note s (.hi p x v)).tru Fs' ∧ Same (note s (.hi p x v)).th t' →
      TI (sig (note s (.hi p x v)).th) t' (note s (.hi p x v)).dl (note s (.hi p x v)).tru ∧ ∀ α, Th t' α ↔ Th (note s (.hi p x v)).th α := by
    rintro t' Fs' ⟨hg', hs⟩
    exact ⟨⟨hs.sig, fun v l hl => hs0.ti.k0 v l (by rw [← hs.row]; exact hl), hs0.ti.exp.same hs, hs.lay.trans hlen, by rw [hs.facts]; exact hs0.ti.fl, Fs', hg'⟩, th_of_sig hs.sig⟩
  have hact := actOK_of hval (fun cl hcl α ⟨x, hx⟩ => hcl hs0.ti.k0 α _ hx) (fun t' h' => key t' _ h') (fun t' h' => key t' _ h') (fun q => Sat.value_neg s q) _ (fun _ _ _ h => h) htru
  refine act_alive (s := note s (.hi p x v)) hs0 ⟨h.live.fix.nd, h.live.fix.fx⟩ hr hp ?_ hact
  have e : (note s (.hi p x v)).dl = 0 := hdl
  rw [e]
  have hA0 : ∀ q, s.tru 0 q ↔ s.value q = some true := by rw [← hdl]; exact hI.rinv.inv.wf.tru_iff
  refine assertUpper_live hg (by rw [hlen]; exact hdl) ⟨hli.rs.lo, hli.rs.hi, hli.rs.llo, hli.rs.lhi⟩ h3.lt hx (fun q => Sat.value_neg s q) hA0 hp hj
    ⟨fun w hw => by rw [WithTop.coe_inj] at hw; subst hw; exact hv, Or.inl ((hA0 p).mpr hp)⟩ (fun t' hs hrs hg' A' P' ha => ?_) (fun _ _ _ _ _ _ _ => trivial)
  have := LI.impose (f := .hi p x v) (g := .hi x v) hli h1 h2 h3 h4 h5 ⟨v, rfl, rfl⟩ hv hs hrs hg'
  exact this.adv (Nat.le_refl _) ha

end LRA
end Semitone
