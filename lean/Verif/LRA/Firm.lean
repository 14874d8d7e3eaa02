import Verif.Sat.FirmProd
import Verif.LRA.PropsD

/-!
# The linear-arithmetic theory keeps its invariant

Whatever clauses the other theories record: what the constructors and the bounds imposed by the client do to a state in order.
-/
namespace Semitone
namespace LRA
open Lin
variable {E : Env} {L : LEnv} {s s' : Sat LRA} {U : List Fact}

/-- The linear-arithmetic theory, with the imposed bounds `U` among its facts. -/
def firm (L : LEnv) (U : List Fact) : Firm (ops L) :=
  Firm.ofLive (C := lraContract L) (live L) (fun S => ∀ f ∈ U, f ∈ S.facts) (fun t => ∀ v, InB (t.lo v) (t.hi v) (t.vals v)) (fun _ _ h => h) (fun _ _ h => h)

theorem calm_li (h : s.Calm (firm L U)) : LI s.th s.nvars s.bounds s.dl s.tru (fun q => q ∈ s.propQ) := by
  obtain ⟨S, -, h, -⟩ := h.li
  exact h

theorem calm_ti (h : s.Calm (firm L U)) : TI (sig s.th) s.th s.dl s.tru := by
  obtain ⟨S, -, -, h⟩ := h.li
  have h : TI S s.th s.dl s.tru := h
  rw [h.sig]; exact h

theorem calm_user (h : s.Calm (firm L U)) : ∀ f ∈ U, f ∈ s.th.facts := by
  obtain ⟨S, hU, -, h⟩ := h.li
  have h : TI S s.th s.dl s.tru := h
  intro f hf
  have := hU f hf
  rw [← h.sig] at this
  exact this

theorem calm_of (h : s.Sound) (hl : LI s.th s.nvars s.bounds s.dl s.tru (fun q => q ∈ s.propQ)) (ht : TI (sig s.th) s.th s.dl s.tru) (hu : ∀ f ∈ U, f ∈ s.th.facts) : s.Calm (firm L U) :=
  h.calm ⟨sig s.th, hu, hl, ht⟩

theorem sound_th (h : s.Sound) (t : LRA) : ({ s with th := t } : Sat LRA).Sound := h.retheory t s.bounds

/-- Only variables in use are listened to, by this theory only. -/
theorem calm_bounds (h : s.Calm (firm L U)) : (∀ v, ∀ i ∈ s.bounds v, i < 1) ∧ ∀ v, s.nvars ≤ v → s.bounds v = [] := by
  obtain ⟨Fs, -, -, g, -⟩ := (calm_li h).fs
  refine ⟨fun v i hi => ?_, fun v hv => ?_⟩
  · cases hx : s.th.vas v with
    | none => rw [g.no v hx] at hi; cases hi
    | some a =>
      rcases g.yes v a hx with e | ⟨e, -⟩
      · rw [e] at hi; simp at hi; omega
      · rw [e] at hi; cases hi
  · refine g.no v ?_
    cases hx : s.th.vas v with
    | none => rfl
    | some a => have := g.lt v a hx; omega

/-- What a call that retracts nothing keeps. -/
structure Kept (L : LEnv) (U : List Fact) (s s' : Sat LRA) : Prop where
  calm : s'.Calm (firm L U)
  mild : s.Mild s'
  bnd : ∀ v, v < s.nvars → s'.bounds v = s.bounds v
  n : s.th.n ≤ s'.th.n

theorem Kept.refl (h : s.Calm (firm L U)) : Kept L U s s := ⟨h, .refl s, fun _ _ => rfl, Nat.le_refl _⟩

theorem Kept.trans {s1 s2 s3 : Sat LRA} (h1 : Kept L U s1 s2) (h2 : Kept L U s2 s3) : Kept L U s1 s3 :=
  ⟨h2.calm, h1.mild.trans h2.mild, fun v hv => (h2.bnd v (hv.trans_le h1.mild.nv)).trans (h1.bnd v hv), h1.n.trans h2.n⟩

/-- The theory changes. -/
theorem kept_th (h : s.Calm (firm L U)) {t : LRA} (hl : LI t s.nvars s.bounds s.dl s.tru (fun q => q ∈ s.propQ)) (ht : TI (sig t) t s.dl s.tru) (hu : ∀ f ∈ s.th.facts, f ∈ t.facts)
    (hn : s.th.n ≤ t.n) : Kept L U s { s with th := t } :=
  ⟨calm_of (sound_th h.sound t) hl ht (fun f hf => hu f (calm_user h f hf)), .of_eq rfl (Nat.le_refl _) rfl rfl rfl, fun _ _ => rfl, hn⟩

/-- `new_var()` -/
theorem newVar_kept (h : s.Calm (firm L U)) : Kept L U s { s with th := s.th.newVar.1 } := by
  have hti := calm_ti h
  obtain ⟨Fs, hg⟩ := hti.good
  exact kept_th h (calm_li h).newVar ⟨rfl, hti.k0, hti.exp.newVar hg, hti.len, hti.fl, Fs, hg.newVar⟩ (fun _ h => h) (Nat.le_succ _)

/-- `listen` -/
theorem listen_kept (h : s.Calm (firm L U)) {v l : Nat} {t : LRA} (hn : s.th.listen v l = .ok t) : Kept L U s { s with th := t } := by
  obtain ⟨f, e⟩ := listen_eq hn
  subst e
  have hti := calm_ti h
  have hli := calm_li h
  obtain ⟨Fs, g1, g2, g3, g4, g5⟩ := hli.fs
  exact kept_th h ⟨hli.len, hli.am, hli.nz, ⟨hli.rs.lo, hli.rs.hi, hli.rs.llo, hli.rs.lhi⟩, Fs, g1.lst, g2, ⟨g3.no, g3.yes, g3.lt, g3.pos, g3.eps⟩, g4, g5⟩
    ⟨rfl, hti.k0, ⟨hti.exp.ex, hti.exp.sa, hti.exp.kk⟩, hti.len, hti.fl, Fs, g1.lst⟩ (fun _ h => h) (Nat.le_refl _)

theorem calm_true (h : s.Calm (firm L U)) : s.tru 0 TRUE_lit := by
  refine ⟨?_, Nat.le_of_eq (h.tw.off 0 h.tw.fvt)⟩
  rw [Sat.value_true]
  exact h.tw.fv

/-- `new_var(l)` -/
theorem newVarL_kept (h : s.Calm (firm L U)) {l : Lin} {t : LRA} {y : Nat} (hc : l.Canon) (hb : ∀ w ∈ keys l.vars, s.th.row w = none) (hk : l.kt = 0)
    (hn : s.th.newVarL s.root l = .ok (t, y)) : Kept L U s { s with th := t } ∧ y < t.n := by
  have hti := calm_ti h
  obtain ⟨Fs, hg⟩ := hti.good
  rcases newVarL_cases hg hn with ⟨e, hl⟩ | ⟨hne, _, hr, hv, e, e2⟩
  · subst e
    exact ⟨.refl h, (hti.exp.ex l y (lookup_mem' hl)).1⟩
  · subst e e2
    have hdl : s.dl = 0 := (Sat.root_iff s).mp hr
    have hlay : s.th.layers = [] := by
      have h1 := hti.len
      rw [hdl] at h1
      exact List.length_eq_zero_iff.mp h1
    have hvk : ∀ w ∈ keys l.vars, w < s.th.n ∧ s.th.row w = none := fun w hw => by
      obtain ⟨z, hz, e⟩ := List.mem_map.mp hw
      exact ⟨e ▸ hv z hz, hb w hw⟩
    have hli := calm_li h
    rw [hdl] at hli
    refine ⟨kept_th h ?_ ⟨rfl, ?_, hti.exp.defVar hg l, hti.len, ?_, Fs, hg.defVar hlay (calm_true h) hc hvk⟩ (fun f hf => List.mem_cons_of_mem _ (List.mem_cons_of_mem _ hf)) (Nat.le_succ _), Nat.lt_succ_self _⟩
    · rw [hdl]
      exact hli.defVar (calm_true h) hti.k0 hc hne hk hvk
    · intro v l' hl'
      have hl' : upd s.th.row s.th.n (some l) v = some l' := hl'
      by_cases e : v = s.th.n
      · subst e; rw [upd_self] at hl'; cases hl'; exact hk
      · rw [upd_ne _ _ e] at hl'; exact hti.k0 v l' hl'
    · intro f hf
      rcases List.mem_cons.mp hf with rfl | hf
      · exact calm_true h
      · rcases List.mem_cons.mp hf with rfl | hf
        · exact calm_true h
        · exact hti.fl f hf

/-- Registration of a constraint on a fresh variable of the core. -/
theorem register_kept (h : s.Calm (firm L U)) {R : Rel4} {y : Nat} {kt : ℚ} (hy : y < s.th.n) :
    Kept L U s { (s.newVar.1.bind s.newVar.2 0) with th := s.th.addAsrt ⟨R.le, s.newVar.2, y, R.bound kt⟩ } := by
  have hw := h.tw
  have hti := calm_ti h
  have hli := calm_li h
  obtain ⟨Fs, hg⟩ := hti.good
  have hC1 : s.newVar.1.Calm (firm L U) := ⟨Sat.newVar_steady h.toSteady, h.qr⟩
  have hA1 : s.newVar.1.tru = s.tru := by
    obtain ⟨a, b⟩ := Sat.newVar_assigns h.tw
    funext k q
    unfold Sat.tru Sat.value
    rw [a, b]
  have hv2 : s.newVar.2 = s.nvars := rfl
  have hbd : s.newVar.1.bounds = s.bounds := rfl
  have hb0 : s.bounds s.nvars = [] := (calm_bounds h).2 _ (Nat.le_refl _)
  have hf : s.th.vas s.nvars = none := by
    obtain ⟨Fs, -, -, g, -⟩ := hli.fs
    cases hx : s.th.vas s.nvars with
    | none => rfl
    | some a => exact absurd (g.lt _ _ hx) (Nat.lt_irrefl _)
  have hrng : ∀ i q, s.tru i q → q.var < s.nvars := fun i q hq => hw.rng _ (by have := (Sat.value_true _ _).mp hq.1; rw [this]; simp)
  have hb : (s.newVar.1.bind s.newVar.2 0).bounds = upd s.bounds s.nvars [0] := by
    show upd s.newVar.1.bounds s.newVar.2 (0 :: (s.newVar.1.bounds s.newVar.2).erase 0) = _
    rw [hbd, hv2, hb0]; rfl
  refine ⟨calm_of (hC1.sound.retheory (s.th.addAsrt ⟨R.le, s.newVar.2, y, R.bound kt⟩) (s.newVar.1.bind s.newVar.2 0).bounds) ?_ ?_ (fun f hf => calm_user h f hf), ?_, fun v hv => ?_, Nat.le_refl _⟩
  · show LI (s.th.addAsrt ⟨R.le, s.newVar.2, y, R.bound kt⟩) (s.nvars + 1) (s.newVar.1.bind s.newVar.2 0).bounds s.dl s.newVar.1.tru (fun q => q ∈ s.propQ)
    rw [hb, hA1]
    exact hli.addAsrt (a := ⟨R.le, s.nvars, y, R.bound kt⟩) rfl hw.nv hy (bound_ok R _ _ _) hrng
  · show TI _ (s.th.addAsrt ⟨R.le, s.newVar.2, y, R.bound kt⟩) s.dl s.newVar.1.tru
    rw [hA1]
    exact ⟨rfl, hti.k0, hti.exp.addAsrt hf, hti.len, hti.fl, Fs, hg.addAsrt hf hy⟩
  · exact (hw.newVar_mild).trans (.of_eq rfl (Nat.le_refl _) rfl rfl rfl)
  · show (s.newVar.1.bind s.newVar.2 0).bounds v = _
    rw [hb, upd_ne _ _ (Nat.ne_of_lt hv)]

/-- `new_lt`, `new_leq`, `new_geq`, `new_gt` -/
theorem newRel_kept (h : s.Calm (firm L U)) {R : Rel4} {l r : Lin} {p : Lit} (hl : l.Canon) (hr : r.Canon) (hvl : ∀ w ∈ keys l.vars, w < s.th.n)
    (hvr : ∀ w ∈ keys r.vars, w < s.th.n) (hn : newRel R s l r = .ok (s', p)) : Kept L U s s' := by
  obtain ⟨Fs, hg⟩ := (calm_ti h).good
  obtain ⟨hc, hk, he⟩ := diffExpr_spec hg hl hr hvl hvr
  unfold newRel at hn
  simp only at hn
  generalize s.th.diffExpr l r = e at hc hk he hn
  split at hn
  · cases hn
  · split at hn
    · injection hn with hn; injection hn with e1 e2; subst e1; exact .refl h
    · injection hn with hn; injection hn with e1 e2; subst e1; exact .refl h
    · split at hn
      · cases hn
      · next t y hnv =>
        have hc0 : (⟨e.vars, 0⟩ : Lin).Canon := hc
        obtain ⟨ha, hy⟩ := newVarL_kept h hc0 (fun w hw => (hk w hw).2) rfl hnv
        split at hn
        · injection hn with hn; injection hn with e1 e2; subst e1; exact ha
        · injection hn with hn; injection hn with e1 e2; subst e1; exact ha
        · split at hn
          · injection hn with hn; injection hn with e1 e2; subst e1; exact ha
          · injection hn with hn; injection hn with e1 e2; subst e1
            exact ha.trans (register_kept (s := { s with th := t }) ha.calm hy)

/-- `new_eq` -/
theorem newEqL_kept (h : s.Calm (firm L U)) {l r : Lin} {p : Lit} (hl : l.Canon) (hr : r.Canon) (hvl : ∀ w ∈ keys l.vars, w < s.th.n)
    (hvr : ∀ w ∈ keys r.vars, w < s.th.n) (hn : newEqL E s l r = .ok (s', p)) :
    s'.dead = true ∨ (s'.Calm (firm L U) ∧ s.Mild s' ∧ ∀ v, v < s.nvars → s'.bounds v = s.bounds v) := by
  unfold newEqL at hn
  split at hn
  · cases hn
  · next s1 p1 h1 =>
    have a1 := newRel_kept h hl hr hvl hvr h1
    split at hn
    · cases hn
    · next s2 p2 h2 =>
      have a2 := newRel_kept a1.calm hl hr (fun w hw => (hvl w hw).trans_le a1.n) (fun w hw => (hvr w hw).trans_le a1.n) h2
      have hroot := (Sat.newConj_pre hn).1
      have ad := Sat.newConj_adds (K := firm L U) hn
      rcases ad.ok hroot a2.calm.toSteady with hd | ⟨hS, hM⟩
      · exact .inl hd
      · rcases ad.calm hroot a2.calm with hd | hC
        · exact .inl hd
        · have a := a1.trans a2
          exact .inr ⟨hC, a.mild.trans hM, fun v hv => by rw [ad.bnd]; exact a.bnd v hv⟩

/-- A bound imposed at root level. -/
theorem act_kept {f : Fact} {act : TAct LRA} {p : Lit} (h : s.Calm (firm L U)) (hr : s.root = true)
    (ha : ActLive (fun _ => False) (fun t A P => LI t s.nvars s.bounds 0 A P) (fun _ _ => True) (note s f).dl s.nvars p (note s f).tru (fun q => q ∈ s.propQ) (note s f).value act)
    (ho : ActOK Th (TI (sig (note s f).th)) (note s f).th (note s f).dl (note s f).tru act) (he : Sat.runAct E act (note s f) = .ok (s', none)) : Kept L (f :: U) s s' ∧ sig s'.th = sig (note s f).th := by
  have hw : (note s f).TW := (sound_th h.sound _).tw
  have hdl : s.dl = 0 := (Sat.root_iff s).mp hr
  obtain ⟨a, b, -⟩ := Sat.runAct_steady act hw (ActFirm.ofLive (fun _ h => h) ha ho) he
  obtain ⟨b1, b2⟩ := b rfl
  have hdl' : s'.dl = (note s f).dl := a.dl
  have hM := a.mild hw
  refine ⟨?_, b2.sig⟩
  refine ⟨calm_of ⟨a.tw, Sat.Lk.up ((sound_th h.sound _).lk) a, fun hx => absurd (hdl'.trans hdl) hx⟩ ?_ ?_ (fun g hg => ?_), ⟨hM.dl, hM.nv, hM.up, hM.low, hM.new, hM.pen⟩, fun v _ => by rw [a.bnd]; rfl, ?_⟩
  · rw [a.nv, a.bnd, hdl', show (note s f).dl = 0 from hdl]; exact b1
  · rw [hdl', b2.sig]; exact b2
  · have e : s'.th.facts = f :: s.th.facts := congrArg Sig.facts b2.sig
    rw [e]
    rcases List.mem_cons.mp hg with rfl | hg
    · exact List.mem_cons_self
    · exact List.mem_cons_of_mem _ (calm_user h g hg)
  · have e : s'.th.n = s.th.n := congrArg Sig.n b2.sig
    rw [e]

theorem note_ti (h : s.Calm (firm L U)) {f : Fact} (h0 : s.tru 0 f.lit) : TI (sig (note s f).th) (note s f).th (note s f).dl (note s f).tru := by
  have hti := calm_ti h
  obtain ⟨Fs, hg⟩ := hti.good
  refine ⟨rfl, hti.k0, hti.exp.fact, hti.len, fun g hg => ?_, Fs, hg.fact⟩
  rcases List.mem_cons.mp hg with rfl | hg
  · exact h0
  · exact hti.fl g hg

/-- `set_lb` at root level, with a bound that no infinitesimal relaxes. -/
theorem setLbC_kept' (h : s.Calm (firm L U)) (hr : s.root = true) {x : Nat} {v : IQ} {p : Lit} (hx : x < s.th.n) (hp : s.value p = some true) (hv : 0 ≤ (ofLex v).2)
    (hn : setLbC E L s x v p = .ok (s', none)) : Kept L (.lo p x v :: U) s s' ∧ sig s'.th = sig (note s (.lo p x v)).th := by
  have hdl : s.dl = 0 := (Sat.root_iff s).mp hr
  have htru := h.tw.tru_iff
  have hA0 : ∀ q, s.tru 0 q ↔ s.value q = some true := by rw [← hdl]; exact htru
  have hs0 := note_ti h (f := .lo p x v) ((hA0 p).mpr hp)
  have hlen : (note s (.lo p x v)).th.layers.length = s.dl := hs0.len
  have hli := calm_li h
  rw [hdl] at hli
  obtain ⟨Fs, h1, h2, h3, h4, h5⟩ := hli.fs
  obtain ⟨F, Gs, rfl⟩ := h1.fs
  have hg : Good (note s (.lo p x v)).th s.tru (F :: Gs) := h1.fact
  have hj : ∀ α X, Mod (note s (.lo p x v)).th α X → α.sat p → v ≤ X x := fun α X hm hs => WithBot.coe_le_coe.mp (hm.fact (.lo p x v) List.mem_cons_self hs)
  have hval := assertLower_valid L hg (val := s.value) (v := v) (p := p) hx (fun q => Sat.value_neg s q) (fun q hq => (htru q).mp (hlen ▸ hq))
    (by rw [hlen]; exact (htru p).mpr hp) hj
  have key : ∀ t' Fs', Good t' (note s (.lo p x v)).tru Fs' ∧ Same (note s (.lo p x v)).th t' →
      TI (sig (note s (.lo p x v)).th) t' (note s (.lo p x v)).dl (note s (.lo p x v)).tru ∧ ∀ α, Th t' α ↔ Th (note s (.lo p x v)).th α := by
    rintro t' Fs' ⟨hg', hs⟩
    exact ⟨⟨hs.sig, fun v l hl => hs0.k0 v l (by rw [← hs.row]; exact hl), hs0.exp.same hs, hs.lay.trans hlen, by rw [hs.facts]; exact hs0.fl, Fs', hg'⟩, th_of_sig hs.sig⟩
  have hact := actOK_of hval (fun cl hcl α ⟨x, hx⟩ => hcl hs0.k0 α _ hx) (fun t' h' => key t' _ h') (fun t' h' => key t' _ h') (fun q => Sat.value_neg s q) _ (fun _ _ _ h => h) htru
  refine act_kept (f := .lo p x v) (p := p) h hr ?_ hact hn
  have e : (note s (.lo p x v)).dl = 0 := hdl
  rw [e]
  refine assertLower_live hg (by rw [hlen]; exact hdl) ⟨hli.rs.lo, hli.rs.hi, hli.rs.llo, hli.rs.lhi⟩ h3.lt hx (fun q => Sat.value_neg s q) hA0 hp hj
    ⟨fun w hw => by rw [WithBot.coe_inj] at hw; subst hw; exact hv, Or.inl ((hA0 p).mpr hp)⟩ (fun t' hs hrs hg' A' P' ha => ?_) (fun _ _ _ _ _ _ _ => trivial)
  have := LI.impose (f := .lo p x v) (g := .lo x v) hli h1 h2 h3 h4 h5 ⟨v, rfl, rfl⟩ hv hs hrs hg'
  exact this.adv (Nat.le_refl _) ha

/-- `set_ub` at root level. -/
theorem setUbC_kept' (h : s.Calm (firm L U)) (hr : s.root = true) {x : Nat} {v : IQ} {p : Lit} (hx : x < s.th.n) (hp : s.value p = some true) (hv : (ofLex v).2 ≤ 0)
    (hn : setUbC E L s x v p = .ok (s', none)) : Kept L (.hi p x v :: U) s s' ∧ sig s'.th = sig (note s (.hi p x v)).th := by
  have hdl : s.dl = 0 := (Sat.root_iff s).mp hr
  have htru := h.tw.tru_iff
  have hA0 : ∀ q, s.tru 0 q ↔ s.value q = some true := by rw [← hdl]; exact htru
  have hs0 := note_ti h (f := .hi p x v) ((hA0 p).mpr hp)
  have hlen : (note s (.hi p x v)).th.layers.length = s.dl := hs0.len
  have hli := calm_li h
  rw [hdl] at hli
  obtain ⟨Fs, h1, h2, h3, h4, h5⟩ := hli.fs
  obtain ⟨F, Gs, rfl⟩ := h1.fs
  have hg : Good (note s (.hi p x v)).th s.tru (F :: Gs) := h1.fact
  have hj : ∀ α X, Mod (note s (.hi p x v)).th α X → α.sat p → X x ≤ v := fun α X hm hs => WithTop.coe_le_coe.mp (hm.fact (.hi p x v) List.mem_cons_self hs)
  have hval := assertUpper_valid L hg (val := s.value) (v := v) (p := p) hx (fun q => Sat.value_neg s q) (fun q hq => (htru q).mp (hlen ▸ hq))
    (by rw [hlen]; exact (htru p).mpr hp) hj
  have key : ∀ t' Fs', Good t' (note s (.hi p x v)).tru Fs' ∧ Same (note s (.hi p x v)).th t' →
      TI (sig (note s (.hi p x v)).th) t' (note s (.hi p x v)).dl (note s (.hi p x v)).tru ∧ ∀ α, Th t' α ↔ Th (note s (.hi p x v)).th α := by
    rintro t' Fs' ⟨hg', hs⟩
    exact ⟨⟨hs.sig, fun v l hl => hs0.k0 v l (by rw [← hs.row]; exact hl), hs0.exp.same hs, hs.lay.trans hlen, by rw [hs.facts]; exact hs0.fl, Fs', hg'⟩, th_of_sig hs.sig⟩
  have hact := actOK_of hval (fun cl hcl α ⟨x, hx⟩ => hcl hs0.k0 α _ hx) (fun t' h' => key t' _ h') (fun t' h' => key t' _ h') (fun q => Sat.value_neg s q) _ (fun _ _ _ h => h) htru
  refine act_kept (f := .hi p x v) (p := p) h hr ?_ hact hn
  have e : (note s (.hi p x v)).dl = 0 := hdl
  rw [e]
  refine assertUpper_live hg (by rw [hlen]; exact hdl) ⟨hli.rs.lo, hli.rs.hi, hli.rs.llo, hli.rs.lhi⟩ h3.lt hx (fun q => Sat.value_neg s q) hA0 hp hj
    ⟨fun w hw => by rw [WithTop.coe_inj] at hw; subst hw; exact hv, Or.inl ((hA0 p).mpr hp)⟩ (fun t' hs hrs hg' A' P' ha => ?_) (fun _ _ _ _ _ _ _ => trivial)
  have := LI.impose (f := .hi p x v) (g := .hi x v) hli h1 h2 h3 h4 h5 ⟨v, rfl, rfl⟩ hv hs hrs hg'
  exact this.adv (Nat.le_refl _) ha

theorem setLbC_kept (h : s.Calm (firm L U)) (hr : s.root = true) {x : Nat} {v : IQ} {p : Lit} (hx : x < s.th.n) (hp : s.value p = some true) (hv : 0 ≤ (ofLex v).2)
    (hn : setLbC E L s x v p = .ok (s', none)) : Kept L (.lo p x v :: U) s s' := (setLbC_kept' h hr hx hp hv hn).1

theorem setUbC_kept (h : s.Calm (firm L U)) (hr : s.root = true) {x : Nat} {v : IQ} {p : Lit} (hx : x < s.th.n) (hp : s.value p = some true) (hv : (ofLex v).2 ≤ 0)
    (hn : setUbC E L s x v p = .ok (s', none)) : Kept L (.hi p x v :: U) s s' := (setUbC_kept' h hr hx hp hv hn).1

/-- Nothing queued and the values within the bounds: they back the decided literals. -/
theorem calm_backed (h : s.Calm (firm L U)) (hq : s.propQ = []) (hin : ∀ v, InB (s.th.lo v) (s.th.hi v) (s.th.vals v)) :
    (∀ d ∈ s.th.defs, s.th.vals d.1 = d.2.eval IQ.one s.th.vals) ∧ ∃ δ0 : ℚ, 0 < δ0 ∧ ∀ δ, 0 < δ → δ ≤ δ0 → Agrees s U (withEps δ s.th.vals) := by
  have hli := calm_li h
  obtain ⟨f1, δ0, h0, f2⟩ := hli.fits (fun q hq' => by rw [hq] at hq'; cases hq') hin
  refine ⟨f1.defs, δ0, h0, fun δ h1 h2 => ?_⟩
  have f := f2 δ h1 h2
  have e : (rat fun v => at_ δ (s.th.vals v)) = rat (withEps δ s.th.vals) := rfl
  rw [e] at f
  refine ⟨fun d hd => ?_, fun g hg α => f.fact g (calm_user h g hg) α, fun b a sg hb hsg => ?_⟩
  · have := f.defs d hd
    rw [eval_rat] at this
    exact ofQ_inj this
  · obtain ⟨Fs, -, -, g, -⟩ := hli.fs
    refine (means_iff (g.eps b a hb) sg _).mp (f.lits b sg a hb ?_)
    exact (h.tw.tru_iff ⟨b, sg⟩).mpr ((Sat.value_true s ⟨b, sg⟩).mpr hsg)

theorem init_calm : (Sat.init LRA.init).Calm (firm L []) := by
  have h := init_alive (L := L)
  have hs : SInv L anyAsg (Sat.init LRA.init) [] := init_sinv
  have e : (fun q : Lit => q ∈ (Sat.init LRA.init).propQ) = fun _ => False := by
    funext q
    exact propext ⟨fun h => (by cases h), False.elim⟩
  have hl := h.li
  rw [e] at hl
  exact Sat.init_calm ⟨sig LRA.init, fun f hf => (by cases hf), hl, hs.ti⟩

end LRA
end Semitone
