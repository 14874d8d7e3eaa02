import Verif.Sat.VowOps
import Verif.LRA.Play

/-!
# What the literals of linear arithmetic mean, whatever the other theories record

What the relational constructors and the derived variables mean in the assignments and valuations compatible with the root level of the core and with the theory. Used by C74.
-/
namespace Semitone
namespace LRA
open Lin
variable {E : Env} {L : LEnv} {s s' : Sat LRA} {U U' : List Fact}

/-- The theory forgets nothing. -/
structure Kin (t t' : LRA) : Prop where
  n : t.n ≤ t'.n
  vas : ∀ b a, t.vas b = some a → t'.vas b = some a
  defs : ∀ d ∈ t.defs, d ∈ t'.defs
  facts : ∀ f ∈ t.facts, f ∈ t'.facts

theorem Kin.refl (t : LRA) : Kin t t := ⟨Nat.le_refl _, fun _ _ h => h, fun _ h => h, fun _ h => h⟩

theorem Kin.trans {t1 t2 t3 : LRA} (h1 : Kin t1 t2) (h2 : Kin t2 t3) : Kin t1 t3 :=
  ⟨h1.n.trans h2.n, fun b a h => h2.vas b a (h1.vas b a h), fun d h => h2.defs d (h1.defs d h), fun f h => h2.facts f (h1.facts f h)⟩

theorem Kin.of_sig {t t' : LRA} (h : sig t' = sig t) : Kin t t' := by
  have h1 : t'.n = t.n := congrArg Sig.n h
  have h2 : t'.vas = t.vas := congrArg Sig.vas h
  have h3 : t'.defs = t.defs := congrArg Sig.defs h
  have h4 : t'.facts = t.facts := congrArg Sig.facts h
  exact ⟨by rw [h1], by rw [h2]; exact fun _ _ h => h, by rw [h3]; exact fun _ h => h, by rw [h4]; exact fun _ h => h⟩

theorem Kin.mod {t t' : LRA} {α : Asg} {X : Nat → IQ} (h : Kin t t') (hm : Mod t' α X) : Mod t α X :=
  ⟨hm.zero, fun b a hb => hm.asrt b a (h.vas b a hb), fun d hd => hm.defs d (h.defs d hd), fun f hf => hm.fact f (h.facts f hf)⟩

/-- Neither does the core. -/
structure Onw (s s' : Sat LRA) : Prop extends Sat.Onw s s' where
  ext : Kin s.th s'.th

theorem Onw.refl (s : Sat LRA) : Onw s s := ⟨.refl s, .refl _⟩

theorem Onw.trans {s1 s2 s3 : Sat LRA} (h1 : Onw s1 s2) (h2 : Onw s2 s3) : Onw s1 s3 := ⟨h1.toOnw.trans h2.toOnw, h1.ext.trans h2.ext⟩

/-- The assignments and valuations to consider. -/
structure World (s : Sat LRA) (α : Asg) (x : Nat → ℚ) : Prop where
  rt : s.Rt α
  mod : Mod s.th α (rat x)

theorem Onw.world {α : Asg} {x : Nat → ℚ} (h : Onw s s') (hw : World s' α x) : World s α x := ⟨h.rt hw.rt, h.ext.mod hw.mod⟩

/-- Calm and faithful. -/
structure Faith (L : LEnv) (U : List Fact) (s : Sat LRA) : Prop where
  calm : s.Calm (firm L U)
  vow : s.Vow

/-- The theory changes. -/
theorem Faith.th (h : Faith L U s) {t : LRA} (k : Kept L U s { s with th := t }) (e : Kin s.th t) : Faith L U { s with th := t } ∧ Onw s { s with th := t } :=
  have o : Sat.Onw s { s with th := t } := ⟨Nat.le_refl _, fun _ h => h, fun _ h => h⟩
  ⟨⟨k.calm, h.vow.onw o rfl⟩, o, e⟩

theorem newVar_onw (h : Faith L U s) : Faith L U { s with th := s.th.newVar.1 } ∧ Onw s { s with th := s.th.newVar.1 } :=
  h.th (newVar_kept h.calm) ⟨Nat.le_succ _, fun _ _ h => h, fun _ h => h, fun _ h => h⟩

theorem listen_onw (h : Faith L U s) {v l : Nat} {t : LRA} (hn : s.th.listen v l = .ok t) : Faith L U { s with th := t } ∧ Onw s { s with th := t } := by
  refine h.th (listen_kept h.calm hn) ?_
  obtain ⟨f, e⟩ := listen_eq hn
  subst e
  exact ⟨Nat.le_refl _, fun _ _ h => h, fun _ h => h, fun _ h => h⟩

theorem newVarL_onw (h : Faith L U s) {l : Lin} {t : LRA} {y : Nat} (hc : l.Canon) (hb : ∀ w ∈ keys l.vars, s.th.row w = none) (hk : l.kt = 0)
    (hn : s.th.newVarL s.root l = .ok (t, y)) : (Faith L U { s with th := t } ∧ Onw s { s with th := t }) ∧ y < t.n ∧ ∀ X, Defs t.defs X → X y = l.eval IQ.one X := by
  obtain ⟨k, hy⟩ := newVarL_kept h.calm hc hb hk hn
  obtain ⟨Fs, hg⟩ := (calm_ti h.calm).good
  rcases newVarL_cases hg hn with ⟨e, hl⟩ | ⟨_, _, hr, hv, e, e2⟩
  · subst e
    exact ⟨h.th k (.refl _), hy, ((calm_ti h.calm).exp.ex l y (lookup_mem' hl)).2⟩
  · subst e e2
    exact ⟨h.th k ⟨Nat.le_succ _, fun _ _ h => h, fun _ h => List.mem_cons_of_mem _ h, fun _ h => List.mem_cons_of_mem _ (List.mem_cons_of_mem _ h)⟩, hy, fun X hX => hX (s.th.n, l) List.mem_cons_self⟩

theorem register_onw (h : Faith L U s) {R : Rel4} {y : Nat} {kt : ℚ} (hy : y < s.th.n) :
    (Faith L U { (s.newVar.1.bind s.newVar.2 0) with th := s.th.addAsrt ⟨R.le, s.newVar.2, y, R.bound kt⟩ } ∧
      Onw s { (s.newVar.1.bind s.newVar.2 0) with th := s.th.addAsrt ⟨R.le, s.newVar.2, y, R.bound kt⟩ }) := by
  have k := register_kept (R := R) (kt := kt) h.calm hy
  have g := Sat.newVar_grown h.calm.toSteady h.vow
  have hf : s.th.vas s.nvars = none := by
    obtain ⟨Fs, -, -, g, -⟩ := (calm_li h.calm).fs
    cases hx : s.th.vas s.nvars with
    | none => rfl
    | some a => exact absurd (g.lt _ _ hx) (Nat.lt_irrefl _)
  refine ⟨⟨k.calm, Sat.Vow.onw g.vow ⟨Nat.le_refl _, fun _ h => h, fun _ h => h⟩ rfl⟩, ⟨k.mild.nv, fun D hD => hD, fun q hq => k.mild.up 0 q hq⟩, Nat.le_refl _, fun b a hb => ?_, fun _ h => h, fun _ h => h⟩
  show upd s.th.vas s.nvars (some _) b = some a
  by_cases e : b = s.nvars
  · rw [e, hf] at hb; cases hb
  · rw [upd_ne _ _ e]; exact hb

/-- At root level the bounds hold of every valuation considered. -/
theorem World.bound {α : Asg} {x : Nat → ℚ} (h : s.Calm (firm L U)) (hr : s.root = true) (hw : World s α x) (v : Nat) : InB (s.th.lo v) (s.th.hi v) (rat x v) := by
  obtain ⟨Fs, hg⟩ := (calm_ti h).good
  exact ⟨hg.bok.jlo v α _ hw.mod (hw.rt.root_true h.tw hr (hg.bok.rlo v).1), hg.bok.jhi v α _ hw.mod (hw.rt.root_true h.tw hr (hg.bok.rhi v).1)⟩

theorem World.boundL {α : Asg} {x : Nat → ℚ} (h : s.Calm (firm L U)) (hr : s.root = true) (hw : World s α x) (l : Lin) : InB (s.th.lbL l) (s.th.ubL l) (IQ.ofQ (l.eval 1 x)) := by
  rw [← eval_rat]
  exact inB_lin (fun v _ => hw.bound h hr v)

theorem World.lits {α : Asg} {x : Nat → ℚ} (h : s.Calm (firm L U)) (hw : World s α x) {b : Nat} {a : Asrt} (hb : s.th.vas b = some a) : α b = true ↔ a.says x := by
  obtain ⟨Fs, -, -, g, -⟩ := (calm_li h).fs
  exact (means_iff (g.eps b a hb) _ x).mp (hw.mod.asrt b a hb)

/-- `new_lt`, `new_leq`, `new_geq`, `new_gt`: nothing is forgotten, and at root level the literal means the relation. -/
theorem newRel_onw (h : Faith L U s) {R : Rel4} {l r : Lin} {p : Lit} (hl : l.Canon) (hr : r.Canon) (hvl : ∀ w ∈ keys l.vars, w < s.th.n)
    (hvr : ∀ w ∈ keys r.vars, w < s.th.n) (hn : newRel R s l r = .ok (s', p)) : (Faith L U s' ∧ Onw s s') ∧ s'.root = s.root ∧
      (s.root = true → ∀ α x, World s' α x → (α.sat p ↔ R.holds (l.eval 1 x) (r.eval 1 x))) := by
  obtain ⟨Fs, hg⟩ := (calm_ti h.calm).good
  obtain ⟨hc, hk, he⟩ := diffExpr_spec hg hl hr hvl hvr
  unfold newRel at hn
  simp only at hn
  generalize s.th.diffExpr l r = e at hc hk he hn
  have hz : ∀ α x, World s α x → l.eval 1 x - r.eval 1 x = (⟨e.vars, 0⟩ : Lin).eval 1 x + e.kt := by
    intro α x hm
    have h1 := he _ hm.mod.defs
    rw [eval_rat, eval_rat, eval_rat] at h1
    have h2 : e.eval 1 x = l.eval 1 x - r.eval 1 x := congrArg (fun a : IQ => (ofLex a).1) h1
    rw [← h2]
    simp [Lin.eval]
  have hR : ∀ a b c k : ℚ, a - b = c + k → (R.holds c (-k) ↔ R.holds a b) := by
    intro a b c k hh
    cases R <;> simp only [Rel4.holds] <;> constructor <;> intro <;> linarith
  have hc0 : (⟨e.vars, 0⟩ : Lin).Canon := hc
  have yes : ∀ {u : Sat LRA} {α x}, World u α x → α.sat TRUE_lit := fun hw => hw.rt.sat_true
  have no : ∀ {u : Sat LRA} {α x}, World u α x → ¬ α.sat FALSE_lit := fun hw => hw.rt.not_false
  split at hn
  · cases hn
  · split at hn
    · next ht =>
      injection hn with hn; injection hn with e1 e2; subst e1 e2
      refine ⟨⟨h, .refl _⟩, rfl, fun ro α x hm => ?_⟩
      rw [← hR _ _ _ _ (hz α x hm), ← test_sound ht (hm.boundL h.calm ro _)]
      simp [yes hm]
    · next ht =>
      injection hn with hn; injection hn with e1 e2; subst e1 e2
      refine ⟨⟨h, .refl _⟩, rfl, fun ro α x hm => ?_⟩
      rw [← hR _ _ _ _ (hz α x hm), ← test_sound ht (hm.boundL h.calm ro _)]
      simp [no hm]
    · split at hn
      · cases hn
      · next t y hnv =>
        obtain ⟨g, hy, hval⟩ := newVarL_onw h hc0 (fun w hw => (hk w hw).2) rfl hnv
        have hm' : ∀ α x, World { s with th := t } α x → (R.holds (x y) (-e.kt) ↔ R.holds (l.eval 1 x) (r.eval 1 x)) := fun α x hm => by
          have h1 := hval _ hm.mod.defs
          rw [eval_rat] at h1
          have h1 : x y = (⟨e.vars, 0⟩ : Lin).eval 1 x := ofQ_inj h1
          rw [h1]
          exact hR _ _ _ _ (hz α x (g.2.world hm))
        split at hn
        · next ht =>
          injection hn with hn; injection hn with e1 e2; subst e1 e2
          refine ⟨g, rfl, fun ro α x hm => ?_⟩
          rw [← hm' α x hm, ← test_sound ht (hm.bound g.1.calm ro y)]
          simp [yes hm]
        · next ht =>
          injection hn with hn; injection hn with e1 e2; subst e1 e2
          refine ⟨g, rfl, fun ro α x hm => ?_⟩
          rw [← hm' α x hm, ← test_sound ht (hm.bound g.1.calm ro y)]
          simp [no hm]
        · split at hn
          · next q hq =>
            injection hn with hn; injection hn with e1 e2; subst e1 e2
            obtain ⟨a, b⟩ := (calm_ti g.1.calm).exp.sa _ _ _ _ (lookup_mem' hq)
            refine ⟨g, rfl, fun ro α x hm => ?_⟩
            rw [← hm' α x hm, ← says_iff R q.var y e.kt x, ← hm.lits g.1.calm b]
            unfold Asg.sat
            rw [a]
          · next hq =>
            injection hn with hn; injection hn with e1 e2; subst e1 e2
            have k := register_onw (s := { s with th := t }) g.1 (R := R) (kt := e.kt) hy
            refine ⟨⟨k.1, g.2.trans k.2⟩, rfl, fun ro α x hm => ?_⟩
            rw [← hm' α x (k.2.world hm), ← says_iff R s.nvars y e.kt x]
            exact hm.lits k.1.calm (show upd t.vas s.nvars (some _) s.nvars = _ from upd_self _ _ _)

/-- The theory with its registrations in the invariant. -/
def firmS (L : LEnv) (sg : Sig) : Firm (ops L) :=
  Firm.ofLive (C := lraContract L) (live L) (fun S => S = sg) (fun t => ∀ v, InB (t.lo v) (t.hi v) (t.vals v)) (fun _ _ h => h) (fun _ _ h => h)

theorem calm_sig (h : s.Calm (firm L U)) : s.Calm (firmS L (sig s.th)) := h.sound.calm ⟨sig s.th, rfl, calm_li h, calm_ti h⟩

theorem sig_of {sg : Sig} {b A P} {n m : Nat} {t : LRA} (h : (firmS L sg).LI t n b m A P) : sig t = sg := by
  obtain ⟨S, rfl, -, h⟩ := h
  have h : TI S t m A := h
  exact h.sig

/-- `new_conj` -/
theorem newConj_onw (h : Faith L U s) {ls : List Lit} {p : Lit} (hn : s.newConj E ls = .ok (s', p)) :
    s'.dead = true ∨ ((Faith L U s' ∧ Onw s s') ∧ s'.root = s.root ∧ ∀ α, s'.Rt α → (α.sat p ↔ α.all ls)) := by
  rcases Sat.newConj_vow h.calm.toSteady h.vow hn with hd | ⟨g, -, m⟩
  · exact .inl hd
  have hr := (Sat.newConj_pre hn).1
  rcases (Sat.newConj_adds (K := firm L U) hn).calm hr h.calm with hd | hc
  · exact .inl hd
  rcases (Sat.newConj_adds (K := firmS L (sig s.th)) hn).ok hr (calm_sig h.calm).toSteady with hd | ⟨hk, -⟩
  · exact .inl hd
  exact .inr ⟨⟨⟨hc, g.vow⟩, g.toOnw, .of_sig (sig_of hk.li)⟩, g.root, m⟩

/-- `new_eq` -/
theorem newEqL_onw (h : Faith L U s) {l r : Lin} {p : Lit} (hl : l.Canon) (hr : r.Canon) (hvl : ∀ w ∈ keys l.vars, w < s.th.n)
    (hvr : ∀ w ∈ keys r.vars, w < s.th.n) (hn : newEqL E s l r = .ok (s', p)) :
    s'.dead = true ∨ ((Faith L U s' ∧ Onw s s') ∧ ∀ α x, World s' α x → (α.sat p ↔ l.eval 1 x = r.eval 1 x)) := by
  unfold newEqL at hn
  split at hn
  · cases hn
  · next s1 p1 h1 =>
    obtain ⟨a1, r1, m1⟩ := newRel_onw h hl hr hvl hvr h1
    split at hn
    · cases hn
    · next s2 p2 h2 =>
      obtain ⟨a2, r2, m2⟩ := newRel_onw a1.1 hl hr (fun w hw => (hvl w hw).trans_le a1.2.ext.n) (fun w hw => (hvr w hw).trans_le a1.2.ext.n) h2
      have hroot := (Sat.newConj_pre hn).1
      refine (newConj_onw a2.1 hn).imp_right (fun ⟨a3, _, m3⟩ => ⟨⟨a3.1, a1.2.trans (a2.2.trans a3.2)⟩, fun α x hw => ?_⟩)
      have w2 := a3.2.world hw
      have e1 := m1 (by rw [← r1, ← r2]; exact hroot) α x (a2.2.world w2)
      have e2 := m2 (by rw [← r2]; exact hroot) α x w2
      simp only [Rel4.holds] at e1 e2
      rw [m3 α hw.rt]
      simp only [Asg.all, List.mem_cons, List.not_mem_nil, or_false, forall_eq_or_imp, forall_eq, e1, e2]
      constructor
      · exact fun x => le_antisymm x.2 x.1
      · intro x; rw [x]; exact ⟨le_refl _, le_refl _⟩

/-- A bound is imposed. -/
theorem act_onw (h : Faith L U s) {f : Fact} {act : TAct LRA} {r} (k : Kept L (f :: U) s s') (hsig : sig s'.th = sig (note s f).th) (he : Sat.runAct E act (note s f) = .ok (s', r)) :
    Faith L (f :: U) s' ∧ Onw s s' := by
  have fx := Sat.runAct_fx act he
  have o : Sat.Onw s s' := k.mild.onw fx.post
  have e : Kin s.th (note s f).th := ⟨Nat.le_refl _, fun _ _ h => h, fun _ h => h, fun _ h => List.mem_cons_of_mem _ h⟩
  exact ⟨⟨k.calm, h.vow.onw o fx.ex⟩, o, e.trans (.of_sig hsig)⟩

theorem setLbC_onw (h : Faith L U s) (hr : s.root = true) {x : Nat} {v : IQ} {p : Lit} (hx : x < s.th.n) (hp : s.value p = some true) (hv : 0 ≤ (ofLex v).2)
    (hn : setLbC E L s x v p = .ok (s', none)) : Faith L (.lo p x v :: U) s' ∧ Onw s s' :=
  have k := setLbC_kept' h.calm hr hx hp hv hn
  act_onw h k.1 k.2 hn

theorem setUbC_onw (h : Faith L U s) (hr : s.root = true) {x : Nat} {v : IQ} {p : Lit} (hx : x < s.th.n) (hp : s.value p = some true) (hv : (ofLex v).2 ≤ 0)
    (hn : setUbC E L s x v p = .ok (s', none)) : Faith L (.hi p x v :: U) s' ∧ Onw s s' :=
  have k := setUbC_kept' h.calm hr hx hp hv hn
  act_onw h k.1 k.2 hn

/-- What the values the theory ends with satisfy. -/
theorem final_world (h : s.Calm (firm L U)) (hq : s.propQ = []) (hin : ∀ v, InB (s.th.lo v) (s.th.hi v) (s.th.vals v)) (hall : ∀ v, v < s.nvars → s.assigns v ≠ none) :
    ∃ δ0 : ℚ, 0 < δ0 ∧ ∀ δ, 0 < δ → δ ≤ δ0 → World s (fun v => s.assigns v = some true) (withEps δ s.th.vals) := by
  have hli := calm_li h
  obtain ⟨-, δ0, h0, f2⟩ := hli.fits (fun q hq' => by rw [hq] at hq'; cases hq') hin
  obtain ⟨Fs, -, -, g, -⟩ := hli.fs
  refine ⟨δ0, h0, fun δ h1 h2 => ⟨h.rt hq hall, ?_⟩⟩
  have f := f2 δ h1 h2
  refine ⟨by simp [h.tw.fv], fun b a hb => ?_, f.defs, fun g hg => f.fact g hg _⟩
  obtain ⟨sg, hsg⟩ : ∃ sg, s.assigns b = some sg := Option.ne_none_iff_exists'.mp (hall b (g.lt b a hb))
  have := f.lits b sg a hb ((h.tw.tru_iff ⟨b, sg⟩).mpr ((Sat.value_true s ⟨b, sg⟩).mpr hsg))
  have e : decide (s.assigns b = some true) = sg := by rw [hsg]; cases sg <;> rfl
  rw [e]; exact this

end LRA
end Semitone
