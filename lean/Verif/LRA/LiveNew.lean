import Verif.LRA.LiveInst
import Verif.LRA.Reach

/-!
# Creation of variables and constraints keeps the theory live
-/
namespace Semitone
namespace LRA
open Lin
variable {E : LEnv} {t t' : LRA} {A A' : Nat → Lit → Prop} {Fs : List (List BF)} {P P' : Lit → Prop} {n nv : Nat} {b : Nat → List Nat}

/-- `new_var()` -/
theorem LI.newVar (h : LI t nv b n A P) : LI t.newVar.1 nv b n A P := by
  obtain ⟨Fs, h1, h2, h3, h4, h5⟩ := h.fs
  have e := newVar_eq h1
  have hg := h1.newVar
  rw [e] at hg ⊢
  refine ⟨h.len, h.am, fun v hv => ?_, ⟨h.rs.lo, h.rs.hi, h.rs.llo, h.rs.lhi⟩, Fs, hg, h2, ⟨h3.no, h3.yes, h3.lt, h3.pos, h3.eps⟩, h4, h5⟩
  have hv : v < t.n + 1 := hv
  by_cases e : v = t.n
  · subst e
    refine ⟨upd t.vals t.n IQ.one, (h1.tab.equiv _).mp (rows_out h1.tab.shape h1.tab.rows (Nat.le_refl _) _), ?_⟩
    rw [upd_self]
    intro e
    have : (ofLex IQ.one).1 = 0 := by rw [e]; rfl
    exact absurd this one_ne_zero
  · exact h.nz v (by omega)

theorem EpsLo.add {a b : WithBot IQ} (ha : EpsLo a) (hb : EpsLo b) : EpsLo (a + b) := by
  intro w hw
  cases a with
  | bot => rw [WithBot.bot_add] at hw; cases hw
  | coe a =>
    cases b with
    | bot => rw [WithBot.add_bot] at hw; cases hw
    | coe b =>
      rw [← WithBot.coe_add, WithBot.coe_inj] at hw
      rw [← hw, IQ.snd_add]
      exact add_nonneg (ha a rfl) (hb b rfl)

theorem EpsHi.add {a b : WithTop IQ} (ha : EpsHi a) (hb : EpsHi b) : EpsHi (a + b) := by
  intro w hw
  cases a with
  | top => rw [WithTop.top_add] at hw; cases hw
  | coe a =>
    cases b with
    | top => rw [WithTop.add_top] at hw; cases hw
    | coe b =>
      rw [← WithTop.coe_add, WithTop.coe_inj] at hw
      rw [← hw, IQ.snd_add]
      exact add_nonpos (ha a rfl) (hb b rfl)

theorem snd_smul (c : ℚ) (a : IQ) : (ofLex (c • a)).2 = c * (ofLex a).2 := rfl

theorem termLo_eps (h : ∀ v, EpsLo (t.lo v)) (h' : ∀ v, EpsHi (t.hi v)) (x : Nat × ℚ) : EpsLo (t.termLo x) := by
  unfold termLo
  split
  · next hc =>
    split
    · intro w hw; cases hw
    · next a ha =>
      intro w hw
      rw [WithBot.coe_inj] at hw
      rw [← hw, snd_smul]
      exact mul_nonneg hc.le (h _ a ha)
  · next hc =>
    split
    · intro w hw; cases hw
    · next a ha =>
      intro w hw
      rw [WithBot.coe_inj] at hw
      rw [← hw, snd_smul]
      exact mul_nonneg_of_nonpos_of_nonpos (not_lt.mp hc) (h' _ a ha)

theorem termHi_eps (h : ∀ v, EpsLo (t.lo v)) (h' : ∀ v, EpsHi (t.hi v)) (x : Nat × ℚ) : EpsHi (t.termHi x) := by
  unfold termHi
  split
  · next hc =>
    split
    · intro w hw; cases hw
    · next a ha =>
      intro w hw
      rw [WithTop.coe_inj] at hw
      rw [← hw, snd_smul]
      exact mul_nonpos_of_nonneg_of_nonpos hc.le (h' _ a ha)
  · next hc =>
    split
    · intro w hw; cases hw
    · next a ha =>
      intro w hw
      rw [WithTop.coe_inj] at hw
      rw [← hw, snd_smul]
      exact mul_nonpos_of_nonpos_of_nonneg (not_lt.mp hc) (h _ a ha)

theorem lbL_eps (h : ∀ v, EpsLo (t.lo v)) (h' : ∀ v, EpsHi (t.hi v)) (l : Lin) : EpsLo (t.lbL l) := by
  have key : ∀ (ts : List (Nat × ℚ)) (b : WithBot IQ), EpsLo b → EpsLo (ts.foldl (fun b x => b + t.termLo x) b) := by
    intro ts
    induction ts with
    | nil => intro b hb; exact hb
    | cons x ts ih => intro b hb; exact ih _ (hb.add (termLo_eps h h' x))
  refine key _ _ (fun w hw => ?_)
  rw [WithBot.coe_inj] at hw
  rw [← hw]
  exact le_refl _

theorem ubL_eps (h : ∀ v, EpsLo (t.lo v)) (h' : ∀ v, EpsHi (t.hi v)) (l : Lin) : EpsHi (t.ubL l) := by
  have key : ∀ (ts : List (Nat × ℚ)) (b : WithTop IQ), EpsHi b → EpsHi (ts.foldl (fun b x => b + t.termHi x) b) := by
    intro ts
    induction ts with
    | nil => intro b hb; exact hb
    | cons x ts ih => intro b hb; exact ih _ (hb.add (termHi_eps h h' x))
  refine key _ _ (fun w hw => ?_)
  rw [WithTop.coe_inj] at hw
  rw [← hw]
  exact le_refl _

theorem Good.enforced_list (h : Good t A (F :: Fs)) : ∀ (G : List BF), (∀ f ∈ G, f.ok t.bd) → Good t A ((G ++ F) :: Fs)
  | [], _ => h
  | f :: G, hG => (h.enforced_list G (fun g hg => hG g (List.mem_cons_of_mem _ hg))).enforced_add (hG f List.mem_cons_self)

theorem evalT_zero (ts : List (Nat × ℚ)) : evalT (fun _ => (0 : IQ)) ts = 0 := by
  induction ts with
  | nil => rfl
  | cons x ts ih => rw [evalT_cons, ih, smul_zero, add_zero]

/-- A valuation that satisfies the rows and gives `1` to the non-basic variable `w`. -/
theorem probe (h : Good t A Fs) (hk : K0 t) {w : Nat} (hw : t.row w = none) : ∃ X : Nat → IQ, Defs t.defs X ∧ ∀ v, t.row v = none → X v = if v = w then IQ.one else 0 := by
  refine ⟨fun v => match t.row v with
    | none => if v = w then IQ.one else 0
    | some l => l.eval IQ.one (fun u => if u = w then IQ.one else 0), (h.tab.equiv _).mp (fun v l hl => ?_), fun v hv => by simp only [hv]⟩
  simp only [hl]
  unfold Lin.eval
  rw [evalT_congr (fun u hu => ?_)]
  simp only [(h.tab.shape.vars v l hl u hu).2]

/-- `new_var(l)` makes a new row, at root level. -/
theorem LI.defVar {l : Lin} (h : LI t nv b 0 A P) (hT : A 0 TRUE_lit) (hk : K0 t) (hc : l.Canon) (hne : l.vars ≠ []) (h0 : l.kt = 0)
    (hv : ∀ w ∈ keys l.vars, w < t.n ∧ t.row w = none) : LI (t.defVar l) nv b 0 A P := by
  obtain ⟨Fs, h1, h2, h3, h4, h5⟩ := h.fs
  have hlay : t.layers = [] := List.length_eq_zero_iff.mp h.len
  have hlay' : ∀ L, L ∉ (t.defVar l).layers := by
    intro L hL
    have hL : L ∈ t.layers := hL
    rw [hlay] at hL; cases hL
  have hg := h1.defVar hlay hT hc hv
  obtain ⟨F, Gs, rfl⟩ := h1.fs
  have hnk : t.n ∉ keys l.vars := fun hk => absurd (hv _ hk).1 (Nat.lt_irrefl _)
  have hout := h1.bok.out t.n (Nat.le_refl _)
  have heL := lbL_eps (fun v => (h.rs.lo v).1) (fun v => (h.rs.hi v).1) l
  have heH := ubL_eps (fun v => (h.rs.lo v).1) (fun v => (h.rs.hi v).1) l
  obtain ⟨GL, gl1, gl2⟩ : ∃ G : List BF, (∀ f ∈ G, f.ok (t.defVar l).bd ∧ f.Eps) ∧ (t.lbL l = ⊥ ∨ ∃ w : IQ, t.lbL l = (w : WithBot IQ) ∧ BF.lo t.n w ∈ G) := by
    cases e : t.lbL l with
    | bot => exact ⟨[], (fun _ hf => by cases hf), Or.inl rfl⟩
    | coe w =>
      refine ⟨[.lo t.n w], fun f hf => ?_, Or.inr ⟨w, rfl, by simp⟩⟩
      rw [List.mem_singleton] at hf
      subst hf
      refine ⟨?_, heL w e⟩
      show (w : WithBot IQ) ≤ upd t.lo t.n (t.lbL l) t.n
      rw [upd_self, e]
  obtain ⟨GH, gh1, gh2⟩ : ∃ G : List BF, (∀ f ∈ G, f.ok (t.defVar l).bd ∧ f.Eps) ∧ (t.ubL l = ⊤ ∨ ∃ w : IQ, t.ubL l = (w : WithTop IQ) ∧ BF.hi t.n w ∈ G) := by
    cases e : t.ubL l with
    | top => exact ⟨[], (fun _ hf => by cases hf), Or.inl rfl⟩
    | coe w =>
      refine ⟨[.hi t.n w], fun f hf => ?_, Or.inr ⟨w, rfl, by simp⟩⟩
      rw [List.mem_singleton] at hf
      subst hf
      refine ⟨?_, heH w e⟩
      show upd t.hi t.n (t.ubL l) t.n ≤ (w : WithTop IQ)
      rw [upd_self, e]
  have hg' := hg.enforced_list (GL ++ GH) (fun f hf => by
    rcases List.mem_append.mp hf with hf | hf
    · exact (gl1 f hf).1
    · exact (gh1 f hf).1)
  have hsub : ∀ f ∈ (F :: Gs).flatten, f ∈ ((GL ++ GH ++ F) :: Gs).flatten := by
    intro f hf
    rw [List.flatten_cons, List.mem_append] at hf ⊢
    exact hf.imp_left (fun h => List.mem_append.mpr (Or.inr h))
  refine ⟨h.len, h.am, fun v hv' => ?_, ⟨fun v => ?_, fun v => ?_, fun L hL => (hlay' L hL).elim, fun L hL => (hlay' L hL).elim⟩,
    _, hg', fun i hi v sg a hva hA hP => ?_, ?_, fun f hf => ?_, fun f hf => ?_⟩
  · have hv' : v < t.n + 1 := hv'
    have ext : ∀ X, Defs t.defs X → Defs (t.defVar l).defs (upd X t.n (l.eval IQ.one X)) := by
      intro X hX d hd
      rcases List.mem_cons.mp hd with rfl | hd
      · show upd X t.n (l.eval IQ.one X) t.n = _
        rw [upd_self]
        unfold Lin.eval
        rw [evalT_upd_not _ _ _ hnk]
      · exact (h1.tab.equiv _).mp (rows_out h1.tab.shape ((h1.tab.equiv X).mpr hX) (Nat.le_refl _) _) d hd
    by_cases e : v = t.n
    · subst e
      obtain ⟨ts, kt⟩ := l
      match ts, hne, hc, hv, hnk with
      | (w, c) :: ts, _, hc, hv, hnk =>
        obtain ⟨X, hX, hX'⟩ := probe h1 hk (w := w) (hv w (by simp [keys])).2
        refine ⟨_, ext X hX, ?_⟩
        rw [upd_self]
        have hw : w ∉ keys ts := fun hk => by
          have := List.rel_of_pairwise_cons hc.1 hk
          exact absurd this (Nat.lt_irrefl _)
        have hz : evalT X ts = 0 := by
          rw [evalT_congr (y := fun _ => (0 : IQ)) (fun u hu => ?_)]
          · exact evalT_zero ts
          · rw [hX' u (hv u (by simp only [keys, List.map_cons, List.mem_cons]; exact Or.inr hu)).2, if_neg (by rintro rfl; exact hw hu)]
        have hc0 : c ≠ 0 := hc.2 (w, c) List.mem_cons_self
        unfold Lin.eval
        rw [evalT_cons, hz, hX' w (hv w (by simp [keys])).2, if_pos rfl, h0, zero_smul, add_zero, add_zero]
        intro e
        have : (ofLex (c • IQ.one)).1 = 0 := by rw [e]; rfl
        have : c * 1 = 0 := this
        rw [mul_one] at this
        exact hc0 this
    · obtain ⟨X, hX, hX'⟩ := h.nz v (by omega)
      exact ⟨_, ext X hX, by rw [upd_ne _ _ e]; exact hX'⟩
  · show LoOk t (A 0) v (upd t.lo t.n (t.lbL l) v) (t.loR v)
    by_cases e : v = t.n
    · subst e
      rw [upd_self]
      refine ⟨heL, Or.inl ?_⟩
      rw [show t.loR t.n = TRUE_lit from hout.2.2.1]
      exact hT
    · rw [upd_ne _ _ e]; exact h.rs.lo v
  · show HiOk t (A 0) v (upd t.hi t.n (t.ubL l) v) (t.hiR v)
    by_cases e : v = t.n
    · subst e
      rw [upd_self]
      refine ⟨heH, Or.inl ?_⟩
      rw [show t.hiR t.n = TRUE_lit from hout.2.2.2]
      exact hT
    · rw [upd_ne _ _ e]; exact h.rs.hi v
  · have := h2 i hi v sg a hva hA hP
    have e : i = 0 := by omega
    subst e
    exact hsub _ this
  · have := h3.mono (Nat.le_refl _) (fun _ h => h) hsub
    exact ⟨this.no, this.yes, this.lt, this.pos, this.eps⟩
  · rcases List.mem_cons.mp hf with rfl | hf
    · refine gl2.imp_right (fun ⟨w, e, hw⟩ => ⟨w, e, ?_⟩)
      simp [rootF, hw]
    · rcases List.mem_cons.mp hf with rfl | hf
      · refine gh2.imp_right (fun ⟨w, e, hw⟩ => ⟨w, e, ?_⟩)
        simp [rootF, hw]
      · exact h4.mono hsub f hf
  · rw [List.flatten_cons, List.mem_append, List.mem_append, List.mem_append] at hf
    rcases hf with ((hf | hf) | hf) | hf
    · exact (gl1 f hf).2
    · exact (gh1 f hf).2
    · exact h5 f (by rw [List.flatten_cons, List.mem_append]; exact Or.inl hf)
    · exact h5 f (by rw [List.flatten_cons, List.mem_append]; exact Or.inr hf)

/-- Registration of a constraint on a fresh propositional variable. -/
theorem LI.addAsrt {a : Asrt} (h : LI t nv b n A P) (hab : a.b = nv) (hpos : 0 < nv) (hx : a.x < t.n) (hok : a.Ok) (hA : ∀ i q, A i q → q.var < nv) :
    LI (t.addAsrt a) (nv + 1) (upd b nv [0]) n A P := by
  obtain ⟨Fs, h1, h2, h3, h4, h5⟩ := h.fs
  have hf : t.vas a.b = none := by
    cases e : t.vas a.b with
    | none => rfl
    | some a' => exact absurd (h3.lt _ _ e) (by rw [hab]; exact Nat.lt_irrefl _)
  have hold : ∀ b a', t.vas b = some a' → upd t.vas a.b (some a) b = some a' := by
    intro b a' hb
    have : b ≠ a.b := fun e => by rw [e, hf] at hb; cases hb
    rw [upd_ne _ _ this]; exact hb
  have hinv : ∀ v a', (t.addAsrt a).vas v = some a' → (v = nv ∧ a' = a) ∨ (v ≠ nv ∧ t.vas v = some a') := by
    intro v a' hv
    have hv : upd t.vas a.b (some a) v = some a' := hv
    rw [hab] at hv
    by_cases e : v = nv
    · subst e; rw [upd_self] at hv; injection hv with hv; exact Or.inl ⟨rfl, hv.symm⟩
    · rw [upd_ne _ _ e] at hv; exact Or.inr ⟨e, hv⟩
  refine ⟨h.len, h.am, h.nz, h.rs.congr rfl rfl hold (fun _ h => h), Fs, h1.addAsrt hf hx, fun i hi v sg a' hva hAi hP => ?_, ⟨fun v hv => ?_, fun v a' hv => ?_, fun v a' hv => ?_, fun v a' hv => ?_, fun v a' hv => ?_⟩, h4, h5⟩
  · rcases hinv v a' hva with ⟨rfl, -⟩ | ⟨_, hva⟩
    · exact absurd (hA _ _ hAi) (Nat.lt_irrefl _)
    · exact h2 i hi v sg a' hva hAi hP
  · have hv : upd t.vas a.b (some a) v = none := hv
    rw [hab] at hv
    by_cases e : v = nv
    · subst e; rw [upd_self] at hv; cases hv
    · rw [upd_ne _ _ e] at hv ⊢; exact h3.no v hv
  · rcases hinv v a' hv with ⟨rfl, -⟩ | ⟨e, hv⟩
    · rw [upd_self]; exact Or.inl rfl
    · rw [upd_ne _ _ e]; exact h3.yes v a' hv
  · rcases hinv v a' hv with ⟨rfl, -⟩ | ⟨e, hv⟩
    · exact Nat.lt_succ_self _
    · exact Nat.lt_succ_of_lt (h3.lt v a' hv)
  · rcases hinv v a' hv with ⟨rfl, -⟩ | ⟨e, hv⟩
    · exact hpos
    · exact h3.pos v a' hv
  · rcases hinv v a' hv with ⟨-, rfl⟩ | ⟨e, hv⟩
    · exact hok
    · exact h3.eps v a' hv

/-! ### Consistency is kept -/

theorem Th.newVar (h : Good t A Fs) (α : Asg) : Th t.newVar.1 α ↔ Th t α := by
  rw [newVar_eq h]
  refine exists_congr (fun x => ?_)
  refine mod_congr ?_ ?_ ?_ α (rat x) <;> rfl

/-- The variables of the imposed bounds exist, unless the bound is infinite. -/
theorem FactOk.var {G : List BF} (h : FactOk t G) (hb : BOk t (A n) t.bd) (hG : ∀ f ∈ G, f.ok t.bd) {f : Fact} (hf : f ∈ t.facts) : (∀ α X, f.holds α X) ∨ f.var < t.n := by
  have h1 := h f hf
  cases f with
  | lo p x v =>
    rcases h1 with e | ⟨w, e, hw⟩
    · left; intro α X _; rw [e]; exact bot_le
    · right
      by_contra hx
      have h2 : (w : WithBot IQ) ≤ t.lo x := hG _ hw
      rw [show t.lo x = ⊥ from (hb.out x (not_lt.mp hx)).1] at h2
      simp at h2
  | hi p x v =>
    rcases h1 with e | ⟨w, e, hw⟩
    · left; intro α X _; rw [e]; exact le_top
    · right
      by_contra hx
      have h2 : t.hi x ≤ (w : WithTop IQ) := hG _ hw
      rw [show t.hi x = ⊤ from (hb.out x (not_lt.mp hx)).2.1] at h2
      simp at h2

theorem LI.th_defVar {l : Lin} {α : Asg} (h : LI t nv b 0 A P) (hv : ∀ w ∈ keys l.vars, w < t.n ∧ t.row w = none)
    (hd : ∀ d ∈ t.defs, d.1 < t.n ∧ ∀ w ∈ keys d.2.vars, w < t.n) (hα : Th t α) (hs : ∀ q, A 0 q → α.sat q) : Th (t.defVar l) α := by
  obtain ⟨Fs, h1, h2, h3, h4, h5⟩ := h.fs
  obtain ⟨x, hx⟩ := hα
  have hb := h1.bok
  rw [h.len] at hb
  have hne : ∀ v, v < t.n → upd x t.n (l.eval 1 x) v = x v := fun v hv => upd_ne _ _ (Nat.ne_of_lt hv)
  have hra : ∀ v, v < t.n → rat (upd x t.n (l.eval 1 x)) v = rat x v := fun v hv => by unfold rat; rw [hne v hv]
  have hdef : ∀ (l' : Lin), (∀ w ∈ keys l'.vars, w < t.n) → l'.eval IQ.one (rat (upd x t.n (l.eval 1 x))) = l'.eval IQ.one (rat x) := fun l' hl' => by
    have := evalT_congr (l := l'.vars) (fun v hv => hra v (hl' v hv))
    unfold Lin.eval at this ⊢; rw [this]
  have hin : InB (t.lbL l) (t.ubL l) (l.eval IQ.one (rat x)) := inB_lin (fun v _ =>
    ⟨hb.jlo v α _ hx (hs _ (hb.rlo v)), hb.jhi v α _ hx (hs _ (hb.rhi v))⟩)
  have hnew : rat (upd x t.n (l.eval 1 x)) t.n = l.eval IQ.one (rat x) := by
    rw [eval_rat]
    unfold rat
    rw [upd_self]
  refine ⟨upd x t.n (l.eval 1 x), hx.zero, fun v a hv => ?_, fun d hd' => ?_, fun f hf => ?_⟩
  · have hxa := (h1.tab.regs v a hv).2
    have := hx.asrt v a hv
    unfold Asrt.means at this ⊢
    rw [hra _ hxa]
    exact this
  · rcases List.mem_cons.mp hd' with rfl | hd'
    · show rat (upd x t.n (l.eval 1 x)) t.n = _
      rw [hnew, hdef l (fun w hw => (hv w hw).1)]
    · rw [hra _ (hd d hd').1, hdef d.2 (hd d hd').2]
      exact hx.defs d hd'
  · rcases List.mem_cons.mp hf with rfl | hf
    · intro _; rw [hnew]; exact hin.1
    · rcases List.mem_cons.mp hf with rfl | hf
      · intro _; rw [hnew]; exact hin.2
      · rcases h4.var hb (fun f hf => h1.lev.enforced f (by
          have := rootF_sub (Nat.le_refl 0) f hf
          exact this)) hf with h6 | h6
        · exact h6 _ _
        · exact (fact_val (hra _ h6)).mp (hx.fact f hf)

theorem th_addAsrt {a : Asrt} {α : Asg} (hr : ∀ v a', t.vas v = some a' → v < nv) (hab : a.b = nv) (hpos : 0 < nv) (hok : a.Ok) (hfl : ∀ f ∈ t.facts, f.lit.var < nv) (hα : Th t α) :
    ∃ β, Th (t.addAsrt a) β ∧ Asg.agree nv α β := by
  classical
  obtain ⟨x, hx⟩ := hα
  have hag : Asg.agree nv α (upd α nv (decide (a.says x))) := fun v hv => by rw [upd_ne _ _ (Nat.ne_of_lt hv)]
  refine ⟨_, ⟨x, ?_, fun v a' hv => ?_, hx.defs, fun f hf => (fact_agree hag (hfl f hf) _).mp (hx.fact f hf)⟩, hag⟩
  · rw [← hag 0 hpos]; exact hx.zero
  · have hv : upd t.vas a.b (some a) v = some a' := hv
    rw [hab] at hv
    by_cases e : v = nv
    · subst e
      rw [upd_self] at hv
      injection hv with hv
      subst hv
      rw [means_iff hok, upd_self, decide_eq_true_iff]
    · rw [upd_ne _ _ e] at hv
      rw [← hag v (hr v a' hv)]
      exact hx.asrt v a' hv

end LRA
end Semitone
