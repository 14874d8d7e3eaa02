import Verif.Lib.Duty

/-!
# The duties of the theories of the library: linear arithmetic and difference logic
-/
namespace Semitone

theorem Guards.refl {T : Type} (O : TheoryOps T) (e0 : Err) : Guards O O e0 := ⟨rfl, rfl, rfl, rfl, fun _ _ _ _ => .inr rfl⟩

/-! ### Linear arithmetic -/

namespace LRA
open Lin
variable {E : Env} {L : LEnv} {Z Z' : Asg → Prop} {s s' : Sat LRA} {U U' : List Fact} {d : Bool} {α : Asg} {x : Nat → ℚ}

/-- The valuation `x` satisfies the network when the truth assignment is `α`: every literal of the theory is true exactly when its relation holds, every derived variable has the value of its expression, the bounds `U` imposed with
`set_lb` and `set_ub` hold. -/
structure Net (t : LRA) (U : List Fact) (α : Asg) (x : Nat → ℚ) : Prop where
  lits : ∀ b a, t.vas b = some a → (α b = true ↔ a.says x)
  defs : ∀ d ∈ t.defs, x d.1 = d.2.eval 1 x
  user : ∀ f ∈ U, f.holds α (rat x)

theorem Net.model (h : Net s.th U α x) (h0 : α 0 = false) (hp : ∀ D ∈ s.posted, α.clause D) (hz : Z α) : ModelZ Z s U α x := ⟨h0, hp, h.lits, h.defs, h.user, hz⟩

theorem ModelZ.net (h : ModelZ Z s U α x) : Net s.th U α x := ⟨h.lits, h.defs, h.user⟩

theorem Net.of_sig {t t' : LRA} (e : sig t' = sig t) (h : Net t' U α x) : Net t U α x :=
  ⟨fun b a hb => h.lits b a (by rw [show t'.vas = t.vas from congrArg Sig.vas e]; exact hb), fun d hd => h.defs d (by rw [show t'.defs = t.defs from congrArg Sig.defs e]; exact hd), h.user⟩

theorem SInv.net_of (h : SInv L Z s U) (hu : ∀ f ∈ U, f ∈ s.th.facts) (hm : Mod s.th α (rat x)) : Net s.th U α x := by
  refine ⟨fun b a hb => (means_iff (h.eps b a hb) _ x).mp (hm.asrt b a hb), fun d hd => ?_, fun f hf => hm.fact f (hu f hf)⟩
  have := hm.defs d hd
  rw [eval_rat] at this
  have e : rat x d.1 = IQ.ofQ (x d.1) := rfl
  rw [e] at this
  have := congrArg (fun z : IQ => (ofLex z).1) this
  exact this

/-- What holds in the sessions. -/
structure DSI (L : LEnv) (Z : Asg → Prop) (s : Sat LRA) (U : List Fact) : Prop where
  sinv : SInv L Z s U
  user : ∀ f ∈ U, f ∈ s.th.facts

theorem DSI.move (h : DSI L Z s U) (e : sig s'.th = sig s.th) (hr : s'.RInv (lraC L Z' (sig s'.th))) (hn : s.nvars ≤ s'.nvars) (hz : ∀ α β : Asg, Asg.agree s'.nvars α β → Z' α → Z' β)
    (hk : ∀ α, α 0 = false → (∀ D ∈ s'.posted, α.clause D) → Z' α → (∃ x, Net s'.th U α x) → (∀ D ∈ s.posted, α.clause D) ∧ Z α) : DSI L Z' s' U := by
  have e1 : s'.th.vas = s.th.vas := congrArg Sig.vas e
  have e2 : s'.th.defs = s.th.defs := congrArg Sig.defs e
  have e3 : s'.th.facts = s.th.facts := congrArg Sig.facts e
  have e4 : s'.th.n = s.th.n := congrArg Sig.n e
  refine ⟨⟨hr, ?_, ?_, ?_, ?_, ?_, ?_, hz, fun α x hm => ?_⟩, by rw [e3]; exact h.user⟩
  · rw [e1]; exact fun b a hb => (h.sinv.fresh b a hb).trans_le hn
  · rw [e1]; exact h.sinv.pos
  · rw [e1]; exact h.sinv.eps
  · rw [e3]; exact fun f hf => (h.sinv.flit f hf).trans_le hn
  · rw [e2, e4]; exact h.sinv.dvar
  · rw [e4]; exact fun f hf => ⟨(h.sinv.uvar f hf).1.trans_le hn, (h.sinv.uvar f hf).2⟩
  · obtain ⟨k1, k2⟩ := hk α hm.zero hm.posted hm.rest ⟨x, hm.net⟩
    rw [e3]
    exact h.sinv.imp α x ((hm.net.of_sig e).model hm.zero k1 k2)

theorem Act.duty (h : DSI L Z s U) (hl : ∃ _ : True, s.LiveD (live L (sig s.th)) d) (hc : Act E L s U s' U') :
    DSI L Z s' U' ∧ (∀ α x, α 0 = false → (∀ D ∈ s'.posted, α.clause D) → Z α → Net s'.th U' α x → Net s.th U α x ∧ ∀ D ∈ s.posted, α.clause D) ∧ s.Mild s' ∧
    (∀ v, s'.th.vas v ≠ none → s.th.vas v ≠ none ∨ s.nvars ≤ v) ∧
    (s'.dead = true ∨ (∃ _ : True, s'.LiveD (live L (sig s'.th)) true) ∧ (U' = U → ∃ _ : True, s'.LiveD (live L (sig s'.th)) d)) := by
  obtain ⟨-, hl⟩ := hl
  have fin : ∀ {s'}, Grows L Z U s s' → (∀ f ∈ s.th.facts, f ∈ s'.th.facts) → Fresh s s' → ALive L s' d →
      DSI L Z s' U ∧ (∀ α x, α 0 = false → (∀ D ∈ s'.posted, α.clause D) → Z α → Net s'.th U α x → Net s.th U α x ∧ ∀ D ∈ s.posted, α.clause D) ∧ s.Mild s' ∧
      (∀ v, s'.th.vas v ≠ none → s.th.vas v ≠ none ∨ s.nvars ≤ v) ∧
      (s'.dead = true ∨ (∃ _ : True, s'.LiveD (live L (sig s'.th)) true) ∧ (U = U → ∃ _ : True, s'.LiveD (live L (sig s'.th)) d)) :=
    fun g hf hF ha => ⟨⟨g.sinv, fun f hu => hf f (h.user f hu)⟩, fun α x h0 hp hz hx =>
      ⟨(g.keeps α x (hx.model h0 hp hz)).net, (g.keeps α x (hx.model h0 hp hz)).posted⟩, g.mild, hF.vas, .inr ⟨⟨trivial, ha.weak⟩, fun _ => ⟨trivial, ha⟩⟩⟩
  cases hc with
  | newVar => exact fin (newVar_grows h.sinv) (fun _ h => h) ⟨Nat.le_refl _, fun _ h => .inl h⟩ (newVar_alive h.sinv hl)
  | newVarL a b c e => exact fin (newVarL_grows h.sinv a b c e).1 (newVarL_facts h.sinv e) (newVarL_fresh h.sinv e) (newVarL_alive h.sinv hl a b c e)
  | newRel a b c e f => exact fin (newRel_adds h.sinv a b c e f).toGrows (newRel_facts h.sinv f) (newRel_fresh h.sinv f) (newRel_alive h.sinv hl a b c e f)
  | newEq a b c e f => exact fin (newEqL_adds h.sinv a b c e f).toGrows (newEqL_facts h.sinv a b c e f) (newEqL_fresh h.sinv a b c e f) (newEqL_alive h.sinv hl a b c e f)
  | @setLb x v p s' hr hx hp hv hn =>
    have a := setLbC_sinv h.sinv hr hx hp hn
    obtain ⟨s1, r, h1, h2⟩ := setLbC_alive (E := E) h.sinv hl hr hx hp hv
    rw [hn] at h1
    injection h1 with h1; injection h1 with e1 e2
    subst e1 e2
    refine ⟨⟨a.1, fun f hf => ?_⟩, fun α x h0 hp hz hx => ?_, a.2.1, ?_, .inr ⟨⟨trivial, h2 rfl⟩, fun e => absurd (congrArg List.length e) (by simp)⟩⟩
    · rw [a.2.2.2.2.1]
      exact List.mem_cons.mpr ((List.mem_cons.mp hf).imp_right (h.user f))
    · have := ((a.2.2.1 α x).mp (hx.model h0 hp hz)).1
      exact ⟨this.net, this.posted⟩
    · rw [a.2.2.2.2.2]; exact fun v hv => .inl hv
  | @setUb x v p s' hr hx hp hv hn =>
    have a := setUbC_sinv h.sinv hr hx hp hn
    obtain ⟨s1, r, h1, h2⟩ := setUbC_alive (E := E) h.sinv hl hr hx hp hv
    rw [hn] at h1
    injection h1 with h1; injection h1 with e1 e2
    subst e1 e2
    refine ⟨⟨a.1, fun f hf => ?_⟩, fun α x h0 hp hz hx => ?_, a.2.1, ?_, .inr ⟨⟨trivial, h2 rfl⟩, fun e => absurd (congrArg List.length e) (by simp)⟩⟩
    · rw [a.2.2.2.2.1]
      exact List.mem_cons.mpr ((List.mem_cons.mp hf).imp_right (h.user f))
    · have := ((a.2.2.1 α x).mp (hx.model h0 hp hz)).1
      exact ⟨this.net, this.posted⟩
    · rw [a.2.2.2.2.2]; exact fun v hv => .inl hv
  | listen hn =>
    have a := listen_sinv h.sinv hn
    have b := listen_alive hl hn
    obtain ⟨f, e⟩ := listen_eq hn
    subst e
    exact ⟨⟨a, h.user⟩, fun α x h0 hp hz hx => ⟨⟨hx.lits, hx.defs, hx.user⟩, hp⟩, .of_eq rfl (Nat.le_refl _) rfl rfl rfl, fun v hv => .inl hv, .inr ⟨⟨trivial, b.weak⟩, fun _ => ⟨trivial, b⟩⟩⟩

/-- The duties of linear arithmetic. -/
def duty (E : Env) (L : LEnv) : Duty (LRA.comp E L) where
  sops := ops L
  guards := .refl _ _
  Sg := Sig
  sg := sig
  con := lraContract L
  Th := Th
  con_th := fun _ _ _ => Iff.rfl
  ti_sg := fun h => TI.sig h
  th_sg := fun e h => (th_of_sig e _).mp h
  own := fun g v => g.vas v ≠ none
  mix := fun {g t n A α α' B} h h0 ⟨x, hx⟩ a b c e => by
    have hvas : t.vas = g.vas := congrArg Sig.vas (TI.sig h)
    refine ⟨x, ?_, fun b' a' hb => ?_, hx.defs, fun f hf => ?_⟩
    · by_contra hne
      have := e (by simpa using hne)
      rw [hx.zero] at this; cases this
    · rw [c b' (by rw [← hvas, hb]; simp)]; exact hx.asrt b' a' hb
    · have hs := a _ (h0 _ (h.fl f hf))
      have := hx.fact f hf
      cases f with
      | lo p y v => exact fun _ => this hs
      | hi p y v => exact fun _ => this hs
  Ok := fun _ => True
  live := fun g _ => live L g
  exc := fun h => h.elim
  Net := Net
  net_sg := fun e h => h.of_sig e
  SI := DSI L
  rinv := fun h => h.sinv.rinv
  zloc := fun h => h.sinv.zloc
  loc := fun {Z s U} h α β x hab hx => by
    refine ⟨fun b a hb => ?_, hx.defs, fun f hf => (fact_agree hab (h.sinv.uvar f hf).1 _).mp (hx.user f hf)⟩
    rw [← hab b (h.sinv.fresh b a hb)]; exact hx.lits b a hb
  rng := fun {Z s U} h v hv => by
    obtain ⟨a, ha⟩ := Option.ne_none_iff_exists'.mp hv
    exact ⟨h.sinv.pos v a ha, h.sinv.fresh v a ha⟩
  ok := fun _ => trivial
  th_of := fun h α x h0 hp hx hz => ⟨x, h.sinv.mod (hx.model h0 hp hz)⟩
  nt_of := fun h α _ ⟨x, hx⟩ => ⟨x, h.sinv.net_of h.user hx⟩
  net_of := fun h α x hx => h.sinv.net_of h.user hx
  move := fun h e hr hn hz hk => h.move e hr hn hz hk
  start := fun {t} h => by
    have h : t = LRA.init := h
    subst h
    exact ⟨init_sinv, fun f hf => (by cases hf)⟩
  live0 := fun {t} h _ => by
    have h : t = LRA.init := h
    subst h
    exact init_alive
  call := fun h _ _ hl hc => Act.duty h hl hc
  Rpt := fun s x => ∀ v, InB (s.th.lo v) (s.th.hi v) (rat x v)
  rpt := fun h α x h0 hp hx hz hd v => h.sinv.bound (hx.model h0 hp hz) hd v
  Tell := fun t _ x => ∀ v, InB (t.lo v) (t.hi v) (rat x v)
  tell := fun {Z s U t n A} h ht α x h0 hp hx hz hA v => by
    obtain ⟨Fs, hg⟩ := TI.good ht
    have hn : t.layers.length = n := TI.len ht
    rw [← hn] at hA
    have e : sig t = sig s.th := TI.sig ht
    have hm : Mod t α (rat x) := (mod_of_sig e α _).mpr (h.sinv.mod ((hx.of_sig e).model h0 hp hz))
    exact ⟨hg.bok.jlo v α _ hm (hA _ (hg.bok.rlo v)), hg.bok.jhi v α _ hm (hA _ (hg.bok.rhi v))⟩

end LRA

/-! ### Difference logic -/

namespace DL
variable {W : Type} [AddCommGroup W] [LinearOrder W] [IsOrderedAddMonoid W] [Dom W]
variable {E : Env} {Z Z' : Asg → Prop} {s s' : Sat (DL W)} {d : Bool}

/-- The positions `X` satisfy the network when the truth assignment is `α`: every distance literal is true exactly when its constraint holds. -/
def Net (t : DL W) (α : Asg) (X : Nat → W) : Prop := ∀ v dd, t.vd v = some dd → (α v = true ↔ X dd.tgt - X dd.src ≤ dd.w)

/-- What holds in the sessions. -/
structure DSI (Z : Asg → Prop) (s : Sat (DL W)) : Prop where
  sinv : SInv Z s
  zero : s.th.vd 0 = none

theorem DSI.move (h : DSI Z s) (e : s'.th.vd = s.th.vd) (hr : s'.RInv (dlC Z' s'.th.vd)) (hn : s.nvars ≤ s'.nvars) (hz : ∀ α β : Asg, Asg.agree s'.nvars α β → Z' α → Z' β) : DSI Z' s' :=
  ⟨⟨hr, by rw [e]; exact fun v dd hv => (h.sinv.fresh v dd hv).trans_le hn, hz⟩, by rw [e]; exact h.zero⟩

theorem Fresh.zero (h : Fresh s s') (hs : SInv Z s) (h0 : s.th.vd 0 = none) : s'.th.vd 0 = none := by
  by_contra hne
  rcases h.vd 0 hne with k | k
  · exact k h0
  · exact absurd hs.nvars_pos (Nat.not_lt.mpr k)

theorem Act.duty {u u' : Unit} (h : DSI Z s) (hl : ∃ _ : True, s.LiveD (live s.th.vd) d) (hc : Act E s u s' u') :
    DSI Z s' ∧ (∀ α X, α 0 = false → (∀ D ∈ s'.posted, α.clause D) → Z α → Net s'.th α X → Net s.th α X ∧ ∀ D ∈ s.posted, α.clause D) ∧ s.Mild s' ∧
    (∀ v, s'.th.vd v ≠ none → s.th.vd v ≠ none ∨ s.nvars ≤ v) ∧
    (s'.dead = true ∨ (∃ _ : True, s'.LiveD (live s'.th.vd) true) ∧ (u' = u → ∃ _ : True, s'.LiveD (live s'.th.vd) d)) := by
  obtain ⟨-, hl⟩ := hl
  have fin : ∀ {s'}, SInv Z s' → (∀ α X, Model s' α X → Model s α X) → s.Mild s' → Fresh s s' → DLiveD s' d →
      DSI Z s' ∧ (∀ α X, α 0 = false → (∀ D ∈ s'.posted, α.clause D) → Z α → Net s'.th α X → Net s.th α X ∧ ∀ D ∈ s.posted, α.clause D) ∧ s.Mild s' ∧
      (∀ v, s'.th.vd v ≠ none → s.th.vd v ≠ none ∨ s.nvars ≤ v) ∧
      (s'.dead = true ∨ (∃ _ : True, s'.LiveD (live s'.th.vd) true) ∧ (u' = u → ∃ _ : True, s'.LiveD (live s'.th.vd) d)) :=
    fun a b c e f => ⟨⟨a, e.zero h.sinv h.zero⟩, fun α X h0 hp _ hx => ⟨(b α X ⟨h0, hp, hx⟩).2.2, (b α X ⟨h0, hp, hx⟩).2.1⟩, c, e.vd, .inr ⟨⟨trivial, f.weak⟩, fun _ => ⟨trivial, f⟩⟩⟩
  cases hc with
  | newPoint =>
    have hvd : s.th.newVar.1.vd = s.th.vd := by unfold DL.newVar; simp only; split <;> rfl
    exact fin (newPoint_sinv h.sinv) (fun _ _ => Mix.newPoint_model) (.of_eq rfl (Nat.le_refl _) rfl rfl rfl) ⟨Nat.le_refl _, fun v hv => .inl (by
      have hv : s.th.newVar.1.vd v ≠ none := hv
      rw [hvd] at hv; exact hv)⟩ (newPoint_live h.sinv hl)
  | newDistance a b c =>
    have k := newDistance_adds h.sinv a b c
    exact fin k.sinv k.keeps k.mild (newDistance_fresh h.sinv c) (newDistance_live h.sinv hl a b c)
  | newRel a b c e f =>
    obtain ⟨k1, k2, k3⟩ := newRel_mild h.sinv a b c e f
    exact fin k1 k3 k2 (newRel_fresh h.sinv a b c e f) (newRel_live h.sinv hl a b c e f)
  | listen a =>
    refine fin (listen_sinv h.sinv a) (fun _ _ => Mix.listen_model a) (.of_eq rfl (Nat.le_refl _) rfl rfl rfl) ?_ (listen_live hl a)
    obtain ⟨f, rfl⟩ := listen_same a
    exact ⟨Nat.le_refl _, fun v hv => .inl hv⟩

/-- The duties of difference logic. -/
def duty (E : Env) : Duty (DL.comp (W := W) E) where
  sops := safeOps
  guards := safe_guards
  Sg := Nat → Option (Dist W)
  sg := DL.vd
  con := dlContract
  Th := Th
  con_th := fun _ _ _ => Iff.rfl
  ti_sg := fun h => h.1.1
  th_sg := fun {t t' α} e ⟨X, h⟩ => ⟨X, fun v dd hv => h v dd (by rw [e]; exact hv)⟩
  own := fun g v => g v ≠ none
  mix := fun {g t n A α α' B} h _ ⟨X, hX⟩ _ _ c _ => by
    have e : t.vd = g := h.1.1
    exact ⟨X, fun v dd hv => by rw [c v (by rw [← e, hv]; simp)]; exact hX v dd hv⟩
  Ok := fun _ => True
  live := fun g _ => live g
  exc := fun h => h
  Net := fun t _ α X => Net t α X
  net_sg := fun e h v dd hv => h v dd (by rw [e]; exact hv)
  SI := fun Z s _ => DSI Z s
  rinv := fun h => h.sinv.rinv
  zloc := fun h => h.sinv.zloc
  loc := fun {Z s U} h α β X hab hX v dd hv => by rw [← hab v (h.sinv.fresh v dd hv)]; exact hX v dd hv
  rng := fun {Z s U} h v hv => by
    have hv : s.th.vd v ≠ none := hv
    obtain ⟨a, ha⟩ := Option.ne_none_iff_exists'.mp hv
    refine ⟨Nat.pos_of_ne_zero (fun e => ?_), h.sinv.fresh v a ha⟩
    subst e
    exact hv h.zero
  ok := fun _ => trivial
  th_of := fun _ α X _ _ hx _ => ⟨X, hx⟩
  nt_of := fun _ α _ hx => hx
  net_of := fun _ α x hx => hx
  move := fun h e hr hn hz _ => h.move e hr hn hz
  start := fun {t} h => by
    obtain ⟨size, h, rfl⟩ := h
    exact ⟨(DReach.init (E := E) h).sinv, rfl⟩
  live0 := fun {t} h _ => by
    obtain ⟨size, h, rfl⟩ := h
    exact init_live
  call := fun h _ _ hl hc => Act.duty h hl hc
  Rpt := fun s X => ∀ i j, i < s.th.nv → j < s.th.nv → ((X j - X i : W) : WithTop W) ≤ s.th.d i j
  rpt := fun h α X h0 hp hx hz hd i j hi hj => h.sinv.bound ⟨h0, hp, hx⟩ hz hd hi hj
  Tell := fun t _ X => ∀ i j, i < t.nv → j < t.nv → ((X j - X i : W) : WithTop W) ≤ t.d i j
  tell := fun {Z s U t n A} _ ht α X _ _ hx _ hA i j hi hj => by
    obtain ⟨-, As, hg, -, hv⟩ := ht
    exact hg.coreG.core.sound X (fun e he => holds_of_asg hx (hg.coreG.reg e he) (hA _ (hv n (Nat.le_refl _) e (by simpa using he)))) i j hi hj

end DL
end Semitone
