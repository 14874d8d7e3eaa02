import Verif.OV.Comp

/-!
# The theories of the library as components: linear arithmetic, difference logic (object variables: `OV/Comp.lean`)
-/
namespace Semitone

/-! ### Linear arithmetic -/

namespace LRA
open Lin

/-- The calls of the client (those of `Mix.Turn`); bounds are imposed at root level with a true literal. -/
inductive Act (E : Env) (L : LEnv) (s : Sat LRA) (U : List Fact) : Sat LRA → List Fact → Prop
  | newVar : Act E L s U { s with th := s.th.newVar.1 } U
  | newVarL {l t y} : l.Canon → (∀ w ∈ keys l.vars, s.th.row w = none) → l.kt = 0 → s.th.newVarL s.root l = .ok (t, y) → Act E L s U { s with th := t } U
  | newRel {R l r s' p} : l.Canon → r.Canon → (∀ w ∈ keys l.vars, w < s.th.n) → (∀ w ∈ keys r.vars, w < s.th.n) → LRA.newRel R s l r = .ok (s', p) → Act E L s U s' U
  | newEq {l r s' p} : l.Canon → r.Canon → (∀ w ∈ keys l.vars, w < s.th.n) → (∀ w ∈ keys r.vars, w < s.th.n) → LRA.newEqL E s l r = .ok (s', p) → Act E L s U s' U
  | setLb {x v p s'} : s.root = true → x < s.th.n → s.value p = some true → 0 ≤ (ofLex v).2 → LRA.setLbC E L s x v p = .ok (s', none) → Act E L s U s' (.lo p x v :: U)
  | setUb {x v p s'} : s.root = true → x < s.th.n → s.value p = some true → (ofLex v).2 ≤ 0 → LRA.setUbC E L s x v p = .ok (s', none) → Act E L s U s' (.hi p x v :: U)
  | listen {v l t} : s.th.listen v l = .ok t → Act E L s U { s with th := t } U

variable {E : Env} {L : LEnv} {s s' : Sat LRA} {U U' : List Fact}

theorem Act.kept (h : s.Calm (firm L U)) (hv : s.Vow) (hc : Act E L s U s' U') :
    s'.dead = true ∨ (s'.Calm (firm L U') ∧ s'.Vow ∧ True ∧ Sat.Onw s s' ∧ s.Mild s' ∧ (∀ v, v < s.nvars → s'.bounds v = s.bounds v) ∧ Kin s.th s'.th) := by
  have f : Faith L U s := ⟨h, hv⟩
  have fin : ∀ {s' U'}, Kept L U' s s' → Faith L U' s' ∧ Onw s s' →
      s'.Calm (firm L U') ∧ s'.Vow ∧ True ∧ Sat.Onw s s' ∧ s.Mild s' ∧ (∀ v, v < s.nvars → s'.bounds v = s.bounds v) ∧ Kin s.th s'.th :=
    fun k o => ⟨k.calm, o.1.vow, trivial, o.2.toOnw, k.mild, k.bnd, o.2.ext⟩
  cases hc with
  | newVar => exact .inr (fin (newVar_kept h) (newVar_onw f))
  | newVarL a b c d => exact .inr (fin (newVarL_kept h a b c d).1 (newVarL_onw f a b c d).1)
  | newRel a b c d e => exact .inr (fin (newRel_kept h a b c d e) (newRel_onw f a b c d e).1)
  | newEq a b c d e =>
    rcases newEqL_kept h a b c d e with k | ⟨k1, k2, k3⟩
    · exact .inl k
    · exact (newEqL_onw f a b c d e).imp_right (fun o => ⟨k1, o.1.1.vow, trivial, o.1.2.toOnw, k2, k3, o.1.2.ext⟩)
  | setLb a b c d e => exact .inr (fin (setLbC_kept h a b c d e) (setLbC_onw f a b c d e))
  | setUb a b c d e => exact .inr (fin (setUbC_kept h a b c d e) (setUbC_onw f a b c d e))
  | listen a => exact .inr (fin (listen_kept h a) (listen_onw f a))

/-- The theory of linear real arithmetic. -/
def comp (E : Env) (L : LEnv) : Comp LRA where
  ops := ops L
  m := 1
  ids := Mix.live_ids L
  Start := fun t => t = LRA.init
  Dat := List Fact
  d0 := []
  firm := firm L
  start := fun {t} h => by subst h; exact init_calm
  Call := fun s U s' U' => Act E L s U s' U'
  Reg := Sig
  reg := sig
  firmAt := firmAt L
  to_at := fun h => calm_at h
  of_at := fun h => calm_of_at h
  done_at := fun h => h
  Ext := Kin
  ext_trans := Kin.trans
  ext_reg := fun h => .of_sig h
  Inv := fun _ => True
  inv_start := fun _ => trivial
  inv_onw := fun _ _ _ => trivial
  call := fun hc hv _ _ h => h.kept hc hv
  bnd := fun h => calm_bounds h
  Val := Nat → ℚ
  Holds := fun t α x => Mod t α (rat x)
  holds_ext := fun k h => k.mod h
  Rep := fun s δ x => x = withEps δ s.th.vals
  final := fun h _ hq hd hall => by
    obtain ⟨δ0, h0, f⟩ := final_world h hq hd hall
    exact ⟨δ0, h0, fun δ h1 h2 => ⟨⟨_, rfl⟩, fun x hx => by rw [hx]; exact (f δ h1 h2).mod⟩⟩
  ends := fun {s U r nv b n A} hl hd hf hA hall => by
    obtain ⟨S, hS, h, ht⟩ := hl
    have h : LI s.th nv b n A (fun _ => False) := h
    have ht : TI S s.th n A := ht
    obtain ⟨-, δ0, h0, f2⟩ := h.fits (fun _ h => h) hd
    obtain ⟨Fs, -, -, g, -⟩ := h.fs
    refine ⟨ht.sig.trans hS.1, δ0, h0, fun δ h1 h2 => ⟨⟨_, rfl⟩, fun x hx => ?_⟩⟩
    rw [hx]
    have f := f2 δ h1 h2
    refine ⟨by simp [hf], fun b a hb => ?_, f.defs, fun g hg => f.fact g hg _⟩
    obtain ⟨sg, hsg⟩ : ∃ sg, s.assigns b = some sg := Option.ne_none_iff_exists'.mp (hall b (g.lt b a hb))
    have := f.lits b sg a hb ((hA ⟨b, sg⟩).mpr ((Sat.value_true s ⟨b, sg⟩).mpr hsg))
    have e : decide (s.assigns b = some true) = sg := by rw [hsg]; cases sg <;> rfl
    rw [e]; exact this

end LRA

/-! ### Difference logic -/

namespace DL
variable {W : Type} [AddCommGroup W] [LinearOrder W] [IsOrderedAddMonoid W] [Dom W]

/-- The calls of the client (those of `DL.Turn`). -/
inductive Act (E : Env) (s : Sat (DL W)) : Unit → Sat (DL W) → Unit → Prop
  | newPoint : Act E s () { s with th := s.th.newVar.1 } ()
  | newDistance {s' i j w p} : i < s.th.nv → j < s.th.nv → DL.newDistance s i j w = .ok (s', p) → Act E s () s' ()
  | newRel {s' R l r p} : l.Canon → r.Canon → (∀ t ∈ l.vars, t.1 < s.th.nv) → (∀ t ∈ r.vars, t.1 < s.th.nv) → DL.newRel E R s l r = .ok (s', p) → Act E s () s' ()
  | listen {v l t} : s.th.listen v l = .ok t → Act E s () { s with th := t } ()

variable {E : Env} {s s' : Sat (DL W)}

theorem Act.kept {u u' : Unit} (h : s.Calm firm) (hv : s.Vow) (hd : s.dead = false) (hc : Act E s u s' u') :
    s'.dead = true ∨ (s'.Calm firm ∧ s'.Vow ∧ True ∧ Sat.Onw s s' ∧ s.Mild s' ∧ (∀ v, v < s.nvars → s'.bounds v = s.bounds v) ∧ ∀ v dd, s.th.vd v = some dd → s'.th.vd v = some dd) := by
  have f : Faith s := ⟨h, hv⟩
  have fin : ∀ {s'}, Kept s s' → Faith s' ∧ Onw s s' →
      s'.Calm firm ∧ s'.Vow ∧ True ∧ Sat.Onw s s' ∧ s.Mild s' ∧ (∀ v, v < s.nvars → s'.bounds v = s.bounds v) ∧ ∀ v dd, s.th.vd v = some dd → s'.th.vd v = some dd :=
    fun k o => ⟨k.calm, o.1.vow, trivial, o.2.toOnw, k.mild, k.bnd, o.2.vd⟩
  cases hc with
  | newPoint => exact (Turn.onw (E := E) f (.newPoint hd)).imp_right (fin (kept_th (newPoint_calm h)))
  | newDistance a b c =>
    have o := newDistance_onw f a b c
    exact .inr (fin (newDistance_kept h a b c) ⟨o.1, o.2.1⟩)
  | newRel a b c d e =>
    rcases newRel_kept h a b c d e with k | k
    · exact .inl k
    · exact (newRel_onw f a b c d e).imp_right (fin k)
  | listen a => exact (Turn.onw (E := E) f (.listen hd a)).imp_right (fin (kept_th (listen_calm h a)))

/-- A theory of difference logic (integers or reals). -/
def comp (E : Env) : Comp (DL W) where
  ops := ops
  m := 1
  ids := fun i hi => by
    have hi : i ∈ [0] := hi
    rw [List.mem_singleton] at hi; omega
  Start := fun t => ∃ size, 1 ≤ size ∧ t = DL.init size
  Dat := Unit
  d0 := ()
  firm := fun _ => firm
  start := fun {t} h => by
    obtain ⟨size, h, rfl⟩ := h
    exact init_calm h
  Call := fun s u s' u' => Act E s u s' u'
  Reg := Nat → Option (Dist W)
  reg := DL.vd
  firmAt := fun _ r => firm.with (keeps_vd r)
  to_at := fun h => h.with (keeps_vd _) rfl
  of_at := fun h => h.without
  done_at := fun h => h
  Ext := fun t t' => ∀ v dd, t.vd v = some dd → t'.vd v = some dd
  ext_trans := fun h1 h2 v dd h => h2 v dd (h1 v dd h)
  ext_reg := fun {t t'} h v dd hv => by have h : t'.vd = t.vd := h; rw [h]; exact hv
  Inv := fun _ => True
  inv_start := fun _ => trivial
  inv_onw := fun _ _ _ => trivial
  call := fun hc hv _ hd h => h.kept hc hv hd
  bnd := fun {s U} h => by
    have hl := (calm_fi h).li
    refine ⟨fun v i hi => ?_, calm_fresh h⟩
    cases hx : s.th.vd v with
    | none => rw [hl.free v hx] at hi; cases hi
    | some dd =>
      rcases hl.top.bound v dd hx with e | ⟨e, -⟩
      · rw [e, List.mem_singleton] at hi; omega
      · rw [e] at hi; cases hi
  Val := Nat → W
  Holds := fun t α X => ∀ v dd, t.vd v = some dd → (α v = true ↔ X dd.tgt - X dd.src ≤ dd.w)
  holds_ext := fun k h v dd hv => h v dd (k v dd hv)
  Rep := fun s _ X => Fits s X
  final := fun h _ hq _ hall => ⟨1, by norm_num, fun δ _ _ => ⟨(positions h hq).1, fun X hX => (final_world h hq hall hX).vd⟩⟩
  ends := fun {s U r nv b n A} hl _ hf hA hall => by
    obtain ⟨h, hr⟩ := hl
    have h : FI s.th nv b n A (fun _ => False) := h
    have hc : Closed s.th.nv s.th.d := by
      obtain ⟨As, hg, -⟩ := h.held
      exact hg.core.closed
    refine ⟨hr, 1, by norm_num, fun δ _ _ => ⟨?_, fun X hX v dd hv => ?_⟩⟩
    · obtain ⟨X, hX⟩ := base_pot hc
      refine ⟨X, fun v dd sg hv hsg => ?_⟩
      have he := (h.li.top.told v dd sg hv ((hA ⟨v, sg⟩).mpr ((Sat.value_true s ⟨v, sg⟩).mpr hsg))).resolve_left (fun h => h)
      have := ent_holds hX (h.regs.vd v dd hv).2.1 (h.regs.vd v dd hv).2.2.1 he
      unfold DL.Holds at this
      cases sg <;> simpa using this
    · obtain ⟨sg, hsg⟩ : ∃ sg, s.assigns v = some sg := Option.ne_none_iff_exists'.mp (hall v (h.li.rng v dd hv))
      rw [← hX v dd sg hv hsg]; simp only [hsg]
      cases sg <;> simp

end DL
end Semitone
