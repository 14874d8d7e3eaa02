import Verif.Lib.TalkCore

/-!
# What the client has asked for: the theories
-/
namespace Semitone

theorem Asg.var_of_sat {α β : Asg} {p : Lit} (h : β.sat p ↔ α.sat p) : β p.var = α p.var := by
  unfold Asg.sat at h
  cases h1 : β p.var <;> cases h2 : α p.var <;> rw [h1, h2] at h <;> cases h3 : p.sign <;> rw [h3] at h <;> simp at h ⊢

/-- Values of unused variables do not matter. -/
theorem LRA.modelZ_congr {L : LEnv} {Z : Asg → Prop} {s : Sat LRA} {U : List Fact} {α : Asg} {x z : Nat → ℚ} (h : LRA.SInv L Z s U) (hm : LRA.ModelZ Z s U α x) (hz : ∀ v, v < s.th.n → z v = x v) : LRA.ModelZ Z s U α z := by
  obtain ⟨Fs, hg⟩ := h.ti.good
  refine ⟨hm.zero, hm.posted, fun b a hb => ?_, fun d hd => ?_, fun f hf => ?_, hm.rest⟩
  · have := hm.lits b a hb
    have hx := (hg.tab.regs b a hb).2
    unfold Asrt.says at this ⊢
    rw [hz _ hx]
    exact this
  · rw [hz _ (h.dvar d hd).1, hm.defs d hd]
    exact LRA.eval_congr' (fun v hv => (hz v ((h.dvar d hd).2 v hv)).symm)
  · refine (LRA.fact_val ?_).mp (hm.user f hf)
    unfold LRA.rat
    rw [hz _ (h.uvar f hf).2]

/-- Integer positions counted from `c`. -/
def DL.fromI (c : ℤ) : DL.Interp ℤ ℤ where
  emb := id
  q := fun x => ((x - c : ℤ) : ℚ)
  le := fun x y κ k h => by
    have e : (((x - c : ℤ) : ℚ) - ((y - c : ℤ) : ℚ)) = (x : ℚ) - (y : ℚ) := by push_cast; ring
    rw [e]; exact DL.intI.le x y κ k h
  lt := fun x y κ k h => by
    have e : (((x - c : ℤ) : ℚ) - ((y - c : ℤ) : ℚ)) = (x : ℚ) - (y : ℚ) := by push_cast; ring
    rw [e]; exact DL.intI.lt x y κ k h

namespace Family
open Lin Sat
variable {E : Env} {T : Type} {C : Comp T} {f : Family E C} {S S' : Sat T} {U U' : C.Dat} {d : Bool} {tr : List (Said f)} {e : Said f} {α β : Asg} {x y : C.Val}

theorem th_put {B : Type} {K : Comp B} (W : K.Within C) (S : Sat T) (s : Sat B) : W.th (W.put S s).th = s.th := by
  obtain ⟨t, b, e, h⟩ := W.put_eq S s
  rw [e]; exact h

theorem nvars_put {B : Type} {K : Comp B} (W : K.Within C) (S : Sat T) (s : Sat B) : (W.put S s).nvars = s.nvars := by
  obtain ⟨t, b, e, h⟩ := W.put_eq S s
  rw [e]; rfl

theorem onw_call (h : f.Held S U d) (hd : S.dead = false) (hc : C.Call S U S' U') : S'.dead = true ∨ f.Wider S S' :=
  ((Comp.Turn.theory (E := E) hd hc).onw (h.faith.resolve_left (by rw [hd]; simp))).imp_right (fun k => wider_onw k.2)

/-- A request that returns a variable of a theory of linear arithmetic. -/
theorem num_ranges {L : LEnv} {W : (Family.arith L).Has f} {n : Nat} (he : e = .num W n ∨ ∃ l, e = .defn W l n) (h0 : 0 < S.nvars) (hn : n < (W.within.th S.th).n) : Ranges [e] S := by
  refine ⟨fun v k => ?_, fun W' v k => ?_, fun W' v k => ?_⟩
  · rcases k with rfl | ⟨a, ha, k⟩
    · exact h0
    · rw [List.mem_singleton.mp ha] at k
      rcases he with rfl | ⟨l, rfl⟩ <;> cases k
  · rcases he with rfl | ⟨l, rfl⟩
    · rcases k with k | ⟨l, k⟩
      · have k := List.mem_singleton.mp k
        cases k; exact hn
      · have k := List.mem_singleton.mp k
        cases k
    · rcases k with k | ⟨l, k⟩
      · have k := List.mem_singleton.mp k
        cases k
      · have k := List.mem_singleton.mp k
        cases k; exact hn
  · obtain ⟨i, k⟩ := k
    have k := List.mem_singleton.mp k
    rcases he with rfl | ⟨l, rfl⟩ <;> cases k

theorem num_agrees {L : LEnv} {W : (Family.arith L).Has f} {n : Nat} (he : e = .num W n ∨ ∃ l, e = .defn W l n) (h0 : β 0 = α 0) (hn : (W.val y : Nat → ℚ) n = (W.val x : Nat → ℚ) n) : AgreesOn [e] α x β y := by
  refine ⟨fun v k => ?_, fun W' v k => ?_, fun W' v k => ?_⟩
  · rcases k with rfl | ⟨a, ha, k⟩
    · exact h0
    · rw [List.mem_singleton.mp ha] at k
      rcases he with rfl | ⟨l, rfl⟩ <;> cases k
  · rcases he with rfl | ⟨l, rfl⟩
    · rcases k with k | ⟨l, k⟩
      · have k := List.mem_singleton.mp k
        cases k; exact hn
      · have k := List.mem_singleton.mp k
        cases k
    · rcases k with k | ⟨l, k⟩
      · have k := List.mem_singleton.mp k
        cases k
      · have k := List.mem_singleton.mp k
        cases k; exact hn
  · obtain ⟨i, k⟩ := k
    have k := List.mem_singleton.mp k
    rcases he with rfl | ⟨l, rfl⟩ <;> cases k

theorem obj_ranges {A : Type} [DecidableEq A] {D : OEnv A} {W : (Family.object (E := E) D).Has f} {items : List A} {n : Nat} (h0 : 0 < S.nvars) (hn : n < (W.within.th S.th).doms.length) : Ranges [Said.obj W items n] S := by
  refine ⟨fun v k => ?_, fun W' v k => ?_, fun W' v k => ?_⟩
  · rcases k with rfl | ⟨a, ha, k⟩
    · exact h0
    · rw [List.mem_singleton.mp ha] at k
      cases k
  · rcases k with k | ⟨l, k⟩ <;> (have k := List.mem_singleton.mp k; cases k)
  · obtain ⟨i, k⟩ := k
    have k := List.mem_singleton.mp k
    cases k; exact hn

theorem obj_agrees {A : Type} [DecidableEq A] {D : OEnv A} {W : (Family.object (E := E) D).Has f} {items : List A} {n : Nat} (h0 : β 0 = α 0) (hn : (W.val y : Nat → List A) n = (W.val x : Nat → List A) n) :
    AgreesOn [Said.obj W items n] α x β y := by
  refine ⟨fun v k => ?_, fun W' v k => ?_, fun W' v k => ?_⟩
  · rcases k with rfl | ⟨a, ha, k⟩
    · exact h0
    · rw [List.mem_singleton.mp ha] at k
      cases k
  · rcases k with k | ⟨l, k⟩ <;> (have k := List.mem_singleton.mp k; cases k)
  · obtain ⟨i, k⟩ := k
    have k := List.mem_singleton.mp k
    cases k; exact hn

/-- A call of a theory of linear arithmetic that returns a literal for a condition. -/
theorem told_adds {L : LEnv} (W : (Family.arith L).Has f) (h : f.Held S U d) (ht : Told f tr S U) (hd : S.dead = false) (hr : S.root = true) {s : Sat LRA} {p : Lit} {Q : (Nat → ℚ) → Prop} (hc : C.Call S U (W.within.put S s) U)
    (hb : e.Bare) (hl : e.lit? = some p.var) (hh : ∀ α x, e.holds α x ↔ (α.sat p ↔ Q (W.val x))) (hQ : ∀ a b : Nat → ℚ, (∀ v, KnownNum tr W v → a v = b v) → (Q a ↔ Q b)) (hv : p.var < s.nvars)
    (hm : ∀ α x, f.Model (W.within.put S s) U α x → α.all S.decisions → (α.sat p ↔ Q (W.val x)))
    (hk : ∀ α x, f.Model (W.within.put S s) U α x → f.Model S U α x)
    (hx : ∀ α x, f.Model S U α x → ∃ (β : Asg) (y : Nat → ℚ), Asg.agree S.nvars α β ∧ (∀ v, v < (W.within.th S.th).n → y v = (W.val x : Nat → ℚ) v) ∧ f.Model (W.within.put S s) U β (W.setVal x y)) : Told f (e :: tr) (W.within.put S s) U := by
  have hde : ∀ α : Asg, α.all S.decisions := fun α => by rw [h.rinv.inv.wf.root_dec hr]; intro l hl; cases hl
  have hlit : ∀ v, e.lit? = some v → v < (W.within.put S s).nvars := fun v k => by rw [hl] at k; injection k with k; subst k; rw [nvars_put]; exact hv
  refine ht.add hd (onw_call h hd hc) (.inr (hb.ranges ?_ hlit)) (fun α x k => ⟨hk α x k, (hh α x).mpr (hm α x k (hde α))⟩) (fun α x β y h0 he k ha hr0 => ?_)
  · exact (Nat.zero_le _).trans_lt (hlit _ hl)
  · obtain ⟨γ, z, g1, g2, g3⟩ := hx β y k
    refine ⟨γ, W.setVal y z, g3, g1, W.agr_set g2, hb.agrees (g3.zero.trans h0.symm) (fun v hv => ?_)⟩
    rw [hl] at hv; injection hv with hv; subst hv
    refine Asg.var_of_sat (((hm γ _ g3 (hde γ)).trans ?_).trans ((hh α x).mp he).symm)
    refine hQ _ _ (fun v hv => ?_)
    exact (congrFun (show (W.val (W.setVal y z) : Nat → ℚ) = z from W.val_setVal y z) v).trans ((g2 v (hr0.num W v hv)).trans (ha.num W v hv))

theorem bare_point {R : Type} [AddCommGroup R] [LinearOrder R] [IsOrderedAddMonoid R] [Dom R] {W : (Family.diff (E := E) R).Has f} {i : Nat} : (Said.point W i).Bare := ⟨fun _ _ => nofun, fun _ _ _ => nofun, fun _ _ _ => nofun⟩
theorem bare_apart {R : Type} [AddCommGroup R] [LinearOrder R] [IsOrderedAddMonoid R] [Dom R] {W : (Family.diff (E := E) R).Has f} {i j : Nat} {w : R} {p : Lit} : (Said.apart W i j w p).Bare := ⟨fun _ _ => nofun, fun _ _ _ => nofun, fun _ _ _ => nofun⟩
theorem bare_between {W : (Family.diff (E := E) ℤ).Has f} {R : DL.Rel} {l r : Lin} {p : Lit} : (Said.between W R l r p).Bare := ⟨fun _ _ => nofun, fun _ _ _ => nofun, fun _ _ _ => nofun⟩
theorem bare_rel {L : LEnv} {W : (Family.arith L).Has f} {R : LRA.Rel4} {l r : Lin} {p : Lit} : (Said.rel W R l r p).Bare := ⟨fun _ _ => nofun, fun _ _ _ => nofun, fun _ _ _ => nofun⟩
theorem bare_equal {L : LEnv} {W : (Family.arith L).Has f} {l r : Lin} {p : Lit} : (Said.equal W l r p).Bare := ⟨fun _ _ => nofun, fun _ _ _ => nofun, fun _ _ _ => nofun⟩
theorem bare_least {L : LEnv} {W : (Family.arith L).Has f} {n : Nat} {v : IQ} : (Said.atLeast W n v).Bare := ⟨fun _ _ => nofun, fun _ _ _ => nofun, fun _ _ _ => nofun⟩
theorem bare_most {L : LEnv} {W : (Family.arith L).Has f} {n : Nat} {v : IQ} : (Said.atMost W n v).Bare := ⟨fun _ _ => nofun, fun _ _ _ => nofun, fun _ _ _ => nofun⟩
theorem bare_allows {A : Type} [DecidableEq A] {D : OEnv A} {W : (Family.object (E := E) D).Has f} {v : Nat} {a : A} {p : Lit} : (Said.allows W v a p).Bare := ⟨fun _ _ => nofun, fun _ _ _ => nofun, fun _ _ _ => nofun⟩
theorem bare_same {A : Type} [DecidableEq A] {D : OEnv A} {W : (Family.object (E := E) D).Has f} {v w : Nat} {p : Lit} : (Said.same W v w p).Bare := ⟨fun _ _ => nofun, fun _ _ _ => nofun, fun _ _ _ => nofun⟩

/-- A bound. -/
theorem told_bound (h : f.Held S U d) (ht : Told f tr S U) (hd : S.dead = false) (hc : C.Call S U S' U') (hb : e.Bare) (hl : e.lit? = none) (hi : ∀ α x, f.Model S' U' α x ↔ f.Model S U α x ∧ e.holds α x)
    (hk : ∀ α x β y, Agrees tr α x β y → e.holds α x → e.holds β y) : Told f (e :: tr) S' U' := by
  refine ht.add hd (onw_call h hd hc) ?_ (fun α x k => (hi α x).mp k) (fun α x β y h0 he k ha _ => ?_)
  · rcases onw_call h hd hc with k | k
    · exact .inl k
    · exact .inr (hb.ranges (h.rinv.inv.wf.nv.trans_le k.nv) (fun v hv => by rw [hl] at hv; cases hv))
  · exact ⟨β, y, (hi β y).mpr ⟨k, hk α x β y ha he⟩, fun _ _ => rfl, Agr.refl _ _ _, hb.agrees (k.zero.trans h0.symm) (fun v hv => by rw [hl] at hv; cases hv)⟩

theorem arith_call {L : LEnv} (W : (Family.arith L).Has f) {s : Sat LRA} {u : List Fact} (h : LRA.Act E L (W.within.view S) (W.within.dat U) s u) : C.Call S U (W.within.put S s) (W.within.setDat U u) := W.within.call h

theorem arith_call' {L : LEnv} (W : (Family.arith L).Has f) {s : Sat LRA} (h : LRA.Act E L (W.within.view S) (W.within.dat U) s (W.within.dat U)) : C.Call S U (W.within.put S s) U := by
  have := arith_call W h
  rw [W.within.setDat_dat] at this
  exact this

theorem object_call {A : Type} [DecidableEq A] {D : OEnv A} (W : (Family.object (E := E) D).Has f) {s : Sat (OV A)} (h : OV.Act E D (W.within.view S) () s ()) : C.Call S U (W.within.put S s) U := by
  have : C.Call S U (W.within.put S s) (W.within.setDat U (W.within.dat U)) := W.within.call h
  rw [W.within.setDat_dat] at this
  exact this

theorem diff_call {R : Type} [AddCommGroup R] [LinearOrder R] [IsOrderedAddMonoid R] [Dom R] (W : (Family.diff (E := E) R).Has f) {s : Sat (DL R)} (h : DL.Act E (W.within.view S) () s ()) : C.Call S U (W.within.put S s) U := by
  have : C.Call S U (W.within.put S s) (W.within.setDat U (W.within.dat U)) := W.within.call h
  rw [W.within.setDat_dat] at this
  exact this

/-- `new_var` of a theory of difference logic changes no solution. -/
theorem held_point {R : Type} [AddCommGroup R] [LinearOrder R] [IsOrderedAddMonoid R] [Dom R] (W : (Family.diff (E := E) R).Has f) (h : f.Held S U d) (α : Asg) (x : C.Val) :
    f.Model (W.within.put S { W.within.view S with th := (W.within.view S).th.newVar.1 }) U α x ↔ f.Model S U α x := by
  obtain ⟨Z, k⟩ := W.seen anyAsg S U h.si
  have hvd : (W.within.view S).th.newVar.1.vd = (W.within.th S.th).vd := by
    rw [← (W.within.sees S).th]
    unfold DL.newVar; simp only; split <;> rfl
  have hpo : (W.within.put S { W.within.view S with th := (W.within.view S).th.newVar.1 }).posted = S.posted := by
    rw [put_posted]; exact (W.within.sees S).posted
  refine ⟨fun hm => ⟨hm.zero, by rw [← hpo]; exact hm.posted, ?_⟩, fun hm => ⟨hm.zero, by rw [hpo]; exact hm.posted, ?_⟩⟩
  · have hn := hm.net
    rw [← duty_net, ← W.within.setDat_dat U] at hn
    rw [← duty_net]
    refine k.same _ _ α x hn (fun v dd hv => ?_)
    exact (k.get _ _ α x trivial hn).2 v dd (by rw [← hv]; exact congrFun hvd v)
  · have hn := hm.net
    rw [← duty_net] at hn
    have := k.put { W.within.view S with th := (W.within.view S).th.newVar.1 } (W.within.dat U) α α x (W.val x) (fun _ _ => rfl) hn
      (fun v dd hv => (k.old α x trivial hn).2 v dd (by rw [← hv]; exact (congrFun hvd v).symm))
    rw [W.setVal_val, W.within.setDat_dat, duty_net] at this
    exact this

/-- The values of the object variables that the client knows. -/
theorem Told.single (ht : Told f tr S U) {A : Type} [DecidableEq A] {D : OEnv A} {W : (Family.object (E := E) D).Has f} {v : Nat} (hv : KnownObj tr W v) (hm : f.Model S U α x) : ∃ a, (W.val x : Nat → List A) v = [a] := by
  obtain ⟨items, hi⟩ := hv
  obtain ⟨a, -, h⟩ := (ht.back α x hm).2 _ hi
  exact ⟨a, h⟩

/-- `S0` is the core at the bottom of the stack, `S` the one on top. -/
theorem told_allows {A : Type} [DecidableEq A] {D : OEnv A} (W : (Family.object (E := E) D).Has f) {S0 : Sat T} {d0 : Bool} (h : f.Held S0 U d0) (he : f.duty.sg S.th = f.duty.sg S0.th) (hn : S0.nvars ≤ S.nvars)
    (hp : ∀ D ∈ S0.posted, D ∈ S.posted) (ht : Told f tr S U) (hd : S.dead = false) {v : Nat} {a : A} (hv : KnownObj tr W v) : Told f (.allows W v a ((W.within.th S.th).allows v a) :: tr) S U := by
  have hr0 := ht.rng.resolve_left (by rw [hd]; simp)
  have hvl := hr0.obj W v hv
  have hw : W.within.th S.th = W.within.th S0.th := show id _ = id _ from W.sg he
  have old : ∀ α x, f.Model S U α x → f.Model S0 U α x := fun α x hm => ⟨hm.zero, fun D hD => hm.posted D (hp D hD), by
    have := f.duty.net_sg he (U := U) (α := α) (x := x) (by rw [duty_net]; exact hm.net)
    rw [duty_net] at this; exact this⟩
  rw [hw] at hvl ⊢
  obtain ⟨Z, k⟩ := W.seen anyAsg S0 U h.si
  have hvar : ((W.within.th S0.th).allows v a).var < S.nvars := by
    refine Nat.lt_of_lt_of_le ?_ hn
    rw [← (W.within.sees S0).th, ← (W.within.sees S0).nvars]
    unfold OV.allows
    rw [← (W.within.sees S0).th] at hvl
    match hm : ((W.within.view S0).th.dom v).lookup a with
    | none => exact k.objectSI.rinv.inv.wf.nv
    | some l => exact (k.objectSI.dom _ (OV.dom_mem hvl)).rng _ (OV.lookup_some_mem hm)
  have key : ∀ α x, f.Model S U α x → (α.sat ((W.within.th S0.th).allows v a) ↔ (W.val x : Nat → List A) v = [a]) := fun α x hm => by
    obtain ⟨b, hb⟩ := ht.single hv hm
    have := ((k.objectOld (old α x hm)).2 v hvl).2 a
    rw [← this, hb, List.mem_singleton, List.cons.injEq]
    exact ⟨fun e => ⟨e.symm, rfl⟩, fun e => e.1.symm⟩
  refine ht.add hd (.inr (wider_sg (Nat.le_refl _) rfl)) (.inr (bare_allows.ranges (h.rinv.inv.wf.nv.trans_le hn) (fun u hu => by injection hu with hu; subst hu; exact hvar))) (fun α x hm => ⟨hm, key α x hm⟩) (fun α x β y h0 he hm ha _ => ?_)
  refine ⟨β, y, hm, fun _ _ => rfl, Agr.refl _ _ _, bare_allows.agrees (hm.zero.trans h0.symm) (fun u hu => ?_)⟩
  injection hu with hu; subst hu
  refine Asg.var_of_sat (((key β y hm).trans ?_).trans he.symm)
  rw [ha.obj W v hv]

theorem told_theory (h : f.Held S U d) (ht : Told f tr S U) (hd : S.dead = false) (hr : S.root = true) (ha : AsksTheory f tr S U e S' U') : C.Call S U S' U' ∧ Told f (e :: tr) S' U' := by
  have hr0 := ht.rng.resolve_left (by rw [hd]; simp)
  have hnv := h.rinv.inv.wf.nv
  cases ha with
  | num W =>
    have hc : C.Call S U _ U := arith_call' W .newVar
    refine ⟨hc, ?_⟩
    obtain ⟨Z, k⟩ := W.seen anyAsg S U h.si
    have e2 : (W.within.view S).th.newVar.2 = (W.within.th S.th).n := by rw [← (W.within.sees S).th]; rfl
    refine ht.add hd (onw_call h hd hc) (.inr (num_ranges (.inl rfl) ?_ ?_)) (fun α x hm => ⟨(k.arithGrows (LRA.newVar_grows k.arithSI)).1 α x hm, trivial⟩) (fun α x β y h0 _ hm ha _ => ?_)
    · rw [nvars_put]; show 0 < (W.within.view S).nvars; rw [(W.within.sees S).nvars]; exact hnv
    · rw [th_put]; exact Nat.lt_succ_self _
    · let z : Nat → ℚ := upd (W.val y : Nat → ℚ) (W.within.th S.th).n ((W.val x : Nat → ℚ) (W.within.th S.th).n)
      have hz : ∀ v, v < (W.within.th S.th).n → z v = (W.val y : Nat → ℚ) v := fun v hv => upd_ne _ _ (Nat.ne_of_lt hv)
      have g0 := LRA.modelZ_congr (z := z) k.arithSI (k.arithOld hm) (by rw [(W.within.sees S).th]; exact hz)
      have g1 : LRA.ModelZ Z { W.within.view S with th := (W.within.view S).th.newVar.1 } (W.within.dat U) β z := ⟨g0.zero, g0.posted, g0.lits, g0.defs, g0.user, g0.rest⟩
      have g2 := k.arithPut (fun _ _ => rfl) hm g1
      rw [W.within.setDat_dat] at g2
      refine ⟨β, W.setVal y z, g2, fun _ _ => rfl, W.agr_set hz, num_agrees (.inl rfl) (hm.zero.trans h0.symm) ?_⟩
      refine (congrFun (show (W.val (W.setVal y z) : Nat → ℚ) = z from W.val_setVal y z) _).trans ?_
      rw [e2]
      exact upd_self _ _ _
  | @defn L W l t n hl hk hb h0 hn =>
    have hc : C.Call S U _ U := arith_call' W (.newVarL hl hb h0 (by rw [(W.within.sees S).root]; exact hn))
    refine ⟨hc, ?_⟩
    obtain ⟨Z, k⟩ := W.seen anyAsg S U h.si
    obtain ⟨-, gn, -⟩ := LRA.newVarL_grows k.arithSI hl hb h0 (by rw [(W.within.sees S).root]; exact hn)
    rw [(W.within.sees S).th] at hb hn
    obtain ⟨v1, v2, v3⟩ := held_var W h hl hb h0 hn
    refine ht.add hd (onw_call h hd hc) (.inr (num_ranges (.inr ⟨l, rfl⟩) ?_ ?_)) (fun α x hm => ⟨v2 α x hm, v1 α x hm⟩) (fun α x β y h0 he hm ha _ => ?_)
    · rw [nvars_put]; show 0 < (W.within.view S).nvars; rw [(W.within.sees S).nvars]; exact hnv
    · rw [th_put]; exact gn
    · obtain ⟨γ, z, g1, g2, g3⟩ := v3 β y hm
      refine ⟨γ, W.setVal y z, g3, g1, W.agr_set g2, num_agrees (.inr ⟨l, rfl⟩) (g3.zero.trans h0.symm) ?_⟩
      refine (v1 γ _ g3).trans (Eq.trans ?_ he.symm)
      refine LRA.eval_congr' (fun v hv => ?_)
      exact (congrFun (show (W.val (W.setVal y z) : Nat → ℚ) = z from W.val_setVal y z) v).trans ((g2 v (hr0.num W v (hk v hv))).trans (ha.num W v (hk v hv)))
  | @rel L W R l r s p hl hr' kl kr hn =>
    have hvl : ∀ w ∈ keys l.vars, w < (W.within.th S.th).n := fun w hw => hr0.num W w (kl w hw)
    have hvr : ∀ w ∈ keys r.vars, w < (W.within.th S.th).n := fun w hw => hr0.num W w (kr w hw)
    obtain ⟨Z, k⟩ := W.seen anyAsg S U h.si
    have hvl' : ∀ w ∈ keys l.vars, w < (W.within.view S).th.n := by rw [(W.within.sees S).th]; exact hvl
    have hvr' : ∀ w ∈ keys r.vars, w < (W.within.view S).th.n := by rw [(W.within.sees S).th]; exact hvr
    have hc : C.Call S U _ U := arith_call' W (.newRel hl hr' hvl' hvr' hn)
    obtain ⟨a, b, c⟩ := (held_rel W h (s := s) (p := p) hl hr' hvl hvr).1 R hn
    refine ⟨hc, told_adds W h ht hd hr (Q := fun z => R.holds (l.eval 1 z) (r.eval 1 z)) hc bare_rel rfl (fun α x => Iff.rfl) (fun u v huv => ?_) (LRA.newRel_adds k.arithSI hl hr' hvl' hvr' hn).var a b c⟩
    rw [LRA.eval_congr' (l := l) (fun w hw => huv w (kl w hw)), LRA.eval_congr' (l := r) (fun w hw => huv w (kr w hw))]
  | @equal L W l r s p hl hr' kl kr hn =>
    have hvl : ∀ w ∈ keys l.vars, w < (W.within.th S.th).n := fun w hw => hr0.num W w (kl w hw)
    have hvr : ∀ w ∈ keys r.vars, w < (W.within.th S.th).n := fun w hw => hr0.num W w (kr w hw)
    obtain ⟨Z, k⟩ := W.seen anyAsg S U h.si
    have hvl' : ∀ w ∈ keys l.vars, w < (W.within.view S).th.n := by rw [(W.within.sees S).th]; exact hvl
    have hvr' : ∀ w ∈ keys r.vars, w < (W.within.view S).th.n := by rw [(W.within.sees S).th]; exact hvr
    have hc : C.Call S U _ U := arith_call' W (.newEq hl hr' hvl' hvr' hn)
    obtain ⟨a, b, c⟩ := (held_rel W h (s := s) (p := p) hl hr' hvl hvr).2 hn
    refine ⟨hc, told_adds W h ht hd hr (Q := fun z => l.eval 1 z = r.eval 1 z) hc bare_equal rfl (fun α x => Iff.rfl) (fun u v huv => ?_) (LRA.newEqL_adds k.arithSI hl hr' hvl' hvr' hn).var a b c⟩
    rw [LRA.eval_congr' (l := l) (fun w hw => huv w (kl w hw)), LRA.eval_congr' (l := r) (fun w hw => huv w (kr w hw))]
  | @atLeast L W n v p s hk hp hv hn =>
    have hy := hr0.num W n hk
    have hc : C.Call S U _ _ := arith_call W (.setLb (by rw [(W.within.sees S).root]; exact hr) (by rw [(W.within.sees S).th]; exact hy) (by rw [(W.within.sees S).value]; exact hp) hv hn)
    refine ⟨hc, told_bound h ht hd hc bare_least rfl ((held_set W h hr hy hp).1 hn) (fun α x β y ha he => ?_)⟩
    show v ≤ IQ.ofQ ((W.val y : Nat → ℚ) n)
    rw [ha.num W n hk]; exact he
  | @atMost L W n v p s hk hp hv hn =>
    have hy := hr0.num W n hk
    have hc : C.Call S U _ _ := arith_call W (.setUb (by rw [(W.within.sees S).root]; exact hr) (by rw [(W.within.sees S).th]; exact hy) (by rw [(W.within.sees S).value]; exact hp) hv hn)
    refine ⟨hc, told_bound h ht hd hc bare_most rfl ((held_set W h hr hy hp).2.1 hn) (fun α x β y ha he => ?_)⟩
    show IQ.ofQ ((W.val y : Nat → ℚ) n) ≤ v
    rw [ha.num W n hk]; exact he
  | @obj A _ D W items s o n hn =>
    have hc : C.Call S U _ U := object_call W (.newVar hn)
    refine ⟨hc, ?_⟩
    obtain ⟨Z, k⟩ := W.seen anyAsg S U h.si
    have M := OV.newVar_made k.objectSI.rinv hn
    obtain ⟨m, hm', -⟩ := M.dom
    rw [(W.within.sees S).th] at hn
    obtain ⟨v1, v2, v3⟩ := held_object W h hn
    refine ht.add hd (onw_call h hd hc) (.inr (obj_ranges ?_ ?_)) (fun α x hm => ⟨v2 α x hm, (v1 α x hm).2 rfl⟩) (fun α x β y h0 he hm ha _ => ?_)
    · rw [nvars_put]; show 0 < s.nvars; exact M.rinv.inv.wf.nv
    · rw [th_put]; show n < o.doms.length; rw [hm', M.x]; simp
    · obtain ⟨a, ha1, ha2⟩ := he
      obtain ⟨γ, z, g1, g2, g3, g4⟩ := v3 β y hm a ha1
      refine ⟨γ, W.setVal y z, g4, g1, W.agr_set g2, obj_agrees (g4.zero.trans h0.symm) ?_⟩
      obtain ⟨b, -, hb⟩ := (v1 γ _ g4).2 rfl
      have ev := congrFun (show (W.val (W.setVal y z) : Nat → List A) = z from W.val_setVal y z) n
      have hz : z n = [b] := ev.symm.trans hb
      rw [hz, List.mem_singleton] at g3
      rw [g3, ← hz] at ha2
      exact ev.trans ha2.symm
  | @same A _ D W v w s o p hv hw hn =>
    have hc : C.Call S U _ U := object_call W (.newEq hn)
    refine ⟨hc, ?_⟩
    obtain ⟨Z, k⟩ := W.seen anyAsg S U h.si
    have hp : p.var < s.nvars := by
      have oi := (OV.newEq_inv k.objectSI hn).1
      rcases OV.newEq_ord hn with ⟨-, -, -, rfl⟩ | ⟨l, r, hlr, hr, -, ho⟩
      · exact oi.rinv.inv.wf.nv
      · rcases OV.newEqOrd_cases k.objectSI (hlr.trans hr) hr ho with ⟨rfl, rfl, e | e⟩ | e
        · exact (oi.eq l r p e).2.2.1
        · rw [e.2.2]; exact oi.rinv.inv.wf.nv
        · exact (oi.eq l r p (by rw [e.ov]; simp)).2.2.1
    rw [(W.within.sees S).th] at hn
    obtain ⟨v1, v2, v3⟩ := held_object_eq W h (hr0.obj W v hv) (hr0.obj W w hw) hn
    have key : ∀ α x, f.Model (W.within.put S { s with th := o }) U α x → (α.sat p ↔ (W.val x : Nat → List A) v = (W.val x : Nat → List A) w) := fun α x hm => by
      obtain ⟨a, ha⟩ := ht.single hv (v2 α x hm)
      obtain ⟨b, hb⟩ := ht.single hw (v2 α x hm)
      obtain ⟨c1, c2⟩ := v1 α x hm
      rw [ha, hb] at c1 c2 ⊢
      refine ⟨fun hs => ?_, fun he => ?_⟩
      · rw [List.mem_singleton.mp ((c1 hs a).mp (List.mem_singleton_self _))]
      · by_contra hs
        exact c2 hs a ⟨List.mem_singleton_self _, by rw [← he]; exact List.mem_singleton_self _⟩
    refine ht.add hd (onw_call h hd hc) (.inr (bare_same.ranges ?_ (fun u hu => ?_))) (fun α x hm => ⟨v2 α x hm, key α x hm⟩) (fun α x β y h0 he hm ha _ => ?_)
    · rw [nvars_put]; show 0 < s.nvars; exact (Nat.zero_le _).trans_lt hp
    · injection hu with hu; subst hu; rw [nvars_put]; exact hp
    · obtain ⟨a, ha'⟩ := ht.single hv hm
      obtain ⟨b, hb'⟩ := ht.single hw hm
      obtain ⟨γ, g1, g2⟩ := v3 β y hm a b ha' hb'
      refine ⟨γ, y, g2, g1, Agr.refl _ _ _, bare_same.agrees (g2.zero.trans h0.symm) (fun u hu => ?_)⟩
      injection hu with hu; subst hu
      refine Asg.var_of_sat (((key γ y g2).trans ?_).trans he.symm)
      rw [ha.obj W v hv, ha.obj W w hw]
  | @point R _ _ _ _ W =>
    have hc : C.Call S U _ U := diff_call W .newPoint
    refine ⟨hc, ht.add hd (onw_call h hd hc) (.inr (bare_point.ranges ?_ (fun u hu => by cases hu))) (fun α x hm => ⟨(held_point W h α x).mp hm, trivial⟩) (fun α x β y h0 _ hm ha _ => ?_)⟩
    · rw [nvars_put]; show 0 < (W.within.view S).nvars; rw [(W.within.sees S).nvars]; exact hnv
    · exact ⟨β, y, (held_point W h β y).mpr hm, fun _ _ => rfl, Agr.refl _ _ _, bare_point.agrees (hm.zero.trans h0.symm) (fun u hu => by cases hu)⟩
  | @apart R _ _ _ _ W i j w s p hi hj hn =>
    obtain ⟨Z, k⟩ := W.seen anyAsg S U h.si
    have hi' : i < (W.within.view S).th.nv := by rw [(W.within.sees S).th]; exact hi
    have hj' : j < (W.within.view S).th.nv := by rw [(W.within.sees S).th]; exact hj
    have hc : C.Call S U _ U := diff_call W (.newDistance hi' hj' hn)
    have hv := (DL.newDistance_adds k.diffSI hi' hj' hn).var
    obtain ⟨v1, v2, v3⟩ := held_distance W h hi hj hn
    have hde : ∀ α : Asg, α.all S.decisions := fun α => by rw [h.rinv.inv.wf.root_dec hr]; intro l hl; cases hl
    refine ⟨hc, ht.add hd (onw_call h hd hc) (.inr (bare_apart.ranges ?_ (fun u hu => ?_))) (fun α x hm => ⟨v2 α x hm, v1 α x hm (hde α)⟩) (fun α x β y h0 he hm ha _ => ?_)⟩
    · rw [nvars_put]; exact (Nat.zero_le _).trans_lt hv
    · injection hu with hu; subst hu; rw [nvars_put]; exact hv
    · obtain ⟨γ, g1, g2⟩ := v3 β y hm
      refine ⟨γ, y, g2, g1, Agr.refl _ _ _, bare_apart.agrees (g2.zero.trans h0.symm) (fun u hu => ?_)⟩
      injection hu with hu; subst hu
      refine Asg.var_of_sat (((v1 γ y g2 (hde γ)).trans ?_).trans he.symm)
      rw [ha.pts W i, ha.pts W j]
  | @between W R l r s p hl hr' kl kr hb hn =>
    obtain ⟨Z, k⟩ := W.seen anyAsg S U h.si
    have kl' : ∀ t ∈ l.vars, t.1 < (W.within.view S).th.nv := by rw [(W.within.sees S).th]; exact kl
    have kr' : ∀ t ∈ r.vars, t.1 < (W.within.view S).th.nv := by rw [(W.within.sees S).th]; exact kr
    have hc : C.Call S U _ U := diff_call W (.newRel hl hr' kl' kr' hn)
    have hbug : ¬ DL.GtBug ℤ R l r := fun hg => hb hg.1 hg.2.2
    obtain ⟨P, hS, -⟩ := DL.newRel_shape DL.intI k.diffSI.nv_pos hl hr' kl' kr' hbug hn
    have hv := (hS.adds k.diffSI).var
    have v2 := (held_diff W h DL.intI hl hr' kl kr hbug hn).2.1
    have v3 := (held_diff W h DL.intI hl hr' kl kr hbug hn).2.2
    have hde : ∀ α : Asg, α.all S.decisions := fun α => by rw [h.rinv.inv.wf.root_dec hr]; intro l hl; cases hl
    have v1 : ∀ α x, f.Model (W.within.put S s) U α x → (Said.between W R l r p).holds α x := fun α x hm =>
      (held_diff W h (DL.fromI ((W.val x : Nat → ℤ) 0)) hl hr' kl kr hbug hn).1 α x (W.val x : Nat → ℤ) (by simp [DL.fromI]) rfl hm (hde α)
    refine ⟨hc, ht.add hd (onw_call h hd hc) (.inr (bare_between.ranges ?_ (fun u hu => ?_))) (fun α x hm => ⟨v2 α x hm, v1 α x hm⟩) (fun α x β y h0 he hm ha _ => ?_)⟩
    · rw [nvars_put]; exact (Nat.zero_le _).trans_lt hv
    · injection hu with hu; subst hu; rw [nvars_put]; exact hv
    · obtain ⟨γ, g1, g2⟩ := v3 β y hm
      refine ⟨γ, y, g2, g1, Agr.refl _ _ _, bare_between.agrees (g2.zero.trans h0.symm) (fun u hu => ?_)⟩
      injection hu with hu; subst hu
      have e : (W.val y : Nat → ℤ) = (W.val x : Nat → ℤ) := funext (fun i => ha.pts W i)
      have b := v1 γ y g2
      have he : α.sat p ↔ R.holds (l.eval 1 (fun i => (((W.val x : Nat → ℤ) i - (W.val x : Nat → ℤ) 0 : ℤ) : ℚ))) (r.eval 1 (fun i => (((W.val x : Nat → ℤ) i - (W.val x : Nat → ℤ) 0 : ℤ) : ℚ))) := he
      have b : γ.sat p ↔ R.holds (l.eval 1 (fun i => (((W.val y : Nat → ℤ) i - (W.val y : Nat → ℤ) 0 : ℤ) : ℚ))) (r.eval 1 (fun i => (((W.val y : Nat → ℤ) i - (W.val y : Nat → ℤ) 0 : ℤ) : ℚ))) := b
      rw [e] at b
      exact Asg.var_of_sat (b.trans he.symm)

end Family
end Semitone
