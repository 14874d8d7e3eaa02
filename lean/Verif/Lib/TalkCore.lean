import Verif.Lib.TalkBase
import Verif.Lib.Stacks

/-!
# What the client has asked for: the core
-/
namespace Semitone
namespace Family
open Lin Sat
variable {E : Env} {T : Type} {C : Comp T} {f : Family E C} {S S' : Sat T} {U U' : C.Dat} {d : Bool} {tr : List (Said f)} {e : Said f} {α β : Asg} {x y : C.Val}

theorem net_start : {T : Type} → {C : Comp T} → (f : Family E C) → {t : T} → C.Start t → (α : Asg) → (x : C.Val) → f.Net t C.d0 α x
  | _, _, .arith _, t, h, α, x => by
    have h : t = _ := h
    subst h
    exact ⟨fun b a hb => (by cases hb), fun d hd => (by cases hd), fun f hf => (by cases hf)⟩
  | _, _, @Family.diff _ R _ _ _ _, t, h, α, x => by
    obtain ⟨size, -, rfl⟩ := (show ∃ size, 1 ≤ size ∧ t = DL.init size from h)
    intro v dd hv
    cases hv
  | _, _, @Family.object _ A _ D, t, h, α, x => by
    have h : t = _ := h
    subst h
    intro v hv
    cases hv
  | _, _, .both f g, t, h, α, x => ⟨f.net_start h.1 α x.1, g.net_start h.2 α x.2⟩

theorem told_init {t : T} (h : C.Start t) : Told f [] (Sat.init t) C.d0 := by
  refine ⟨.inr ⟨fun v hv => ?_, fun W v hv => ?_, fun W v hv => ?_⟩, fun α x hm => ⟨hm.zero, fun e he => by cases he⟩,
    fun α x hm => ⟨α, x, ⟨hm.1, fun D hD => (by cases hD), net_start f h α x⟩, ⟨fun _ _ => rfl, fun _ _ _ => rfl, fun _ _ _ => rfl⟩, fun _ _ => rfl⟩⟩
  · rcases hv with rfl | ⟨e, he, -⟩
    · exact Nat.one_pos
    · cases he
  · rcases hv with hv | ⟨l, hv⟩ <;> cases hv
  · obtain ⟨l, hv⟩ := hv
    cases hv

section
variable {K0 : Contract f.duty.sops} {V : Live K0}

theorem model_loc (h : f.duty.Seat S U d V) (hab : Asg.agree S.nvars α β) (hm : f.Model S U α x) : f.Model S U β x := by
  refine ⟨?_, fun D hD => (agree_clause hab (fun l hl => h.rinv.inv.prng D hD l hl)).mp (hm.posted D hD), ?_⟩
  · rw [← hab 0 h.rinv.inv.wf.nv]; exact hm.zero
  · have := h.loc α β x hab (by rw [duty_net]; exact hm.net)
    rw [duty_net] at this
    exact this

/-- Search does not change the posted clauses. -/
theorem posted_search {O : TheoryOps T} {K : Contract O} {op : Op} {out : Out} (hi : S.Inv K) (ho : Searches op) (hsf : op = .simplify → ∀ u, S.propagate E O = .ok (u, true) → u.Fix u.okQ) (hs : S.step E O op = .ok (S', out)) :
    S'.posted = S.posted := by
  cases op with
  | assume p =>
    obtain ⟨⟨u, b⟩, h1, h2⟩ := map_ok hs
    injection h2 with e1 e2; subst e1
    exact ((assume_spec hi h1).facts hi).posted
  | pop =>
    obtain ⟨u, h1, h2⟩ := map_ok hs
    injection h2 with e1 e2; subst e1
    exact (pop_inv hi h1).evo.posted
  | propagate =>
    obtain ⟨⟨u, b⟩, h1, h2⟩ := map_ok hs
    injection h2 with e1 e2; subst e1
    exact (propagate_spec hi h1).evo.posted
  | check ls =>
    obtain ⟨⟨u, b⟩, h1, h2⟩ := map_ok hs
    injection h2 with e1 e2; subst e1
    exact (check_spec hi h1).posted
  | simplify =>
    obtain ⟨⟨u, b⟩, h1, h2⟩ := map_ok hs
    injection h2 with e1 e2; subst e1
    exact (simplifyDb_spec hi (hsf rfl) h1).posted
  | listen v l =>
    injection hs with hs; injection hs with e1 e2; subst e1
    show (S.listen v l).posted = S.posted
    unfold Sat.listen; split <;> rfl
  | _ => exact ho.elim

theorem seat_fix (h : f.duty.Seat S U d V) (hd : S.dead = false) {u : Sat T} (hu : S.propagate E f.duty.sops = .ok (u, true)) : u.Fix u.okQ := by
  rcases Sat.propagate_live (E := E) h.rinv.inv ((h.fine hd).alive hd).live with ⟨e, -, h1⟩ | ⟨u', b, h1, h2, -⟩
  · rw [hu] at h1; cases h1
  · rw [hu] at h1
    injection h1 with h1; injection h1 with e1 e2
    subst e1 e2
    exact (h2 rfl).1.live.fix

/-- A call of the core neither loses variables nor changes the network. -/
theorem seat_step (h : f.duty.Seat S U d V) {op : Op} {out : Out} (hl : S.Legal op) (hs : S.step E f.duty.sops op = .ok (S', out)) : f.Wider S S' ∧ ∀ α x, f.Net S'.th U α x ↔ f.Net S.th U α x := by
  have hsf : op = .simplify → ∀ u, S.propagate E f.duty.sops = .ok (u, true) → u.Fix u.okQ := fun _ u hu => seat_fix h hl.1 hu
  have a := Sat.step_rinv h.rinv hsf hs
  have e := h.sg a.inv.ti
  refine ⟨wider_sg (Sat.step_grows h.rinv hsf hs).nv e, fun α x => ?_⟩
  rw [← duty_net]
  exact ⟨f.duty.net_sg e, f.duty.net_sg e.symm⟩

theorem told_search (h : f.duty.Seat S U d V) (ht : Told f tr S U) {op : Op} {out : Out} (ho : Searches op) (hl : S.Legal op) (hs' : S.step E f.duty.sops op = .ok (S', out)) : Told f tr S' U := by
  obtain ⟨hw, hn⟩ := seat_step h hl hs'
  refine ht.same hl.1 (.inr hw) (fun α x => ?_)
  have e := posted_search (E := E) h.rinv.inv ho (fun _ u hu => seat_fix h hl.1 hu) hs'
  exact ⟨fun k => ⟨k.zero, by rw [← e]; exact k.posted, (hn α x).mp k.net⟩, fun k => ⟨k.zero, by rw [e]; exact k.posted, (hn α x).mpr k.net⟩⟩

/-- The contract of the theories, restricted to the solutions. -/
theorem held_restrict (h : f.duty.Seat S U d V) :
    ∃ (K : Contract f.duty.sops), S.Inv K ∧ S.Local K.Th ∧ ∀ α x, f.Model S U α x → S.Sol K.Th α := by
  refine ⟨K0.restrict (fun α => α 0 = false ∧ ∀ D ∈ S.posted, α.clause D), ?_, fun α β hab hα => ?_, fun α x hm => ?_⟩
  · exact (h.rinv.retheory (C' := K0.restrict _) (t := S.th) S.bounds (fun _ k => k.1) h.rinv.inv.ti).inv
  · obtain ⟨a1, a2, a3⟩ := hα
    obtain ⟨x, hx⟩ := h.net α a2 a1
    have := model_loc h hab ⟨a2, a3, by rw [← duty_net]; exact hx⟩
    exact ⟨h.th β x (model_iff.mpr this), this.zero, this.posted⟩
  · exact ⟨hm.zero, hm.posted, h.th α x (model_iff.mpr hm), hm.zero, hm.posted⟩

theorem told_reify (h : f.duty.Seat S U d V) (ht : Told f tr S U) (hd : S.dead = false) (ho : S'.dead = true ∨ f.Wider S S') {K : Contract f.duty.sops} (hK : S.Local K.Th) (hS : ∀ α x, f.Model S U α x → S.Sol K.Th α) {p : Lit} {R : Lit → Asg → Prop}
    (hr : Reifies K S S' p R) (hb : e.Bare) (hl : e.lit? = some p.var) (hm : ∀ α x, R p α → e.holds α x) (hR : ∀ α x β, (∀ v, Known tr v → β v = α v) → e.holds α x → R p β → (β.sat p ↔ α.sat p))
    (hK' : ∀ α, S'.Sol K.Th α → R p α := hr.rel) (hT : ∀ α x, f.Model S' U α x → S'.Sol K.Th α) : Told f (e :: tr) S' U := by
  have eth := hr.defd.rstep.th
  refine ht.add hd ho (.inr (hb.ranges (h.rinv.inv.wf.nv.trans_le hr.defd.rstep.nv) (fun v hv => by rw [hl] at hv; injection hv with hv; subst hv; exact hr.var))) (fun α x k => ⟨?_, hm α x (hK' α (hT α x k))⟩) (fun α x β y h0 he k ha _ => ?_)
  · exact ⟨k.zero, fun D hD => k.posted D (hr.defd.rstep.posted D hD), by rw [← eth]; exact k.net⟩
  · obtain ⟨γ, g1, g2⟩ := hr.ext hK β (hS β y k)
    refine ⟨γ, y, ⟨g2.1, g2.2.1, ?_⟩, g1, Agr.refl _ _ _, hb.agrees (g2.1.trans h0.symm) (fun v hv => ?_)⟩
    · rw [eth]; exact (model_loc h g1 k).net
    · rw [hl] at hv; injection hv with hv; subst hv
      have hr0 := ht.rng.resolve_left (by rw [hd]; simp)
      have := hR α x γ (fun v hv => (g1 v (hr0.lit v hv)).symm.trans (ha.lit v hv)) he (hr.rel γ g2)
      unfold Asg.sat at this
      cases h1 : γ p.var <;> cases h2 : α p.var <;> rw [h1, h2] at this <;> cases h3 : p.sign <;> rw [h3] at this <;> simp at this ⊢

theorem known_sat {l : Lit} (h : ∀ v, Known tr v → β v = α v) (hl : Known tr l.var) : β.sat l ↔ α.sat l := by
  unfold Asg.sat; rw [h _ hl]

theorem told_core (h : f.duty.Seat S U d V) (ht : Told f tr S U) {op : Op} {out : Out} (ha : AsksCore f tr op out e) (hl : S.Legal op) (hs' : S.step E f.duty.sops op = .ok (S', out)) : Told f (e :: tr) S' U := by
  have hd := hl.1
  have hr0 := ht.rng.resolve_left (by rw [hd]; simp)
  have hw := h.rinv.inv.wf
  have ho : S'.dead = true ∨ f.Wider S S' := .inr (seat_step h hl hs').1
  obtain ⟨K, k1, k2, k3⟩ := held_restrict h
  cases ha with
  | bool =>
    injection hs' with hs'; injection hs' with e1 e2
    injection e2 with e2
    rw [Sat.newVar_eq hw] at e1 e2
    have e2 : S.nvars = _ := e2
    subst e2 e1
    have hb : (Said.bool (f := f) S.nvars).Bare := ⟨fun _ _ => nofun, fun _ _ _ => nofun, fun _ _ _ => nofun⟩
    refine ht.add hd ho (.inr (hb.ranges (Nat.succ_pos _) (fun v hv => by injection hv with hv; subst hv; exact Nat.lt_succ_self _))) (fun α x k => ⟨⟨k.zero, k.posted, k.net⟩, trivial⟩) (fun α x β y h0 _ k ha _ => ?_)
    have hne : S.nvars ≠ 0 := Nat.ne_of_gt hw.nv
    have hag : Asg.agree S.nvars β (upd β S.nvars (α S.nvars)) := fun v hv => (upd_ne _ _ (Nat.ne_of_lt hv)).symm
    have k' := model_loc h hag k
    exact ⟨_, y, ⟨k'.zero, k'.posted, k'.net⟩, hag, Agr.refl _ _ _, hb.agrees (k'.zero.trans h0.symm) (fun v hv => by injection hv with hv; subst hv; exact upd_self _ _ _)⟩
  | @clause ls b hk =>
    obtain ⟨⟨u, b'⟩, h1, h2⟩ := map_ok hs'
    injection h2 with e1 e2; subst e1
    have cl := newClause_spec h.rinv.inv h1
    have hb : (Said.clause (f := f) ls).Bare := ⟨fun _ _ => nofun, fun _ _ _ => nofun, fun _ _ _ => nofun⟩
    refine ht.add hd ho (.inr (hb.ranges (hw.nv.trans_le cl.rstep.nv) (fun v hv => by cases hv))) (fun α x k => ⟨⟨k.zero, fun D hD => k.posted D (by rw [cl.posted]; exact List.mem_cons_of_mem _ hD), by rw [← cl.rstep.th]; exact k.net⟩, ?_⟩) (fun α x β y h0 he k ha _ => ?_)
    · exact k.posted ls (by rw [cl.posted]; exact List.mem_cons_self)
    · refine ⟨β, y, ⟨k.zero, fun D hD => ?_, by rw [cl.rstep.th]; exact k.net⟩, fun _ _ => rfl, Agr.refl _ _ _, hb.agrees (k.zero.trans h0.symm) (fun v hv => by cases hv)⟩
      rw [cl.posted] at hD
      rcases List.mem_cons.mp hD with rfl | hD
      · obtain ⟨l, hl, hs⟩ := he
        exact ⟨l, hl, (known_sat ha.lit (hk l hl)).mpr hs⟩
      · exact k.posted D hD
  | @conj ls p hk =>
    obtain ⟨⟨u, p'⟩, h1, h2⟩ := map_ok hs'
    injection h2 with e1 e2; injection e2 with e2; subst e1 e2
    obtain ⟨s1, r1, g1, g2⟩ := newConj_spec (E := E) k1 hl.2.1 (fun l hl => hr0.lit _ (hk l hl))
    rw [h1] at g1; injection g1 with g1; injection g1 with g1 g1'; subst g1 g1'
    refine told_reify h ht hd ho k2 k3 g2 ⟨fun _ _ => nofun, fun _ _ _ => nofun, fun _ _ _ => nofun⟩ rfl (fun α x k => k) (fun α x β hβ he hR => ?_) g2.rel (fun α x k => ?_)
    · refine hR.trans (Iff.trans ?_ he.symm)
      exact ⟨fun a l hl => (known_sat hβ (hk l hl)).mp (a l hl), fun a l hl => (known_sat hβ (hk l hl)).mpr (a l hl)⟩
    · have : f.Model S U α x := ⟨k.zero, fun D hD => k.posted D (g2.defd.rstep.posted D hD), by rw [← g2.defd.rstep.th]; exact k.net⟩
      exact ⟨k.zero, k.posted, by rw [g2.defd.rstep.th]; exact (k3 α x this).2.2⟩
  | @disj ls p hk =>
    obtain ⟨⟨u, p'⟩, h1, h2⟩ := map_ok hs'
    injection h2 with e1 e2; injection e2 with e2; subst e1 e2
    obtain ⟨s1, r1, g1, g2⟩ := newDisj_spec (E := E) k1 hl.2.1 (fun l hl => hr0.lit _ (hk l hl))
    rw [h1] at g1; injection g1 with g1; injection g1 with g1 g1'; subst g1 g1'
    refine told_reify h ht hd ho k2 k3 g2 ⟨fun _ _ => nofun, fun _ _ _ => nofun, fun _ _ _ => nofun⟩ rfl (fun α x k => k) (fun α x β hβ he hR => ?_) g2.rel (fun α x k => ?_)
    · refine hR.trans (Iff.trans ?_ he.symm)
      exact ⟨fun ⟨l, hl, a⟩ => ⟨l, hl, (known_sat hβ (hk l hl)).mp a⟩, fun ⟨l, hl, a⟩ => ⟨l, hl, (known_sat hβ (hk l hl)).mpr a⟩⟩
    · have : f.Model S U α x := ⟨k.zero, fun D hD => k.posted D (g2.defd.rstep.posted D hD), by rw [← g2.defd.rstep.th]; exact k.net⟩
      exact ⟨k.zero, k.posted, by rw [g2.defd.rstep.th]; exact (k3 α x this).2.2⟩

theorem told_next (h : f.duty.Seat S U d V) (ht : Told f tr S U) {out : Out} (hr : S.root = false) (hk : ∀ l ∈ S.decisions, Known tr l.var) (hl : S.Legal .next) (hs' : S.step E f.duty.sops .next = .ok (S', out)) :
    Told f (.clause (S.decisions.map Lit.neg) :: tr) S' U := by
  have hd := hl.1
  have ho : S'.dead = true ∨ f.Wider S S' := .inr (seat_step h hl hs').1
  have hn := (seat_step h hl hs').2
  obtain ⟨⟨u, b⟩, h1, h2⟩ := map_ok hs'
  injection h2 with e1 e2; subst e1
  rcases next_spec h.rinv.inv h1 with ⟨a, -⟩ | ⟨-, nx⟩
  · rw [hr] at a; cases a
  have hb : (Said.clause (f := f) (S.decisions.map Lit.neg)).Bare := ⟨fun _ _ => nofun, fun _ _ _ => nofun, fun _ _ _ => nofun⟩
  refine ht.add hd ho (.inr (hb.ranges (by rw [nx.nv]; exact h.rinv.inv.wf.nv) (fun v hv => by cases hv))) (fun α x k => ⟨⟨k.zero, fun D hD => k.posted D (by rw [nx.posted]; exact List.mem_cons_of_mem _ hD), (hn α x).mp k.net⟩, ?_⟩) (fun α x β y h0 he k ha _ => ?_)
  · exact k.posted _ (by rw [nx.posted]; exact List.mem_cons_self)
  · refine ⟨β, y, ⟨k.zero, fun D hD => ?_, (hn β y).mpr k.net⟩, fun _ _ => rfl, Agr.refl _ _ _, hb.agrees (k.zero.trans h0.symm) (fun v hv => by cases hv)⟩
    rw [nx.posted] at hD
    rcases List.mem_cons.mp hD with rfl | hD
    · obtain ⟨l, hl, hs⟩ := he
      obtain ⟨q, hq, rfl⟩ := List.mem_map.mp hl
      exact ⟨_, hl, (known_sat ha.lit (by rw [Lit.neg_var]; exact hk q hq)).mpr hs⟩
    · exact k.posted D hD

end

/-- Without difference logic nothing is excluded. -/
theorem plain_step (hf : f.Plain) {op : Op} {out : Out} (hs : S.step E C.ops op = .ok (S', out)) : S.step E f.duty.sops op = .ok (S', out) := by
  rw [show f.duty.sops = C.ops from hf.safe]; exact hs

end Family
end Semitone
