import Verif.Lib.StackTalk
import Verif.Lib.TalkProps

/-!
# What the client of a stack of cores has asked for: the invariant
-/
namespace Semitone
namespace Duty
variable {T : Type} {E : Env} {C : Comp T} {D : Duty C} {S : Sat T} {U : C.Dat} {d : Bool} {rest l : List (Sat T × Bool)}

theorem pile_sg {g : D.Sg} {V : Live (D.con g)} : ∀ {l : List (Sat T × Bool)}, Sat.Pile V l → ∀ a ∈ l, D.sg a.1.th = g
  | [], _, a, ha => by cases ha
  | (s, b) :: l, h, a, ha => by
    rcases List.mem_cons.mp ha with rfl | ha
    · obtain ⟨n, A, k, -⟩ := Sat.tower_ti _ h.top.rinv.inv.ti
      exact D.ti_sg k
    · cases h with
      | base _ => cases ha
      | on h _ _ _ _ _ => exact pile_sg h a ha

/-- The core at the bottom. -/
theorem Stacked.base (h : Stacked E D ((S, d) :: rest) U) :
    ∃ S0 d0, Held E D S0 U d0 ∧ (∀ a ∈ (S, d) :: rest, D.sg a.1.th = D.sg S0.th) ∧ S0.nvars ≤ S.nvars ∧ ∀ D ∈ S0.posted, D ∈ S.posted := by
  obtain ⟨top, S0, d0, e, h0, hp⟩ := h
  cases top with
  | nil =>
    simp at e
    obtain ⟨⟨rfl, rfl⟩, rfl⟩ := e
    exact ⟨S, d, h0, fun a ha => by rw [List.mem_singleton.mp ha], Nat.le_refl _, fun _ k => k⟩
  | cons a top =>
    obtain ⟨hd, hk, p⟩ := hp (by simp)
    obtain ⟨k1, k2⟩ := p.base_posted e
    exact ⟨S0, d0, h0, pile_sg p, k2, k1⟩

end Duty

namespace Family
variable {E : Env} {T : Type} {C : Comp T} {f : Family E C} {S S' : Sat T} {U : C.Dat} {d : Bool} {tr : List (Said f)} {rest l : List (List (Said f) × Sat T × Bool)}

theorem holds_assuming {ds : List Lit} {α : Asg} {x : C.Val} : Meets (assuming ds tr) α x ↔ Meets tr α x ∧ α.all ds := by
  unfold Meets assuming
  refine ⟨fun ⟨a, b⟩ => ⟨⟨a, fun e he => b e (List.mem_append_right _ he)⟩, fun l hl => ?_⟩, fun ⟨⟨a, b⟩, c⟩ => ⟨a, fun e he => ?_⟩⟩
  · obtain ⟨q, hq, hs⟩ := b _ (List.mem_append_left _ (List.mem_map.mpr ⟨l, hl, rfl⟩))
    rw [List.mem_singleton.mp hq] at hs
    exact hs
  · rcases List.mem_append.mp he with he | he
    · obtain ⟨l, hl, rfl⟩ := List.mem_map.mp he
      exact ⟨l, List.mem_singleton_self _, c l hl⟩
    · exact b e he

theorem known_assuming {ds : List Lit} {v : Nat} (h : Known (assuming ds tr) v) : Known tr v := by
  rcases h with h | ⟨e, he, h⟩
  · exact .inl h
  · rcases List.mem_append.mp he with he | he
    · obtain ⟨l, hl, rfl⟩ := List.mem_map.mp he
      cases h
    · exact .inr ⟨e, he, h⟩

theorem knownNum_assuming {ds : List Lit} {L : LEnv} {W : (Family.arith L).Has f} {v : Nat} (h : KnownNum (assuming ds tr) W v) : KnownNum tr W v := by
  rcases h with he | ⟨l, he⟩ <;> rcases List.mem_append.mp he with he | he
  · obtain ⟨l, -, k⟩ := List.mem_map.mp he; cases k
  · exact .inl he
  · obtain ⟨l, -, k⟩ := List.mem_map.mp he; cases k
  · exact .inr ⟨l, he⟩

theorem knownObj_assuming {ds : List Lit} {A : Type} [DecidableEq A] {D : OEnv A} {W : (Family.object (E := E) D).Has f} {v : Nat} (h : KnownObj (assuming ds tr) W v) : KnownObj tr W v := by
  obtain ⟨l, he⟩ := h
  rcases List.mem_append.mp he with he | he
  · obtain ⟨l, -, k⟩ := List.mem_map.mp he; cases k
  · exact ⟨l, he⟩

theorem model_same (hp : S'.posted = S.posted) (he : f.duty.sg S'.th = f.duty.sg S.th) (α : Asg) (x : C.Val) : f.Model S' U α x ↔ f.Model S U α x := by
  have hn : f.Net S'.th U α x ↔ f.Net S.th U α x := by rw [← duty_net]; exact ⟨f.duty.net_sg he, f.duty.net_sg he.symm⟩
  exact ⟨fun k => ⟨k.zero, by rw [← hp]; exact k.posted, hn.mp k.net⟩, fun k => ⟨k.zero, by rw [hp]; exact k.posted, hn.mpr k.net⟩⟩

/-- `push`. -/
theorem told_push {c : Sat T} (ht : Told f tr S U) (hd : S.dead = false) (hk : ∀ p ∈ S.decisions, Known tr p.var) (hp : c.posted = S.decisions.map (fun p => [p]) ++ S.posted) (hn : c.nvars = S.nvars)
    (he : f.duty.sg c.th = f.duty.sg S.th) : Told f (assuming S.decisions tr) c U := by
  have hr := (ht.rng.resolve_left (by rw [hd]; simp)).wider (wider_sg (Nat.le_of_eq hn.symm) he)
  have hm : ∀ α x, f.Model c U α x ↔ f.Model S U α x ∧ α.all S.decisions := fun α x => by
    have hnet : f.Net c.th U α x ↔ f.Net S.th U α x := by rw [← duty_net]; exact ⟨f.duty.net_sg he, f.duty.net_sg he.symm⟩
    refine ⟨fun k => ⟨⟨k.zero, fun D hD => k.posted D (by rw [hp]; exact List.mem_append_right _ hD), hnet.mp k.net⟩, fun l hl => ?_⟩, fun ⟨k, ha⟩ => ⟨k.zero, fun D hD => ?_, hnet.mpr k.net⟩⟩
    · obtain ⟨q, hq, hs⟩ := k.posted [l] (by rw [hp]; exact List.mem_append_left _ (List.mem_map.mpr ⟨l, hl, rfl⟩))
      rw [List.mem_singleton.mp hq] at hs
      exact hs
    · rw [hp] at hD
      rcases List.mem_append.mp hD with hD | hD
      · obtain ⟨l, hl, rfl⟩ := List.mem_map.mp hD
        exact ⟨l, List.mem_singleton_self _, ha l hl⟩
      · exact k.posted D hD
  refine ⟨.inr ⟨fun v h => hr.lit v (known_assuming h), fun W v h => hr.num W v (knownNum_assuming h), fun W v h => hr.obj W v (knownObj_assuming h)⟩, fun α x k => ?_, fun α x k => ?_⟩
  · obtain ⟨a, b⟩ := (hm α x).mp k
    exact holds_assuming.mpr ⟨ht.back α x a, b⟩
  · obtain ⟨a, b⟩ := holds_assuming.mp k
    obtain ⟨β, y, c1, c2⟩ := ht.forth α x a
    exact ⟨β, y, (hm β y).mpr ⟨c1, (all_known c2.lit hk).mpr b⟩, ⟨fun v h => c2.lit v (known_assuming h), fun W v h => c2.num W v (knownNum_assuming h), fun W v h => c2.obj W v (knownObj_assuming h)⟩, c2.pts⟩

/-- `pop`. -/
theorem told_pop (ht : Told f tr S U) (e : S' = { S with th := S'.th, notes := S'.notes }) (he : f.duty.sg S'.th = f.duty.sg S.th) : Told f tr S' U := by
  have hn : S'.nvars = S.nvars := by rw [e]
  have hp : S'.posted = S.posted := by rw [e]
  have hd : S'.dead = S.dead := by rw [e]
  refine ⟨ht.rng.imp (fun k => hd.trans k) (fun k => k.wider (wider_sg (Nat.le_of_eq hn.symm) he)), fun α x k => ht.back α x ((model_same hp he α x).mp k), fun α x k => ?_⟩
  obtain ⟨β, y, a, b⟩ := ht.forth α x k
  exact ⟨β, y, (model_same hp he β y).mpr a, b⟩

theorem map_fst (l : List (List (Said f) × Sat T × Bool)) : (l.map Prod.snd).map Prod.fst = l.map (fun r => r.2.1) := by rw [List.map_map]; rfl

/-- What the client has asked for, and what the cores hold. -/
theorem StackTalk.told (hf : f.Plain) {l : List (List (Said f) × Sat T × Bool)} {U : C.Dat} (h : StackTalk f l U) : Comp.StackSession E C (l.map Prod.snd) U ∧ ∀ a ∈ l, Told f a.1 a.2.1 U := by
  have e0 : f.duty.sops = C.ops := hf.safe
  induction h with
  | init h => exact ⟨.init h, fun a ha => by rw [List.mem_singleton.mp ha]; exact told_init h⟩
  | search _ ho hl hm hs ih =>
    obtain ⟨i1, i2⟩ := ih
    obtain ⟨K, V, s⟩ := (Duty.stacked (D := f.duty) (i1.stack hf)).seat
    exact ⟨.step i1 hl hm hs, List.forall_mem_cons.mpr ⟨told_search s (i2 _ List.mem_cons_self) ho hl (plain_step hf hs), fun a ha => i2 a (List.mem_cons_of_mem _ ha)⟩⟩
  | core _ hc hl hm hs ih =>
    obtain ⟨i1, i2⟩ := ih
    obtain ⟨K, V, s⟩ := (Duty.stacked (D := f.duty) (i1.stack hf)).seat
    exact ⟨.step i1 hl hm hs, List.forall_mem_cons.mpr ⟨told_core s (i2 _ List.mem_cons_self) hc hl (plain_step hf hs), fun a ha => i2 a (List.mem_cons_of_mem _ ha)⟩⟩
  | next _ hr hk hl hm hs ih =>
    obtain ⟨i1, i2⟩ := ih
    obtain ⟨K, V, s⟩ := (Duty.stacked (D := f.duty) (i1.stack hf)).seat
    exact ⟨.step i1 hl hm hs, List.forall_mem_cons.mpr ⟨told_next s (i2 _ List.mem_cons_self) hr hk hl (plain_step hf hs), fun a ha => i2 a (List.mem_cons_of_mem _ ha)⟩⟩
  | theory _ hd hr ha hd' ih =>
    obtain ⟨i1, i2⟩ := ih
    obtain ⟨k1, k2⟩ := told_theory (C81_resumes hf i1) (i2 _ List.mem_cons_self) hd hr ha
    exact ⟨.theory i1 hd k1 hd', fun a ha => by rw [List.mem_singleton.mp ha]; exact k2⟩
  | allows W _ hd hv ih =>
    obtain ⟨i1, i2⟩ := ih
    obtain ⟨S0, d0, b1, b2, b3, b4⟩ := (Duty.stacked (D := f.duty) (i1.stack hf)).base
    exact ⟨i1, List.forall_mem_cons.mpr ⟨told_allows W b1 (b2 _ List.mem_cons_self) b3 b4 (i2 _ List.mem_cons_self) hd hv, fun a ha => i2 a (List.mem_cons_of_mem _ ha)⟩⟩
  | push _ hd hq hdec hk hs ih =>
    obtain ⟨i1, i2⟩ := ih
    have i3 : Comp.StackSession E C _ _ := .push i1 hd hq hdec (by rw [map_fst]; exact hs)
    obtain ⟨c, h1, -, -, -, h2, h3, -⟩ := Duty.stack_push (D := f.duty) (i1.stack hf) hd hq hdec
    rw [map_fst, hs] at h1
    injection h1 with h1; injection h1 with h1 _
    subst h1
    obtain ⟨S0, d0, b1, b2, b3, b4⟩ := (Duty.stacked (D := f.duty) (i3.stack hf)).base
    have he := (b2 _ List.mem_cons_self).trans (b2 _ (List.mem_cons_of_mem _ List.mem_cons_self)).symm
    exact ⟨i3, List.forall_mem_cons.mpr ⟨told_push (i2 _ List.mem_cons_self) hd hk h2 h3 he, i2⟩⟩
  | pop _ hr hs ih =>
    obtain ⟨i1, i2⟩ := ih
    obtain ⟨S1, h1, h2, h3, -⟩ := (Duty.stacked (D := f.duty) (i1.stack hf)).pop hr
    have i3 : Comp.StackSession E C _ _ := .pop i1 hr (by rw [map_fst]; exact hs)
    rw [map_fst, hs] at h1
    injection h1 with h1; injection h1 with h1 _
    subst h1
    have i4 := i2 _ (List.mem_cons_of_mem _ List.mem_cons_self)
    exact ⟨i3, List.forall_mem_cons.mpr ⟨told_pop i4 h2 h3, fun a ha => i2 a (List.mem_cons_of_mem _ (List.mem_cons_of_mem _ ha))⟩⟩

end Family
end Semitone
