import Verif.Sat.Live
import Verif.Sat.Legal

/-!
# With live theories every legal call succeeds
-/
namespace Semitone
namespace Sat
variable {T : Type}

/-! ### Calls that only add to the queue -/

/-- Everything that became true is in the queue. -/
def Quiet (s s' : Sat T) : Prop := (∀ q ∈ s.propQ, q ∈ s'.propQ) ∧ ∀ q, s'.value q = some true → s.value q = some true ∨ q ∈ s'.propQ

theorem Quiet.refl (s : Sat T) : Quiet s s := ⟨fun _ h => h, fun _ h => Or.inl h⟩
theorem Quiet.trans {s1 s2 s3 : Sat T} (h1 : Quiet s1 s2) (h2 : Quiet s2 s3) : Quiet s1 s3 := by
  refine ⟨fun q h => h2.1 q (h1.1 q h), fun q h => ?_⟩
  rcases h2.2 q h with h | h
  · rcases h1.2 q h with h | h
    · exact Or.inl h
    · exact Or.inr (h2.1 q h)
  · exact Or.inr h

theorem newVar_quiet (s : Sat T) : Quiet s s.newVar.1 := by
  refine ⟨fun q h => h, fun q h => Or.inl ?_⟩
  rw [value_true] at h ⊢
  simp only [newVar, upd] at h
  split at h
  · cases h
  · exact h

theorem enqueue_quiet (s : Sat T) (p : Lit) (c) : Quiet s (s.enqueue p c).1 := by
  match hv : s.value p with
  | some b => rw [enqueue_some hv]; exact .refl s
  | none =>
    rw [enqueue_none hv]
    refine ⟨fun q h => by simp [Sat.enq, h], fun q h => ?_⟩
    rw [value_true] at h
    simp only [Sat.enq] at h
    by_cases e : q.var = p.var
    · rw [e, upd_self] at h
      injection h with h
      right
      rw [lit_ext e h.symm]; simp [Sat.enq]
    · rw [upd_ne _ _ e] at h
      exact Or.inl ((value_true _ _).2 h)

theorem newClauseObj_quiet {s s' : Sat T} {ls c} (h : s.newClauseObj ls = .ok (s', c)) : Quiet s s' := by
  unfold newClauseObj at h
  split at h
  · injection h with h; injection h with h _; subst h; exact ⟨fun _ h => h, fun _ h => Or.inl h⟩
  · cases h

theorem Quiet.of_eq {s s1 s' : Sat T} (h : Quiet s s1) (h1 : s'.assigns = s1.assigns) (h2 : s'.propQ = s1.propQ) : Quiet s s' := by
  refine ⟨by rw [h2]; exact h.1, fun q hq => ?_⟩
  rw [h2]
  refine h.2 q ?_
  rw [value_true] at hq ⊢
  rw [← h1]; exact hq

theorem newClause_quiet {E : Env} {s s' : Sat T} {ls b} (h : s.newClause E ls = .ok (s', b)) : Quiet s s' := by
  unfold newClause at h
  split at h
  · cases h
  split at h
  · cases h
  simp only at h
  have h0 : Quiet s { s with posted := ls :: s.posted } := (Quiet.refl s).of_eq rfl rfl
  split at h
  · injection h with h; injection h with h _; subst h; exact h0.of_eq rfl rfl
  · injection h with h; injection h with h _; subst h; exact h0.of_eq rfl rfl
  · rename_i l hf
    injection h with h
    have := h0.trans (enqueue_quiet { s with posted := ls :: s.posted } l none)
    rw [h] at this
    exact this
  · split at h
    · cases h
    · rename_i s1 c hc
      injection h with h; injection h with h _; subst h
      exact (h0.trans (newClauseObj_quiet hc)).of_eq rfl rfl

theorem postAll_quiet {E : Env} (cs : List (List Lit)) : ∀ {s s' : Sat T} {b}, postAll E cs s = .ok (s', b) → Quiet s s' := by
  induction cs with
  | nil => intro s s' b h; injection h with h; injection h with h _; subst h; exact .refl _
  | cons c cs ih =>
    intro s s' b h
    simp only [postAll] at h
    match hc : s.newClause E c with
    | .error _ => simp [hc] at h
    | .ok (s1, false) => simp only [hc] at h; injection h with h; injection h with h _; subst h; exact newClause_quiet hc
    | .ok (s1, true) => simp only [hc] at h; exact (newClause_quiet hc).trans (ih h)

theorem define_qt {E : Env} {s s' : Sat T} {k ctr cls r} (h : define E s k ctr cls = .ok (s', r)) : Quiet s s' := by
  unfold define at h
  split at h
  · cases h
  · rename_i hp; injection h with h; injection h with h _; subst h; exact postAll_quiet _ hp
  · rename_i hp; injection h with h; injection h with h _; subst h
    exact (postAll_quiet _ hp).of_eq rfl rfl

theorem newEq_quiet {E : Env} {s s' : Sat T} {a b r} (h : s.newEq E a b = .ok (s', r)) : Quiet s s' := by
  unfold newEq at h
  split at h
  · cases h
  split at h
  · cases h
  split at h
  · injection h with h; injection h with h _; subst h; exact .refl _
  split at h
  all_goals try (injection h with h; injection h with h _; subst h; exact .refl _)
  split at h
  · injection h with h; injection h with h _; subst h; exact .refl _
  · exact (newVar_quiet s).trans (define_qt h)

theorem newConj_quiet {E : Env} {s s' : Sat T} {ls r} (h : s.newConj E ls = .ok (s', r)) : Quiet s s' := by
  unfold newConj at h
  split at h
  · cases h
  split at h
  · cases h
  split at h
  all_goals try (injection h with h; injection h with h _; subst h; exact .refl _)
  split at h
  · injection h with h; injection h with h _; subst h; exact .refl _
  · exact (newVar_quiet s).trans (define_qt h)

theorem newDisj_quiet {E : Env} {s s' : Sat T} {ls r} (h : s.newDisj E ls = .ok (s', r)) : Quiet s s' := by
  unfold newDisj at h
  split at h
  · cases h
  split at h
  · cases h
  split at h
  all_goals try (injection h with h; injection h with h _; subst h; exact .refl _)
  split at h
  · injection h with h; injection h with h _; subst h; exact .refl _
  · exact (newVar_quiet s).trans (define_qt h)

theorem newVars_quiet (n : Nat) : ∀ (s : Sat T), Quiet s (newVars n s).1 := by
  induction n with
  | zero => intro s; exact .refl s
  | succ n ih => intro s; exact (newVar_quiet s).trans (ih _)

theorem newAMOGo_quiet {E : Env} (f : Nat) : ∀ {s s' : Sat T} {ls r}, newAMOGo E f s ls = .ok (s', r) → Quiet s s' := by
  induction f with
  | zero => intro s s' ls r h; cases h
  | succ f ih =>
    intro s s' ls r h
    unfold newAMOGo at h
    split at h
    · cases h
    split at h
    · cases h
    split at h
    all_goals try (injection h with h; injection h with h _; subst h; exact .refl _)
    split at h
    · injection h with h; injection h with h _; subst h; exact .refl _
    split at h
    · exact (newVar_quiet s).trans (define_qt h)
    · simp only at h
      split at h
      · cases h
      rename_i h1
      split at h
      · cases h
      rename_i h2
      split at h
      · cases h
      rename_i h3
      exact (newVars_quiet _ s).trans ((newVars_quiet _ _).trans ((ih h1).trans ((ih h2).trans ((newConj_quiet h3).trans (define_qt h)))))

theorem newEXO_quiet {E : Env} {s s' : Sat T} {ls r} (h : s.newEXO E ls = .ok (s', r)) : Quiet s s' := by
  unfold newEXO at h
  split at h
  · cases h
  split at h
  · cases h
  split at h
  all_goals try (injection h with h; injection h with h _; subst h; exact .refl _)
  split at h
  · injection h with h; injection h with h _; subst h; exact .refl _
  split at h
  · injection h with h; injection h with h _; subst h; exact .refl _
  split at h
  · cases h
  rename_i h1
  exact (newAMOGo_quiet _ h1).trans (define_qt h)

variable {O : TheoryOps T} {C : Contract O} {V : Live C} {s s' : Sat T}

/-- The truth of the lower levels does not change when nothing is retracted. -/
theorem RStep.tru_keep (h : RStep s s') {i : Nat} {q : Lit} (hq : s.tru i q) : s'.tru i q := by
  obtain ⟨a, b⟩ := hq
  have h3 := h.keep q.var (by rw [(value_true _ _).1 a]; simp)
  exact ⟨by rw [value_true, h3.1]; exact (value_true _ _).1 a, by rw [h3.2]; exact b⟩

/-- State in which the literals true now are consistent with the theories. -/
structure LiveOk (V : Live C) (s : Sat T) : Prop where
  live : s.LiveInv V
  con : s.Cons C s.dl

/-- What the calls keep: the state is live, and if nothing is pending it is consistent with the theories. `d`: bounds may have been imposed from outside since
the last propagation. -/
structure LiveD (V : Live C) (s : Sat T) (d : Bool) : Prop where
  live : s.LiveInv V
  con : d = false → s.propQ = [] → s.Cons C s.dl

theorem LiveOk.d {d : Bool} (h : s.LiveOk V) : s.LiveD V d := ⟨h.live, fun _ _ => h.con⟩

/-- Calls that add constraints at root level. -/
theorem RStep.live {d : Bool} (R : RStep s s') (hb : s'.bounds = s.bounds) (hfx : s.Fix s.okQ → s'.Fix s'.okQ) (hq : Quiet s s') (hw : s.WF noEx) (hr : s.root = true) (h : s.LiveD V d) : s'.LiveD V d := by
  have hdl : s'.dl = s.dl := by simp [dl, R.lim]
  have h0 : s.dl = 0 := (root_iff s).1 hr
  have hnew : ∀ q, s'.tru 0 q → s.tru 0 q ∨ q ∈ s'.propQ := by
    rintro q ⟨a, -⟩
    rcases hq.2 q a with h | h
    · left
      rw [← h0]; exact (hw.tru_iff q).2 h
    · exact Or.inr h
  refine ⟨⟨hfx h.live.fix, ?_, fun i hi => ?_⟩, fun e hp => ?_⟩
  · rw [R.th, hb, hdl]
    have := h.live.li
    rw [h0] at this ⊢
    exact V.adv this R.nv (fun i q _ hq => R.tru_keep hq) (fun i q hi _ => by omega) hnew hq.1
  · omega
  · have hs0 : s.propQ = [] := by
      cases hx : s.propQ with
      | nil => rfl
      | cons p q => have := hq.1 p (by rw [hx]; simp); rw [hp] at this; cases this
    obtain ⟨α, a, b⟩ := h.con e hs0
    refine ⟨α, by rw [R.th]; exact a, fun q hq' => b q ?_⟩
    rw [hdl, h0] at hq'
    rcases hnew q hq' with h | h
    · rw [h0]; exact h
    · rw [hp] at h; cases h

theorem Defd.live {d : Bool} {O' : TheoryOps T} {C' : Contract O'} (D : Defd C' s s') (hq : Quiet s s') (hw : s.WF noEx) (hr : s.root = true) (h : s.LiveD V d) : s'.LiveD V d :=
  D.rstep.live D.bounds D.fix hq hw hr h

/-- `new_var` of the core may be called at any level. -/
theorem newVar_live {d : Bool} {O' : TheoryOps T} {C' : Contract O'} (hI : s.Inv C') (h : s.LiveD V d) : s.newVar.1.LiveD V d := by
  have D := newVar_defd (C := C') hI
  have e := newVar_eq hI.wf
  have hv : ∀ q, s.newVar.1.value q = s.value q := by
    intro q; rw [e]; rfl
  have ht : ∀ i q, s.newVar.1.tru i q ↔ s.tru i q := by
    intro i q; unfold tru; rw [e]; exact Iff.rfl
  have ht' : s.newVar.1.tru = s.tru := by funext i q; exact propext (ht i q)
  have hdl : s.newVar.1.dl = s.dl := by rw [e]; rfl
  have hq : s.newVar.1.propQ = s.propQ := by rw [e]
  have hth : s.newVar.1.th = s.th := by rw [e]
  refine ⟨⟨D.fix h.live.fix, ?_, fun i hi => ?_⟩, fun x hp => ?_⟩
  · rw [hth, D.bounds, hdl, ht', hq]
    exact V.adv h.live.li D.rstep.nv (fun _ _ _ h => h) (fun _ _ _ h => h) (fun _ h => Or.inl h) (fun _ h => h)
  · unfold Cons
    rw [hth, ht']
    exact h.live.cons i (by rw [← hdl]; exact hi)
  · unfold Cons
    rw [hth, ht', hdl]
    exact h.con x (by rw [← hq]; exact hp)

/-! ### Search -/

theorem propagate_gone {E : Env} (h : s.Inv C) (hL : s.LiveInv V) :
    (∃ e, V.F e ∧ s.propagate E O = .error e) ∨ ∃ s' b, s.propagate E O = .ok (s', b) ∧ (b = true → s'.LiveOk V ∧ V.Done s'.th) ∧ (s'.Gone V ∨ s'.LiveOk V) := by
  rcases propLoop_gone (E := E) V s.propFuel s h.wf h.sem h.ti hL (propFuel_ok s) with hF | ⟨s', b, h1, h2, h3⟩
  · exact .inl hF
  refine .inr ⟨s', b, h1, fun hb => ⟨⟨(h2 hb).1, (h2 hb).2.1⟩, (h2 hb).2.2⟩, ?_⟩
  cases b with
  | true => exact Or.inr ⟨(h2 rfl).1, (h2 rfl).2.1⟩
  | false => exact Or.inl (h3 rfl)

theorem propagate_live {E : Env} (h : s.Inv C) (hL : s.LiveInv V) :
    (∃ e, V.F e ∧ s.propagate E O = .error e) ∨ ∃ s' b, s.propagate E O = .ok (s', b) ∧ (b = true → s'.LiveOk V ∧ V.Done s'.th) ∧ (s'.dead = true ∨ s'.LiveOk V) := by
  rcases propagate_gone (E := E) h hL with h | ⟨s', b, h1, h2, h3⟩
  · exact .inl h
  · exact .inr ⟨s', b, h1, h2, h3.imp_left And.left⟩

/-- The state after pushing a level. -/
theorem LiveOk.pushed (h : s.Inv C) (hL : s.LiveOk V) (hq : s.propQ = []) (p : Lit) : (s.pushed O p).LiveOk V := by
  have hti := C.push s.th s.dl s.tru h.ti (fun q hqt => ⟨hqt.1, Nat.le_succ_of_le hqt.2⟩)
  have ht : ∀ q, s.tru (s.dl + 1) q ↔ s.tru s.dl q := fun q => ⟨fun x => (h.wf.tru_iff q).2 x.1, fun x => ⟨x.1, Nat.le_succ_of_le x.2⟩⟩
  have hc : ∀ i, s.Cons C i → (s.pushed O p).Cons C i := fun i ⟨α, a, b⟩ => ⟨α, (hti.2 α).2 a, b⟩
  refine ⟨⟨hL.live.fix.pushed p, ?_, fun i hi => hc i ?_⟩, ?_⟩
  · have := V.push hL.live.li (by rw [hq]; simp) ht
    show V.LI (O.push s.th) s.nvars s.bounds (s.dl + 1) s.tru (fun q => q ∈ s.propQ)
    exact V.adv this (Nat.le_refl _) (fun _ _ _ h => h) (fun _ _ _ h => h) (fun _ h => Or.inl h) (fun _ h => h.elim)
  · have hi : i < s.dl + 1 := hi
    by_cases e : i = s.dl
    · rw [e]; exact hL.con
    · exact hL.live.cons i (by omega)
  · obtain ⟨α, a, b⟩ := hL.con
    exact ⟨α, (hti.2 α).2 a, fun q hq => b q ((ht q).1 hq)⟩

theorem assume_gone {E : Env} {p : Lit} (h : s.Inv C) (hL : s.LiveOk V) (hq : s.propQ = []) (hp : p.var < s.nvars) :
    (∃ e, V.F e ∧ s.assume E O p = .error e) ∨ ∃ s' b, s.assume E O p = .ok (s', b) ∧ (b = true → V.Done s'.th) ∧ (s'.Gone V ∨ s'.LiveOk V) := by
  have hi : s.inRange [p] = true := by simp [inRange, hp]
  have hpush := h.pushed (O := O) hq p
  have hLp := hL.pushed h hq p
  have heq : s.assume E O p = s.assumeGo E O p := by
    unfold assume
    rw [if_neg (by simp [hi]), if_neg (by simp [hq])]
    rfl
  rw [heq]
  unfold assumeGo
  have hv : (s.pushed O p).value p = s.value p := rfl
  match hvp : s.value p with
  | some false =>
    rw [enqueue_some (by rw [hv]; exact hvp)]
    exact .inr ⟨_, _, rfl, by simp, Or.inr hLp⟩
  | some true =>
    rw [enqueue_some (by rw [hv]; exact hvp)]
    simp only
    rcases propagate_gone (E := E) hpush hLp.live with hF | ⟨s', b, h1, h2, h3⟩
    · exact .inl hF
    exact .inr ⟨s', b, h1, fun hb => (h2 hb).2, h3⟩
  | none =>
    rw [enqueue_none (by rw [hv]; exact hvp)]
    simp only
    have hvn : (s.pushed O p).value p = none := by rw [hv]; exact hvp
    have hw2 := hpush.wf.enq (c := none) (p := p) hvn hp (fun x hx => by cases hx) (fun _ => Or.inr rfl)
    have hdec : (s.pushed O p).EntD C.Th (s.pushed O p).dl p := by
      intro α _ hd
      apply hd
      have e : (s.pushed O p).dl = (s.pushed O p).decisions.length := hpush.wf.dec.symm
      rw [e, decUpTo_all]
      simp [Sat.pushed]
    have hS := hpush.sem.enq (r := none) hpush.wf hvn hdec
    have hevo := (enq_grow (c := none) hvn).evo
    have hT : ((s.pushed O p).enq p none).TInv C := hpush.ti.evo hevo rfl rfl
    have hL2 : ((s.pushed O p).enq p none).LiveInv V := by
      refine ⟨hLp.live.fix.enq hvn, ?_, hevo.cons (fun _ => Iff.rfl) hLp.live.cons⟩
      refine V.adv hLp.live.li (Nat.le_refl _) (fun i q hi hq => hevo.tru_keep hi hq) (fun i q hi hq => hevo.tru_low hi hq) (fun q hq => ?_) (fun q hq => by simp [Sat.enq, hq])
      rcases (enqueue_quiet (s.pushed O p) p none).2 q (by rw [enqueue_none hvn]; exact hq.1) with h | h
      · exact Or.inl ((hpush.wf.tru_iff q).2 h)
      · rw [enqueue_none hvn] at h; exact Or.inr h
    rcases propLoop_gone (E := E) V _ _ hw2 hS hT hL2 (propFuel_ok _) with hF | ⟨s', b, h1, h2, h3⟩
    · exact .inl hF
    refine .inr ⟨s', b, h1, fun hb => (h2 hb).2.2, ?_⟩
    cases b with
    | true => exact Or.inr ⟨(h2 rfl).1, (h2 rfl).2.1⟩
    | false => exact .inl (h3 rfl)

theorem assume_live {E : Env} {p : Lit} (h : s.Inv C) (hL : s.LiveOk V) (hq : s.propQ = []) (hp : p.var < s.nvars) :
    (∃ e, V.F e ∧ s.assume E O p = .error e) ∨ ∃ s' b, s.assume E O p = .ok (s', b) ∧ (b = true → V.Done s'.th) ∧ (s'.dead = true ∨ s'.LiveOk V) := by
  rcases assume_gone (E := E) h hL hq hp with h | ⟨s', b, h1, h2, h3⟩
  · exact .inl h
  · exact .inr ⟨s', b, h1, h2, h3.imp_left And.left⟩

theorem pop_live (h : s.Inv C) (hL : s.LiveInv V) (hr : s.root = false) : ∃ s', s.pop O = .ok s' ∧ s'.LiveOk V := by
  have hd : s.dl ≠ 0 := by
    intro h0; rw [(root_iff s).2 h0] at hr; cases hr
  obtain ⟨m, hm⟩ : ∃ m, s.dl = m + 1 := ⟨s.dl - 1, by omega⟩
  have hli := hL.li
  rw [hm] at hli
  obtain ⟨t', h1, h2⟩ := V.pop hli
  obtain ⟨s', hp⟩ := pop_ok h.wf (h.qr hd) hd ⟨t', h1⟩
  have P := pop_inv h hp
  have ht := pop_th hp
  rw [h1] at ht
  injection ht with ht
  have hdl : s'.dl = m := by have := P.dl; omega
  have hlow : ∀ i q, i ≤ m → s'.tru i q → s.tru i q := fun i q _ ⟨a, b⟩ => ⟨P.cut.value_some a, by rw [← P.cut.level_some a]; exact b⟩
  have hcon : ∀ i, i ≤ m → s'.Cons C i := by
    intro i hi
    obtain ⟨α, a, b⟩ := hL.cons i (by omega)
    exact ⟨α, (P.th α).2 a, fun q hq => b q (hlow i q hi hq)⟩
  refine ⟨s', hp, ⟨⟨P.fix hL.fix, ?_, fun i hi => hcon i (by omega)⟩, by rw [hdl]; exact hcon m (Nat.le_refl _)⟩⟩
  have hb : s'.bounds = s.bounds := by rw [P.cut.fr]
  have hnv : s'.nvars = s.nvars := P.evo.nv
  rw [← ht, hb, hnv, hdl]
  exact V.adv h2 (Nat.le_refl _) (fun i q hi hq => P.evo.tru_keep (by omega) hq) (fun i q hi hq => hlow i q (by omega) hq) (fun q hq => Or.inl (hlow m q (Nat.le_refl _) hq)) (fun _ h => h.elim)

theorem popLevels_live (k : Nat) : ∀ {s : Sat T}, s.Inv C → s.LiveOk V → k ≤ s.dl → ∃ s', popLevels O k s = .ok s' ∧ s'.LiveOk V := by
  induction k with
  | zero => intro s _ h _; exact ⟨s, rfl, h⟩
  | succ k ih =>
    intro s h hL hk
    obtain ⟨s1, h1, h2⟩ := pop_live h hL.live (by
      cases hr : s.root with
      | false => rfl
      | true => have := (root_iff s).1 hr; omega)
    have P := pop_inv h h1
    obtain ⟨s2, h3, h4⟩ := ih P.inv h2 (by have := P.dl; omega)
    exact ⟨s2, by simp only [popLevels, h1]; exact h3, h4⟩

theorem popTo_live (h : s.Inv C) (hL : s.LiveOk V) (n : Nat) : ∃ s', popTo O n s = .ok s' ∧ s'.LiveOk V := popLevels_live _ h hL (Nat.sub_le _ _)

/-- Popping from a state in which there is nothing left to keep. -/
theorem popTo_dead {E : Env} (h : s.Inv C) (hq : s.propQ = []) (hr : s.root = true) (n : Nat) : popTo O n s = .ok s := by
  have h0 := (root_iff s).1 hr
  unfold popTo
  rw [h0, Nat.zero_sub]
  rfl

theorem next_gone {E : Env} {d : Bool} (h : s.Inv C) (hL : s.LiveD V d) (he : s.Eff) :
    (∃ e, V.F e ∧ s.next E O = .error e) ∨ ∃ s' b, s.next E O = .ok (s', b) ∧ (b = true → V.Done s'.th) ∧ (s'.Gone V ∨ s'.LiveD V d) := by
  unfold next
  by_cases hr : s.root = true
  · rw [if_pos hr]; exact .inr ⟨_, _, rfl, by simp, Or.inr hL⟩
  rw [if_neg hr]
  have hr' : s.root = false := by simpa using hr
  obtain ⟨s1, h1, hL1⟩ := pop_live h hL.live hr'
  simp only [h1]
  have P := pop_inv h h1
  have hd0 : s.dl = s.decisions.length := h.wf.dec.symm
  have hdl := P.dl
  match hdec : s.decisions with
  | [] => rw [hdec] at hd0; simp at hd0; omega
  | p :: ds =>
    rw [hdec] at hd0
    simp at hd0
    have hp := he p ds (by rw [hdec]; exact List.suffix_refl _)
    have hp0 : s1.value p = none := by
      cases hx : s1.value p with
      | none => rfl
      | some b =>
        have a := P.cut.level_some hx
        have b := P.inv.wf.level_le p.var
        omega
    have hds : ∀ q ∈ ds, s1.value q = some true ∧ ∃ tr, (q :: tr) <:+ ds := by
      intro q hq
      obtain ⟨tr, htr⟩ := mem_suffix hq
      have hq' := he q tr (by rw [hdec]; exact htr.trans (List.suffix_cons p ds))
      have hlt := suffix_len htr
      refine ⟨?_, tr, htr⟩
      have := P.evo.low q.var (by rw [(value_true _ _).1 hq'.1]; simp) (by omega)
      rw [value_true, this.1]; exact (value_true _ _).1 hq'.1
    have hneg : ∀ q ∈ ds.map Lit.neg, s1.value q = some false := by
      intro q hq
      obtain ⟨x, hx, rfl⟩ := List.mem_map.1 hq
      exact (value_neg_false s1 x).2 (hds x hx).1
    have hrange : ∀ l ∈ p.neg :: ds.map Lit.neg, l.var < s1.nvars := by
      intro l hl
      rw [P.evo.nv]
      rcases List.mem_cons.1 hl with rfl | hl
      · rw [Lit.neg_var]; exact h.wf.rng _ (by rw [(value_true _ _).1 hp.1]; simp)
      · have := hneg l hl
        rw [← P.evo.nv]
        exact P.inv.wf.rng _ (by rw [(value_false _ _).1 this]; simp)
    have hp0' : s1.value p.neg = none := by rw [value_none] at hp0 ⊢; rw [Lit.neg_var]; exact hp0
    obtain ⟨s2, h2⟩ := record_ok (E := E) (s := { s1 with posted := s.decisions.map Lit.neg :: s1.posted }) (l0 := p.neg) (rest := ds.map Lit.neg)
      hrange hp0' hneg (by
        intro e
        show s1.root = true
        rw [root_iff]
        have : ds.length = 0 := by simpa using congrArg List.length e
        omega)
    have hng : (p :: ds).map Lit.neg = p.neg :: ds.map Lit.neg := rfl
    rw [hdec, hng] at h2
    rw [hng, h2]
    simp only
    have hass := record_assigns h2
    have hI1 := P.inv.post hrange
    obtain ⟨l0, rest, hl, -, -, -, w2, e2, dl2, th2, q2, tr2, dead2, bnd2, dec2, val2, sem2, fix2, sub2, lnk2⟩ := record_spec C hI1.wf h2
    have hF1 := hL1.live.fix
    injection hl with hl0 hl1
    have hF2 : s2.Fix s2.okQ := by
      refine fix2 ⟨hF1.nd, hF1.fx⟩ ?_ ?_
      · rw [← hl1]
        have := he.nodup
        rw [hdec, List.nodup_cons] at this
        exact List.Pairwise.map _ (fun a b (hab : a ≠ b) (e : a.neg = b.neg) => absurd (by have h9 := congrArg Lit.neg e; rwa [Lit.neg_neg, Lit.neg_neg] at h9) hab) this.2
      · match hds' : ds with
        | [] => left; rw [← hl1]; rfl
        | q :: tr =>
          right
          rw [← hl1]
          refine ⟨q.neg, by simp, ?_⟩
          show s1.level q.neg.var = s1.dl
          have hq' := he q tr (by rw [hdec]; exact List.suffix_cons p _)
          have := (P.evo.low q.var (by rw [(value_true _ _).1 hq'.1]; simp) (by simp at hd0; omega)).2.1
          rw [Lit.neg_var, this, hq'.2]
          simp at hd0
          omega
    have hS2 := sem2 hI1.sem (fun α hα => hα.2.1 _ (by simp))
    have hT2 : s2.TInv C := hI1.ti.evo e2 dl2 th2
    have hL2 : s2.LiveInv V := by
      refine ⟨hF2, ?_, e2.cons (s := { s1 with posted := (p.neg :: ds.map Lit.neg) :: s1.posted }) (fun α => by rw [th2]) hL1.live.cons⟩
      have hx := hL1.live.li
      have hdl2 : s2.dl = s1.dl := dl2
      rw [th2, bnd2, hdl2]
      refine V.adv hx (Nat.le_of_eq e2.nv.symm) (fun i q hi hq => e2.tru_keep (s := { s1 with posted := (p.neg :: ds.map Lit.neg) :: s1.posted }) (by omega) hq)
        (fun i q hi hq => e2.tru_low (s := { s1 with posted := (p.neg :: ds.map Lit.neg) :: s1.posted }) (by omega) hq) (fun q hq => ?_) (fun q hq => by rw [q2]; simp [hq])
      have hqa := (value_true _ _).1 hq.1
      rw [hass] at hqa
      by_cases e : q.var = p.neg.var
      · rw [e, upd_self] at hqa
        injection hqa with hqa
        right
        rw [q2, lit_ext e hqa.symm, ← hl0]; simp
      · rw [upd_ne _ _ e] at hqa
        exact Or.inl ((P.inv.wf.tru_iff q).2 ((value_true _ _).2 hqa))
    rcases propLoop_gone (E := E) V _ _ w2 hS2 hT2 hL2 (propFuel_ok _) with hF | ⟨s', b, h3, h4, h5⟩
    · exact .inl hF
    refine .inr ⟨s', b, h3, fun hb => (h4 hb).2.2, ?_⟩
    cases b with
    | true => exact Or.inr (LiveOk.d ⟨(h4 rfl).1, (h4 rfl).2.1⟩)
    | false => exact .inl (h5 rfl)

theorem next_live {E : Env} {d : Bool} (h : s.Inv C) (hL : s.LiveD V d) (he : s.Eff) :
    (∃ e, V.F e ∧ s.next E O = .error e) ∨ ∃ s' b, s.next E O = .ok (s', b) ∧ (b = true → V.Done s'.th) ∧ (s'.dead = true ∨ s'.LiveD V d) := by
  rcases next_gone (E := E) h hL he with h | ⟨s', b, h1, h2, h3⟩
  · exact .inl h
  · exact .inr ⟨s', b, h1, h2, h3.imp_left And.left⟩

theorem checkGo_gone {E : Env} (rl : Nat) (ps : List Lit) : ∀ (s : Sat T), s.Inv C → s.dead = false → s.LiveOk V → s.propQ = [] →
    (∀ l ∈ ps, l.var < s.nvars) →
    (∃ e, V.F e ∧ checkGo E O rl ps s = .error e) ∨ ∃ s' b, checkGo E O rl ps s = .ok (s', b) ∧ (s'.Gone V ∨ s'.LiveOk V) := by
  induction ps with
  | nil => intro s _ _ hF _ _; exact .inr ⟨s, true, rfl, Or.inr hF⟩
  | cons p ps ih =>
    intro s h hdd hF hq hr
    simp only [checkGo]
    rcases assume_gone (E := E) h hF hq (hr p (by simp)) with ⟨e, he, h1⟩ | ⟨u, b, h1, -, h2⟩
    · exact .inl ⟨e, he, by rw [h1]⟩
    have A := assume_spec h h1
    have r := A.facts h
    rw [h1]
    cases b with
    | false =>
      simp only
      rcases h2 with h2 | h2
      · have hroot : u.root = true := by
          by_cases hv : s.value p = some false
          · obtain ⟨-, e⟩ := A.already hv
            rw [e] at h2
            have : s.dead = true := h2.1
            rw [hdd] at this; cases this
          · exact ((A.done hv).bad rfl).2.1
        exact .inr ⟨u, _, by rw [popTo_dead (E := E) r.inv r.queue hroot], Or.inl h2⟩
      · obtain ⟨w, h3, h4⟩ := popTo_live r.inv h2 rl
        rw [h3]
        exact .inr ⟨w, _, rfl, Or.inr h4⟩
    | true =>
      simp only
      have hud : u.dead = false := by
        cases hx : u.dead with
        | false => rfl
        | true =>
          rcases r.bad hx with h3 | h3
          · rw [hdd] at h3; cases h3
          · simp at h3
      have hFu : u.LiveOk V := by
        rcases h2 with h3 | h3
        · have := h3.1
          rw [hud] at this; cases this
        · exact h3
      rcases propagate_gone (E := E) r.inv hFu.live with ⟨e, he, h4⟩ | ⟨y, b2, h4, h5, h6⟩
      · exact .inl ⟨e, he, by rw [h4]⟩
      have d := propagate_spec r.inv h4
      rw [h4]
      simp only
      by_cases hb : b2 = false ∨ y.dl ≤ s.dl
      · rw [if_pos hb]
        cases b2 with
        | false =>
          obtain ⟨x1, x2, -⟩ := d.bad rfl
          refine .inr ⟨y, _, by rw [popTo_dead (E := E) d.inv d.queue x2], h6.imp_right (fun h => h)⟩
        | true =>
          obtain ⟨w, h7, h8⟩ := popTo_live d.inv (h5 rfl).1 rl
          rw [h7]
          exact .inr ⟨w, _, rfl, Or.inr h8⟩
      · rw [if_neg hb]
        have hb2 : b2 = true := by
          cases b2 with
          | true => rfl
          | false => exact absurd (Or.inl rfl) hb
        subst hb2
        refine ih y d.inv (by rw [d.dead rfl]; exact hud) (h5 rfl).1 d.queue ?_
        intro l hl
        rw [d.evo.nv, r.nv]; exact hr l (by simp [hl])

theorem check_gone {E : Env} {ls : List Lit} (h : s.Inv C) (hd : s.dead = false) (hL : s.LiveOk V) (hq : s.propQ = [])
    (hr : ∀ l ∈ ls, l.var < s.nvars) :
    (∃ e, V.F e ∧ s.check E O ls = .error e) ∨ ∃ s' b, s.check E O ls = .ok (s', b) ∧ (s'.Gone V ∨ s'.LiveOk V) := by
  unfold check
  simp only
  rcases checkGo_gone (E := E) s.dl ls s h hd hL hq hr with ⟨e, he, h1⟩ | ⟨w, b, h1, h2⟩
  · exact .inl ⟨e, he, by rw [h1]⟩
  rw [h1]
  cases b with
  | false => exact .inr ⟨w, _, rfl, h2⟩
  | true =>
    simp only
    obtain ⟨L, hL', a⟩ := (checkGo_spec (C := C) ls s w [] true (Above.refl h) (by simp) (fun _ h => h) h1).2 rfl
    have := a.dl
    simp at hL'
    rw [if_neg (by omega)]
    rcases h2 with h2 | h2
    · have h2 := h2.1; rw [a.dead, hd] at h2; cases h2
    · obtain ⟨x, h3, h4⟩ := popTo_live a.inv h2 s.dl
      rw [h3]
      exact .inr ⟨x, _, rfl, Or.inr h4⟩

theorem check_live {E : Env} {ls : List Lit} (h : s.Inv C) (hd : s.dead = false) (hL : s.LiveOk V) (hq : s.propQ = [])
    (hr : ∀ l ∈ ls, l.var < s.nvars) :
    (∃ e, V.F e ∧ s.check E O ls = .error e) ∨ ∃ s' b, s.check E O ls = .ok (s', b) ∧ (s'.dead = true ∨ s'.LiveOk V) := by
  rcases check_gone (E := E) h hd hL hq hr with h | ⟨s', b, h1, h3⟩
  · exact .inl h
  · exact .inr ⟨s', b, h1, h3.imp_left And.left⟩

theorem simplify_gone {E : Env} (h : s.Inv C) (hL : s.LiveInv V) (hr : s.root = true) :
    (∃ e, V.F e ∧ s.simplifyDb E O = .error e) ∨ ∃ s' b, s.simplifyDb E O = .ok (s', b) ∧ (b = true → V.Done s'.th) ∧ (s'.Gone V ∨ s'.LiveOk V) := by
  rcases propagate_gone (E := E) h hL with ⟨e, he, h1⟩ | ⟨u, b, h1, h2, h3⟩
  · refine .inl ⟨e, he, ?_⟩
    unfold simplifyDb
    rw [if_neg (by simp [hr]), h1]
  have d := propagate_spec h h1
  have h0 := (root_iff s).1 hr
  have hd := d.evo.dl
  unfold simplifyDb
  rw [if_neg (by simp [hr]), h1]
  cases b with
  | false => exact .inr ⟨u, _, rfl, by simp, h3⟩
  | true =>
    obtain ⟨hu, hdn⟩ := h2 rfl
    obtain ⟨r1, r2, r3, x, h4, h5, S⟩ := simplify_core d.inv.wf ((root_iff u).2 (by omega)) d.queue hu.live.fix
    simp only [h4, h5]
    have e := S.fr
    refine .inr ⟨_, _, rfl, fun _ => by rw [e]; exact hdn, Or.inr ?_⟩
    have hfix := S.fix
    generalize ({ x with constrs := r2 } : Sat T) = w at e hfix
    have hudl : u.dl = 0 := by omega
    have ht : w.tru = u.tru := by rw [e]; rfl
    have hwdl : w.dl = u.dl := by rw [e]; rfl
    refine ⟨⟨hfix, ?_, fun i hi => by omega⟩, ?_⟩
    · rw [ht, hwdl, e]; exact hu.live.li
    · obtain ⟨α, a, b⟩ := hu.con
      exact ⟨α, by rw [e]; exact a, by rw [ht, hwdl]; exact b⟩

theorem simplify_live {E : Env} (h : s.Inv C) (hL : s.LiveInv V) (hr : s.root = true) :
    (∃ e, V.F e ∧ s.simplifyDb E O = .error e) ∨ ∃ s' b, s.simplifyDb E O = .ok (s', b) ∧ (b = true → V.Done s'.th) ∧ (s'.dead = true ∨ s'.LiveOk V) := by
  rcases simplify_gone (E := E) h hL hr with h | ⟨s', b, h1, h2, h3⟩
  · exact .inl h
  · exact .inr ⟨s', b, h1, h2, h3.imp_left And.left⟩

/-- Every legal call succeeds (except for the permitted failures) and leaves a live state. -/
theorem step_gone {E : Env} {op : Op} {d : Bool} (hI : s.Inv C) (hL : s.LiveD V d) (hl : s.Legal op)
    (hop : match op with
      | .assume _ | .check _ => d = false
      | .bind _ _ => False
      | _ => True) :
    (∃ e, V.F e ∧ s.step E O op = .error e) ∨ ∃ s' out, s.step E O op = .ok (s', out) ∧
      (match op with
        | .propagate | .assume _ | .next | .simplify => out = .bool true → V.Done s'.th
        | _ => True) ∧
      (s'.Gone V ∨ s'.LiveD V (match op with
        | .propagate | .simplify => false
        | _ => d)) := by
  obtain ⟨hd, hl⟩ := hl
  have hw := hI.wf
  cases op with
  | newVar => exact .inr ⟨_, _, rfl, trivial, Or.inr (newVar_live hI hL)⟩
  | newClause ls =>
    obtain ⟨s', b, h1⟩ := newClause_ok (E := E) hl.1 hl.2
    exact .inr ⟨s', .bool b, by simp only [step, h1]; rfl, trivial, Or.inr ((newClause_spec hI h1).rstep.live (newClause_spec hI h1).bounds (newClause_spec hI h1).fix (newClause_quiet h1) hw hl.1 hL)⟩
  | newEq a b =>
    have : ∃ s' r, s.newEq E a b = .ok (s', r) := by
      by_cases hs : a.sign = b.sign ∨ (s.value a = none ↔ s.value b = none)
      · obtain ⟨s', r, h1, -⟩ := newEq_spec (E := E) hI hl.1 hl.2 hs
        exact ⟨s', r, h1⟩
      · have hin : s.inRange [a, b] = true := by simpa [inRange] using hl.2
        unfold newEq
        rw [if_neg (by simp [hl.1]), if_neg (by simp [hin])]
        by_cases e : a = b
        · rw [if_pos e]; exact ⟨_, _, rfl⟩
        · rw [if_neg e]
          cases hva : s.value a with
          | none =>
            cases hvb : s.value b with
            | none => exact absurd (Or.inr (by simp [hva, hvb])) hs
            | some y => cases y <;> exact ⟨_, _, rfl⟩
          | some x =>
            cases hvb : s.value b with
            | none => cases x <;> exact ⟨_, _, rfl⟩
            | some y => exact absurd (Or.inr (by simp [hva, hvb])) hs
    obtain ⟨s', r, h1⟩ := this
    exact .inr ⟨s', .lit r, by simp only [step, h1]; rfl, trivial, Or.inr ((newEq_defd hI h1).live (newEq_quiet h1) hw hl.1 hL)⟩
  | newConj ls =>
    obtain ⟨s', r, h1, h2⟩ := newConj_spec (E := E) hI hl.1 hl.2
    exact .inr ⟨s', .lit r, by simp only [step, h1]; rfl, trivial, Or.inr (h2.defd.live (newConj_quiet h1) hw hl.1 hL)⟩
  | newDisj ls =>
    obtain ⟨s', r, h1, h2⟩ := newDisj_spec (E := E) hI hl.1 hl.2
    exact .inr ⟨s', .lit r, by simp only [step, h1]; rfl, trivial, Or.inr (h2.defd.live (newDisj_quiet h1) hw hl.1 hL)⟩
  | newAMO ls =>
    obtain ⟨s', r, h1, -⟩ := newAMOGo_spec (E := E) (C := C) _ s ls hI hl.1 hl.2 (Nat.lt_succ_self _)
    have h1 : s.newAMO E ls = .ok (s', r) := h1
    exact .inr ⟨s', .lit r, by simp only [step, h1]; rfl, trivial, Or.inr ((newAMO_defd hI h1).live (newAMOGo_quiet _ h1) hw hl.1 hL)⟩
  | newEXO ls =>
    obtain ⟨s', r, h1, -⟩ := newEXO_spec (E := E) hI hl.1 hl.2
    exact .inr ⟨s', .lit r, by simp only [step, h1]; rfl, trivial, Or.inr ((newEXO_defd hI h1).live (newEXO_quiet h1) hw hl.1 hL)⟩
  | assume p =>
    rcases assume_gone (E := E) hI ⟨hL.live, hL.con hop hl.1⟩ hl.1 hl.2 with ⟨e, he, h1⟩ | ⟨s', b, h1, h3, h2⟩
    · exact .inl ⟨e, he, by simp only [step, h1]; rfl⟩
    exact .inr ⟨s', .bool b, by simp only [step, h1]; rfl, fun e => h3 (by injection e), h2.imp_right LiveOk.d⟩
  | pop =>
    obtain ⟨s', h1, h2⟩ := pop_live hI hL.live hl
    exact .inr ⟨s', .unit, by simp only [step, h1]; rfl, trivial, Or.inr h2.d⟩
  | propagate =>
    rcases propagate_gone (E := E) hI hL.live with ⟨e, he, h1⟩ | ⟨s', b, h1, h3, h2⟩
    · exact .inl ⟨e, he, by simp only [step, h1]; rfl⟩
    exact .inr ⟨s', .bool b, by simp only [step, h1]; rfl, fun e => (h3 (by injection e)).2, h2.imp_right LiveOk.d⟩
  | next =>
    rcases next_gone (E := E) hI hL hl with ⟨e, he, h1⟩ | ⟨s', b, h1, h3, h2⟩
    · exact .inl ⟨e, he, by simp only [step, h1]; rfl⟩
    exact .inr ⟨s', .bool b, by simp only [step, h1]; rfl, fun e => h3 (by injection e), h2⟩
  | check ls =>
    rcases check_gone (E := E) hI hd ⟨hL.live, hL.con hop hl.1⟩ hl.1 hl.2 with ⟨e, he, h1⟩ | ⟨s', b, h1, h2⟩
    · exact .inl ⟨e, he, by simp only [step, h1]; rfl⟩
    exact .inr ⟨s', .bool b, by simp only [step, h1]; rfl, trivial, h2.imp_right LiveOk.d⟩
  | simplify =>
    rcases simplify_gone (E := E) hI hL.live hl with ⟨e, he, h1⟩ | ⟨s', b, h1, h3, h2⟩
    · exact .inl ⟨e, he, by simp only [step, h1]; rfl⟩
    exact .inr ⟨s', .bool b, by simp only [step, h1]; rfl, fun e => h3 (by injection e), h2.imp_right LiveOk.d⟩
  | bind v i => exact hop.elim
  | listen v l =>
    refine .inr ⟨_, _, rfl, trivial, Or.inr ?_⟩
    unfold listen
    split
    · exact ⟨⟨⟨hL.live.fix.nd, hL.live.fix.fx⟩, hL.live.li, hL.live.cons⟩, hL.con⟩
    · exact hL

theorem step_live {E : Env} {op : Op} {d : Bool} (hI : s.Inv C) (hL : s.LiveD V d) (hl : s.Legal op)
    (hop : match op with
      | .assume _ | .check _ => d = false
      | .bind _ _ => False
      | _ => True) :
    (∃ e, V.F e ∧ s.step E O op = .error e) ∨ ∃ s' out, s.step E O op = .ok (s', out) ∧
      (match op with
        | .propagate | .assume _ | .next | .simplify => out = .bool true → V.Done s'.th
        | _ => True) ∧
      (s'.dead = true ∨ s'.LiveD V (match op with
        | .propagate | .simplify => false
        | _ => d)) := by
  rcases step_gone (E := E) hI hL hl hop with h | ⟨s', out, h1, h2, h3⟩
  · exact .inl h
  · exact .inr ⟨s', out, h1, h2, h3.imp_left And.left⟩

end Sat
end Semitone
