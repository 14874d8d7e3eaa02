import Verif.Sat.Legal

/-!
# What one call, and any continuation of a history, can change
-/
namespace Semitone
namespace Sat
variable {T : Type}

/-- What can only grow along a history. -/
structure Grows {O : TheoryOps T} (C : Contract O) (s s' : Sat T) : Prop where
  posted : ∀ D ∈ s.posted, D ∈ s'.posted
  th : ∀ α, C.Th s'.th α → C.Th s.th α
  exprs : ∀ e ∈ s.exprs, e ∈ s'.exprs
  nv : s.nvars ≤ s'.nvars
  dead : s.dead = true → s'.dead = true

theorem Grows.refl {O : TheoryOps T} (C : Contract O) (s : Sat T) : Grows C s s := ⟨fun _ h => h, fun _ h => h, fun _ h => h, Nat.le_refl _, id⟩

theorem Grows.trans {O : TheoryOps T} {C : Contract O} {s1 s2 s3 : Sat T} (h1 : Grows C s1 s2) (h2 : Grows C s2 s3) : Grows C s1 s3 :=
  ⟨fun D h => h2.posted D (h1.posted D h), fun α h => h1.th α (h2.th α h), fun e h => h2.exprs e (h1.exprs e h),
   Nat.le_trans h1.nv h2.nv, fun h => h2.dead (h1.dead h)⟩

theorem Grows.sol {O : TheoryOps T} {C : Contract O} {s s' : Sat T} (h : Grows C s s') {α} (hα : s'.Sol C.Th α) : s.Sol C.Th α :=
  ⟨hα.1, fun D hD => hα.2.1 D (h.posted D hD), h.th α hα.2.2⟩

theorem Defd.grows {O : TheoryOps T} {C : Contract O} {s s' : Sat T} (d : Defd C s s') : Grows C s s' :=
  ⟨d.rstep.posted, fun α h => by rw [← d.rstep.th]; exact h, d.rstep.exprs, d.rstep.nv, d.dead⟩

theorem step_grows {E : Env} {O : TheoryOps T} {C : Contract O} {s s' : Sat T} {op : Op} {out} (h : s.RInv C)
    (hsf : op = .simplify → ∀ u, s.propagate E O = .ok (u, true) → u.Fix u.okQ) (hs : s.step E O op = .ok (s', out)) : Grows C s s' := by
  cases op with
  | newVar =>
    injection hs with hs; injection hs with e1 e2
    exact e1 ▸ (newVar_defd h.inv).grows
  | newClause ls =>
    obtain ⟨⟨u, b⟩, h1, h2⟩ := map_ok hs
    injection h2 with e1 e2; subst e1
    have hc := newClause_spec h.inv h1
    refine ⟨hc.rstep.posted, fun α h => by rw [← hc.rstep.th]; exact h, hc.rstep.exprs, hc.rstep.nv, ?_⟩
    intro hx
    cases b with
    | false => exact (hc.bad rfl).2
    | true => rw [(hc.good rfl).1]; exact hx
  | newEq a b =>
    obtain ⟨⟨u, r⟩, h1, h2⟩ := map_ok hs
    injection h2 with e1 e2
    exact e1 ▸ (newEq_defd h.inv h1).grows
  | newConj ls =>
    obtain ⟨⟨u, r⟩, h1, h2⟩ := map_ok hs
    injection h2 with e1 e2
    exact e1 ▸ (newConj_defd h.inv h1).grows
  | newDisj ls =>
    obtain ⟨⟨u, r⟩, h1, h2⟩ := map_ok hs
    injection h2 with e1 e2
    exact e1 ▸ (newDisj_defd h.inv h1).grows
  | newAMO ls =>
    obtain ⟨⟨u, r⟩, h1, h2⟩ := map_ok hs
    injection h2 with e1 e2
    exact e1 ▸ (newAMO_defd h.inv h1).grows
  | newEXO ls =>
    obtain ⟨⟨u, r⟩, h1, h2⟩ := map_ok hs
    injection h2 with e1 e2
    exact e1 ▸ (newEXO_defd h.inv h1).grows
  | assume p =>
    obtain ⟨⟨u, b⟩, h1, h2⟩ := map_ok hs
    injection h2 with e1 e2; subst e1
    have a := (assume_spec h.inv h1).facts h.inv
    exact ⟨fun D hD => by rw [a.posted]; exact hD, fun α => (a.th α).1, fun e he => by rw [a.exprs]; exact he, by rw [a.nv], a.dead⟩
  | pop =>
    obtain ⟨u, h1, h2⟩ := map_ok hs
    injection h2 with e1 e2; subst e1
    have a := pop_inv h.inv h1
    exact ⟨fun D hD => by rw [a.evo.posted]; exact hD, fun α => (a.th α).1, fun e he => by rw [a.evo.exprs]; exact he, by rw [a.evo.nv],
      fun hx => by rw [a.dead]; exact hx⟩
  | propagate =>
    obtain ⟨⟨u, b⟩, h1, h2⟩ := map_ok hs
    injection h2 with e1 e2; subst e1
    have a := propagate_spec h.inv h1
    refine ⟨fun D hD => by rw [a.evo.posted]; exact hD, fun α => (a.th α).1, fun e he => by rw [a.evo.exprs]; exact he, by rw [a.evo.nv], ?_⟩
    intro hx
    cases b with
    | true => rw [a.dead rfl]; exact hx
    | false => exact (a.bad rfl).1
  | next =>
    obtain ⟨⟨u, b⟩, h1, h2⟩ := map_ok hs
    injection h2 with e1 e2; subst e1
    rcases next_spec h.inv h1 with ⟨-, h3, -⟩ | ⟨-, a⟩
    · have h3 : s' = s := h3
      rw [h3]; exact Grows.refl C s
    · exact ⟨fun D hD => by rw [a.posted]; simp [hD], fun α => (a.th α).1, fun e he => by rw [a.exprs]; exact he, by rw [a.nv], a.dead⟩
  | check ls =>
    obtain ⟨⟨u, b⟩, h1, h2⟩ := map_ok hs
    injection h2 with e1 e2; subst e1
    have a := check_spec h.inv h1
    exact ⟨fun D hD => by rw [a.posted]; exact hD, fun α => (a.th α).1, fun e he => by rw [a.exprs]; exact he, by rw [a.nv], a.dead⟩
  | simplify =>
    obtain ⟨⟨u, b⟩, h1, h2⟩ := map_ok hs
    injection h2 with e1 e2; subst e1
    have a := simplifyDb_spec h.inv (hsf rfl) h1
    exact ⟨fun D hD => by rw [a.posted]; exact hD, fun α => (a.th α).1, fun e he => by rw [a.exprs]; exact he, by rw [a.nv], a.dead⟩
  | bind v i =>
    injection hs with hs; injection hs with e1 e2; rw [← e1]
    exact ⟨fun _ h => h, fun _ h => h, fun _ h => h, Nat.le_refl _, id⟩
  | listen v l =>
    injection hs with hs; injection hs with e1 e2; rw [← e1]
    unfold listen
    split
    · exact ⟨fun _ h => h, fun _ h => h, fun _ h => h, Nat.le_refl _, id⟩
    · exact Grows.refl C s

/-- `s'` is reached from `s` by some continuation of the history. -/
inductive Later (E : Env) {O : TheoryOps T} (C : Contract O) (s : Sat T) : Sat T → Prop
  | refl : Later E C s s
  | step {s' s'' : Sat T} {op out} : Later E C s s' → (op = .simplify → ∀ u, s'.propagate E O = .ok (u, true) → u.Fix u.okQ) →
      s'.step E O op = .ok (s'', out) → Later E C s s''
  | theory {s' : Sat T} {t : T} : Later E C s s' → (∀ α, C.Th t α → C.Th s'.th α) → C.TI t s'.dl s'.tru → Later E C s { s' with th := t }

theorem Later.reach {E : Env} {O : TheoryOps T} {C : Contract O} {s s' : Sat T} (h : Later E C s s') (hs : Reach E C s) : Reach E C s' := by
  induction h with
  | refl => exact hs
  | step _ hf hst ih => exact .step ih hf hst
  | theory _ h1 h2 ih => exact .theory ih h1 h2

theorem Later.grows {E : Env} {O : TheoryOps T} {C : Contract O} {s s' : Sat T} (h : Later E C s s') (hs : Reach E C s) : Grows C s s' := by
  induction h with
  | refl => exact Grows.refl C s
  | step hl hf hst ih => exact ih.trans (step_grows (hl.reach hs).rinv hf hst)
  | theory hl h1 _ ih => exact ih.trans ⟨fun _ h => h, h1, fun _ h => h, Nat.le_refl _, id⟩

/-- `s'` is reached from `s` by a legal continuation. -/
inductive LLater (E : Env) (s : PSat) : PSat → Prop
  | refl : LLater E s s
  | step {s' s'' : PSat} {op out} : LLater E s s' → s'.Legal op → s'.step E noTheory op = .ok (s'', out) → LLater E s s''
  | copy {s' s'' : PSat} : LLater E s s' → s'.dead = false → s'.propQ = [] → (∀ d ∈ s'.decisions, s'.value d = some true) →
      s'.copy E noTheory = .ok s'' → LLater E s s''

theorem LLater.reach {E : Env} {s s' : PSat} (h : LLater E s s') (hs : LReach E s) : LReach E s' := by
  induction h with
  | refl => exact hs
  | step _ hf hst ih => exact .step ih hf hst
  | copy _ h1 h2 h3 h4 ih => exact .copy ih h1 h2 h3 h4

/-- A legal state that is not definitively inconsistent is at a fixpoint. -/
theorem LInv.fixq {s : PSat} (h : s.LInv) (hd : s.dead = false) : s.Fix s.okQ := by
  rcases h.fix with h1 | h1
  · rw [hd] at h1; cases h1
  · exact h1

theorem LInv.legal_fix {E : Env} {s : PSat} (h : s.LInv) (hd : s.dead = false) : ∀ u, s.propagate E noTheory = .ok (u, true) → u.Fix u.okQ := by
  intro u hu
  obtain ⟨v, b, h3, h4, -⟩ := propagate_total' (E := E) h.rinv.inv (h.fixq hd)
  rw [h3] at hu
  injection hu with hu; injection hu with e3 e4
  subst e3 e4; exact h4 rfl

theorem LLater.grows {E : Env} {s s' : PSat} (h : LLater E s s') (hs : LReach E s) : Grows noContract s s' := by
  induction h with
  | refl => exact Grows.refl noContract s
  | @step s' s'' op out hl hf hst ih =>
    have hi := (hl.reach hs).linv
    exact ih.trans (step_grows hi.rinv (fun _ => hi.legal_fix hf.1) hst)
  | @copy s' s'' hl hd hq hdec hc ih =>
    have hi := (hl.reach hs).linv
    obtain ⟨s1, h1, h2⟩ := copy_spec (E := E) hi.rinv.inv (hi.fixq hd) hq hdec
    rw [hc] at h1
    injection h1 with h1; subst h1
    exact ih.trans ⟨fun D hD => by rw [h2.posted]; simp [hD], fun _ _ => trivial, fun e he => by rw [h2.exprs]; exact he,
      by rw [h2.nv], fun hx => by rw [h2.dead]; exact hx⟩

end Sat
end Semitone
