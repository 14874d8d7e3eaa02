import Verif.Sat.Hist

/-!
# Legal histories of the propositional core: every call succeeds and the clauses stay at a fixpoint
-/
namespace Semitone
namespace Sat

/-- Every decision on the stack was unassigned when it was taken: it is true, at the level it opened. -/
def Eff {T : Type} (s : Sat T) : Prop := ∀ p ds, (p :: ds) <:+ s.decisions → s.value p = some true ∧ s.level p.var = ds.length + 1

/-- The documented preconditions of the calls: existing variables, constraints at root level (`assert(root_level())`), nothing
queued when a decision is taken, something to pop, no call after a definitive inconsistency, `next` only on decisions that
really were decisions. -/
def Legal {T : Type} (s : Sat T) (op : Op) : Prop :=
  s.dead = false ∧
  match op with
  | .newVar => True
  | .newClause ls | .newConj ls | .newDisj ls | .newAMO ls | .newEXO ls => s.root = true ∧ ∀ l ∈ ls, l.var < s.nvars
  | .newEq a b => s.root = true ∧ ∀ l ∈ [a, b], l.var < s.nvars
  | .assume p => s.propQ = [] ∧ p.var < s.nvars
  | .pop => s.root = false
  | .propagate => True
  | .next => s.Eff
  | .check ls => s.propQ = [] ∧ ∀ l ∈ ls, l.var < s.nvars
  | .simplify => s.root = true
  | .bind _ _ => True
  | .listen v _ => v < s.nvars

/-- States reached by legal histories, including copies (`sat_stack::push`) of cores whose decisions all hold. -/
inductive LReach (E : Env) : PSat → Prop
  | init : LReach E (init ())
  | step {s s' : PSat} {op out} : LReach E s → s.Legal op → s.step E noTheory op = .ok (s', out) → LReach E s'
  | copy {s s' : PSat} : LReach E s → s.dead = false → s.propQ = [] → (∀ d ∈ s.decisions, s.value d = some true) →
      s.copy E noTheory = .ok s' → LReach E s'

/-- Invariant of the legal histories. -/
structure LInv (s : PSat) : Prop where
  rinv : s.RInv noContract
  fix : s.dead = true ∨ s.Fix s.okQ

theorem Fix.pushed {T : Type} {O : TheoryOps T} {s : Sat T} (h : s.Fix s.okQ) (p : Lit) : (s.pushed O p).Fix (s.pushed O p).okQ := ⟨h.nd, h.fx⟩

/-- The tail of `assume` after its assertions. -/
def assumeGo {T : Type} (E : Env) (O : TheoryOps T) (s : Sat T) (p : Lit) : Except Err (Sat T × Bool) :=
  match (s.pushed O p).enqueue p none with
  | (s, true) => s.propagate E O
  | (s, false) => .ok (s, false)

theorem assume_total {E : Env} {s : PSat} {p : Lit} (h : s.Inv noContract) (hF : s.Fix s.okQ) (hq : s.propQ = []) (hp : p.var < s.nvars) :
    ∃ s' b, s.assume E noTheory p = .ok (s', b) ∧ (s'.dead = true ∨ s'.Fix s'.okQ) := by
  have hi : s.inRange [p] = true := by simp [inRange, hp]
  have hpush := h.pushed (O := noTheory) hq p
  have heq : s.assume E noTheory p = s.assumeGo E noTheory p := by
    unfold assume
    rw [if_neg (by simp [hi]), if_neg (by simp [hq])]
    rfl
  rw [heq]
  unfold assumeGo
  have hv : (s.pushed noTheory p).value p = s.value p := rfl
  match hvp : s.value p with
  | some false =>
    rw [enqueue_some (by rw [hv]; exact hvp)]
    exact ⟨_, _, rfl, Or.inr (hF.pushed p)⟩
  | some true =>
    rw [enqueue_some (by rw [hv]; exact hvp)]
    simp only
    obtain ⟨s', b, h1, h2, h3⟩ := propagate_total (E := E) hpush.wf (hF.pushed (O := noTheory) p)
    refine ⟨s', b, h1, ?_⟩
    cases b with
    | true => exact Or.inr (h3 rfl)
    | false => exact Or.inl ((propagate_spec hpush h1).bad rfl).1
  | none =>
    rw [enqueue_none (by rw [hv]; exact hvp)]
    simp only
    have hw2 := hpush.wf.enq (c := none) (p := p) (by rw [hv]; exact hvp) hp (fun x hx => by cases hx) (fun _ => Or.inr rfl)
    obtain ⟨s', b, h1, h2, h3⟩ := propagate_total (E := E) hw2 ((hF.pushed (O := noTheory) p).enq (by rw [hv]; exact hvp))
    refine ⟨s', b, h1, ?_⟩
    cases b with
    | true => exact Or.inr (h3 rfl)
    | false =>
      obtain ⟨s1, _, _, _, hf⟩ := h2.step
      obtain ⟨e, _⟩ := hf rfl
      left; rw [e]

theorem pop_total {s : PSat} (h : s.Inv noContract) (hr : s.root = false) :
    ∃ s', s.pop noTheory = .ok s' := by
  have hd : s.dl ≠ 0 := by
    intro h0; rw [(root_iff s).2 h0] at hr; cases hr
  exact pop_ok h.wf (h.qr hd) hd ⟨s.th, rfl⟩

theorem popTo_total {s : PSat} (h : s.Inv noContract) (hq : s.propQ = []) (n : Nat) : ∃ s', popTo noTheory n s = .ok s' :=
  popLevels_ok _ h.wf hq (Nat.sub_le _ _) ⟨_, noTheory_popTh _ _⟩

theorem propagate_total' {E : Env} {s : PSat} (h : s.Inv noContract) (hF : s.Fix s.okQ) :
    ∃ s' b, s.propagate E noTheory = .ok (s', b) ∧ (b = true → s'.Fix s'.okQ) ∧ (s'.dead = true ∨ s'.Fix s'.okQ) := by
  obtain ⟨s', b, h1, h2, h3⟩ := propagate_total (E := E) h.wf hF
  refine ⟨s', b, h1, h3, ?_⟩
  cases b with
  | true => exact Or.inr (h3 rfl)
  | false => exact Or.inl ((propagate_spec h h1).bad rfl).1

theorem Eff.nodup {T : Type} {s : Sat T} (h : s.Eff) : s.decisions.Nodup := by
  have : ∀ l : List Lit, l <:+ s.decisions → l.Nodup := by
    intro l
    induction l with
    | nil => intro _; exact List.nodup_nil
    | cons p ds ih =>
      intro hl
      rw [List.nodup_cons]
      refine ⟨?_, ih ((List.suffix_cons p ds).trans hl)⟩
      intro hm
      obtain ⟨tr, htr⟩ := mem_suffix hm
      have h1 := (h p ds hl).2
      have h2 := (h p tr (htr.trans ((List.suffix_cons p ds).trans hl))).2
      have := suffix_len htr
      omega
  exact this _ (List.suffix_refl _)

theorem next_total {E : Env} {s : PSat} (h : s.Inv noContract) (hF : s.Fix s.okQ) (he : s.Eff) :
    ∃ s' b, s.next E noTheory = .ok (s', b) ∧ (s'.dead = true ∨ s'.Fix s'.okQ) := by
  unfold next
  by_cases hr : s.root = true
  · rw [if_pos hr]; exact ⟨_, _, rfl, Or.inr hF⟩
  rw [if_neg hr]
  have hr' : s.root = false := by simpa using hr
  obtain ⟨s1, h1⟩ := pop_total h hr'
  simp only [h1]
  have P := pop_inv h h1
  have hd0 : s.dl = s.decisions.length := h.wf.dec.symm
  have hdl := P.dl
  match hdec : s.decisions with
  | [] => rw [hdec] at hd0; simp at hd0; omega
  | p :: ds =>
    rw [hdec] at hd0
    simp at hd0
    have hp := he p ds (by rw [hdec]; exact List.suffix_refl _)
    have hp0 : s1.value p = none := by
      cases hx : s1.value p with
      | none => rfl
      | some b =>
        have a := P.cut.level_some hx
        have b := P.inv.wf.level_le p.var
        omega
    have hds : ∀ q ∈ ds, s1.value q = some true ∧ ∃ tr, (q :: tr) <:+ ds := by
      intro q hq
      obtain ⟨tr, htr⟩ := mem_suffix hq
      have hq' := he q tr (by rw [hdec]; exact htr.trans (List.suffix_cons p ds))
      have hlt := suffix_len htr
      refine ⟨?_, tr, htr⟩
      have := P.evo.low q.var (by rw [(value_true _ _).1 hq'.1]; simp) (by omega)
      rw [value_true, this.1]; exact (value_true _ _).1 hq'.1
    have hneg : ∀ q ∈ ds.map Lit.neg, s1.value q = some false := by
      intro q hq
      obtain ⟨x, hx, rfl⟩ := List.mem_map.1 hq
      exact (value_neg_false s1 x).2 (hds x hx).1
    have hrange : ∀ l ∈ p.neg :: ds.map Lit.neg, l.var < s1.nvars := by
      intro l hl
      rw [P.evo.nv]
      rcases List.mem_cons.1 hl with rfl | hl
      · rw [Lit.neg_var]; exact h.wf.rng _ (by rw [(value_true _ _).1 hp.1]; simp)
      · have := hneg l hl
        rw [← P.evo.nv]
        exact P.inv.wf.rng _ (by rw [(value_false _ _).1 this]; simp)
    have hp0' : s1.value p.neg = none := by rw [value_none] at hp0 ⊢; rw [Lit.neg_var]; exact hp0
    obtain ⟨s2, h2⟩ := record_ok (E := E) (s := { s1 with posted := s.decisions.map Lit.neg :: s1.posted }) (l0 := p.neg) (rest := ds.map Lit.neg)
      hrange hp0' hneg (by
        intro e
        show s1.root = true
        rw [root_iff]
        have : ds.length = 0 := by simpa using congrArg List.length e
        omega)
    have hng : (p :: ds).map Lit.neg = p.neg :: ds.map Lit.neg := rfl
    rw [hdec, hng] at h2
    rw [hng, h2]
    simp only
    have hwp : ({ s1 with posted := (p.neg :: ds.map Lit.neg) :: s1.posted } : PSat).WF noEx :=
      P.inv.wf.congr rfl rfl rfl rfl rfl rfl rfl rfl rfl rfl rfl rfl
    obtain ⟨l0, rest, hl, -, -, -, w2, e2, dl2, th2, q2, tr2, dead2, bnd2, dec2, val2, sem2, fix2, sub2, lnk2⟩ := record_spec noContract hwp h2
    have hF1 := P.fix hF
    injection hl with hl0 hl1
    have hF2 : s2.Fix s2.okQ := by
      refine fix2 ⟨hF1.nd, hF1.fx⟩ ?_ ?_
      · rw [← hl1]
        have := he.nodup
        rw [hdec, List.nodup_cons] at this
        exact List.Pairwise.map _ (fun a b (hab : a ≠ b) (e : a.neg = b.neg) => absurd (by have h9 := congrArg Lit.neg e; rwa [Lit.neg_neg, Lit.neg_neg] at h9) hab) this.2
      · match hds' : ds with
        | [] => left; rw [← hl1]; rfl
        | q :: tr =>
          right
          rw [← hl1]
          refine ⟨q.neg, by simp, ?_⟩
          show s1.level q.neg.var = s1.dl
          have hq' := he q tr (by rw [hdec]; exact List.suffix_cons p _)
          have := (P.evo.low q.var (by rw [(value_true _ _).1 hq'.1]; simp) (by simp at hd0; omega)).2.1
          rw [Lit.neg_var, this, hq'.2]
          simp at hd0
          omega
    obtain ⟨s', b, h3, h4, h5⟩ := propagate_total (E := E) w2 hF2
    refine ⟨s', b, h3, ?_⟩
    cases b with
    | true => exact Or.inr (h5 rfl)
    | false =>
      obtain ⟨s5, _, _, _, hf⟩ := h4.step
      obtain ⟨e, _⟩ := hf rfl
      left; rw [e]

/-- Popping keeps the fixpoint. -/
theorem popTo_fix {s s' : PSat} {n : Nat} (h : s.Inv noContract) (hq : s.propQ = []) (hp : popTo noTheory n s = .ok s')
    (hF : s.dead = true ∨ s.Fix s.okQ) : s'.dead = true ∨ s'.Fix s'.okQ := by
  have P := popLevels_inv h hq hp
  rcases hF with h1 | h1
  · left; rw [P.dead]; exact h1
  · exact Or.inr (P.fix h1)

theorem checkGo_total {E : Env} (rl : Nat) (ps : List Lit) : ∀ (s : PSat), s.Inv noContract → s.dead = false → s.Fix s.okQ → s.propQ = [] →
    (∀ l ∈ ps, l.var < s.nvars) → ∃ s' b, checkGo E noTheory rl ps s = .ok (s', b) ∧ (s'.dead = true ∨ s'.Fix s'.okQ) := by
  induction ps with
  | nil => intro s _ _ hF _ _; exact ⟨s, true, rfl, Or.inr hF⟩
  | cons p ps ih =>
    intro s h hdd hF hq hr
    simp only [checkGo]
    obtain ⟨u, b, h1, h2⟩ := assume_total (E := E) h hF hq (hr p (by simp))
    have r := ((assume_spec h h1).facts h)
    rw [h1]
    cases b with
    | false =>
      simp only
      obtain ⟨w, h3⟩ := popTo_total r.inv r.queue rl
      rw [h3]
      exact ⟨w, _, rfl, popTo_fix r.inv r.queue h3 h2⟩
    | true =>
      simp only
      have hud : u.dead = false := by
        cases hx : u.dead with
        | false => rfl
        | true =>
          rcases r.bad hx with h3 | h3
          · rw [hdd] at h3; cases h3
          · simp at h3
      have hFu : u.Fix u.okQ := by
        rcases h2 with h3 | h3
        · rw [hud] at h3; cases h3
        · exact h3
      obtain ⟨y, b2, h4, h5, h6⟩ := propagate_total' (E := E) r.inv hFu
      have d := propagate_spec r.inv h4
      rw [h4]
      simp only
      by_cases hb : b2 = false ∨ y.dl ≤ s.dl
      · rw [if_pos hb]
        obtain ⟨w, h7⟩ := popTo_total d.inv d.queue rl
        rw [h7]
        exact ⟨w, _, rfl, popTo_fix d.inv d.queue h7 h6⟩
      · rw [if_neg hb]
        have hb2 : b2 = true := by
          cases b2 with
          | true => rfl
          | false => exact absurd (Or.inl rfl) hb
        subst hb2
        refine ih y d.inv (by rw [d.dead rfl]; exact hud) (h5 rfl) d.queue ?_
        intro l hl
        rw [d.evo.nv, r.nv]; exact hr l (by simp [hl])

theorem check_total {E : Env} {s : PSat} {ls : List Lit} (h : s.Inv noContract) (hd : s.dead = false) (hF : s.Fix s.okQ) (hq : s.propQ = [])
    (hr : ∀ l ∈ ls, l.var < s.nvars) : ∃ s' b, s.check E noTheory ls = .ok (s', b) ∧ (s'.dead = true ∨ s'.Fix s'.okQ) := by
  unfold check
  simp only
  obtain ⟨w, b, h1, h2⟩ := checkGo_total (E := E) s.dl ls s h hd hF hq hr
  rw [h1]
  cases b with
  | false => exact ⟨w, _, rfl, h2⟩
  | true =>
    simp only
    obtain ⟨L, hL, a⟩ := (checkGo_spec (C := noContract) ls s w [] true (Above.refl h) (by simp) (fun _ h => h) h1).2 rfl
    have := a.dl
    simp at hL
    rw [if_neg (by omega)]
    obtain ⟨x, h3⟩ := popTo_total a.inv (a.queue hq) s.dl
    rw [h3]
    exact ⟨x, _, rfl, popTo_fix a.inv (a.queue hq) h3 h2⟩

theorem simplify_total {E : Env} {s : PSat} (h : s.Inv noContract) (hF : s.Fix s.okQ) (hr : s.root = true) :
    ∃ s' b, s.simplifyDb E noTheory = .ok (s', b) ∧ (s'.dead = true ∨ s'.Fix s'.okQ) := by
  obtain ⟨u, b, h1, h2, h3⟩ := propagate_total' (E := E) h hF
  obtain ⟨s', h4⟩ := simplifyDb_ok h hr h1 h2
  refine ⟨s', b, h4, ?_⟩
  have S := simplifyDb_spec (C := noContract) h (fun v hv => by
    rw [h1] at hv; injection hv with hv; injection hv with e1 e2; subst e1 e2; exact h2 rfl) h4
  cases b with
  | true => exact Or.inr (S.fix rfl)
  | false => exact Or.inl (S.ans rfl).1

theorem Defd.lfix {s s' : PSat} (d : Defd noContract s s') (h : s.Fix s.okQ) : s'.dead = true ∨ s'.Fix s'.okQ := Or.inr (d.fix h)

/-- Every legal call succeeds. -/
theorem step_total {E : Env} {s : PSat} {op : Op} (h : s.LInv) (hl : s.Legal op) :
    ∃ s' out, s.step E noTheory op = .ok (s', out) ∧ (s'.dead = true ∨ s'.Fix s'.okQ) := by
  obtain ⟨hd, hl⟩ := hl
  have hI := h.rinv.inv
  have hF : s.Fix s.okQ := by
    rcases h.fix with h1 | h1
    · rw [hd] at h1; cases h1
    · exact h1
  cases op with
  | newVar => exact ⟨_, _, rfl, (newVar_defd hI).lfix hF⟩
  | newClause ls =>
    obtain ⟨s', b, h1⟩ := newClause_ok (E := E) hl.1 hl.2
    exact ⟨s', .bool b, by simp only [step, h1]; rfl, Or.inr ((newClause_spec hI h1).fix hF)⟩
  | newEq a b =>
    have : ∃ s' r, s.newEq E a b = .ok (s', r) := by
      by_cases hs : a.sign = b.sign ∨ (s.value a = none ↔ s.value b = none)
      · obtain ⟨s', r, h1, -⟩ := newEq_spec (E := E) hI hl.1 hl.2 hs
        exact ⟨s', r, h1⟩
      · have hin : s.inRange [a, b] = true := by simpa [inRange] using hl.2
        unfold newEq
        rw [if_neg (by simp [hl.1]), if_neg (by simp [hin])]
        by_cases e : a = b
        · rw [if_pos e]; exact ⟨_, _, rfl⟩
        · rw [if_neg e]
          cases hva : s.value a with
          | none =>
            cases hvb : s.value b with
            | none => exact absurd (Or.inr (by simp [hva, hvb])) hs
            | some y => cases y <;> exact ⟨_, _, rfl⟩
          | some x =>
            cases hvb : s.value b with
            | none => cases x <;> exact ⟨_, _, rfl⟩
            | some y => exact absurd (Or.inr (by simp [hva, hvb])) hs
    obtain ⟨s', r, h1⟩ := this
    exact ⟨s', .lit r, by simp only [step, h1]; rfl, (newEq_defd hI h1).lfix hF⟩
  | newConj ls =>
    obtain ⟨s', r, h1, h2⟩ := newConj_spec (E := E) hI hl.1 hl.2
    exact ⟨s', .lit r, by simp only [step, h1]; rfl, h2.defd.lfix hF⟩
  | newDisj ls =>
    obtain ⟨s', r, h1, h2⟩ := newDisj_spec (E := E) hI hl.1 hl.2
    exact ⟨s', .lit r, by simp only [step, h1]; rfl, h2.defd.lfix hF⟩
  | newAMO ls =>
    obtain ⟨s', r, h1, -⟩ := newAMOGo_spec (E := E) (C := noContract) _ s ls hI hl.1 hl.2 (Nat.lt_succ_self _)
    have h1 : s.newAMO E ls = .ok (s', r) := h1
    exact ⟨s', .lit r, by simp only [step, h1]; rfl, (newAMO_defd hI h1).lfix hF⟩
  | newEXO ls =>
    obtain ⟨s', r, h1, -⟩ := newEXO_spec (E := E) hI hl.1 hl.2
    exact ⟨s', .lit r, by simp only [step, h1]; rfl, (newEXO_defd hI h1).lfix hF⟩
  | assume p =>
    obtain ⟨s', b, h1, h2⟩ := assume_total (E := E) hI hF hl.1 hl.2
    exact ⟨s', .bool b, by simp only [step, h1]; rfl, h2⟩
  | pop =>
    obtain ⟨s', h1⟩ := pop_total hI hl
    exact ⟨s', .unit, by simp only [step, h1]; rfl, Or.inr ((pop_inv hI h1).fix hF)⟩
  | propagate =>
    obtain ⟨s', b, h1, -, h2⟩ := propagate_total' (E := E) hI hF
    exact ⟨s', .bool b, by simp only [step, h1]; rfl, h2⟩
  | next =>
    obtain ⟨s', b, h1, h2⟩ := next_total (E := E) hI hF hl
    exact ⟨s', .bool b, by simp only [step, h1]; rfl, h2⟩
  | check ls =>
    obtain ⟨s', b, h1, h2⟩ := check_total (E := E) hI hd hF hl.1 hl.2
    exact ⟨s', .bool b, by simp only [step, h1]; rfl, h2⟩
  | simplify =>
    obtain ⟨s', b, h1, h2⟩ := simplify_total (E := E) hI hF hl
    exact ⟨s', .bool b, by simp only [step, h1]; rfl, h2⟩
  | bind v i => exact ⟨_, _, rfl, Or.inr ⟨hF.nd, hF.fx⟩⟩
  | listen v l =>
    refine ⟨_, _, rfl, Or.inr ?_⟩
    unfold listen
    split
    · exact ⟨hF.nd, hF.fx⟩
    · exact hF

theorem LReach.linv {E : Env} {s : PSat} (h : LReach E s) : s.LInv := by
  induction h with
  | init => exact ⟨Reach.rinv (E := E) (.init trivial), Or.inr (init_fix ())⟩
  | @step s s' op out _ hl hs ih =>
    obtain ⟨s1, o1, h1, h2⟩ := step_total (E := E) ih hl
    rw [hs] at h1
    injection h1 with h1; injection h1 with e1 e2
    refine ⟨step_rinv ih.rinv ?_ hs, e1 ▸ h2⟩
    intro _ u hu
    have hF : s.Fix s.okQ := by
      rcases ih.fix with h3 | h3
      · rw [hl.1] at h3; cases h3
      · exact h3
    obtain ⟨v, b, h3, h4, -⟩ := propagate_total' (E := E) ih.rinv.inv hF
    rw [h3] at hu
    injection hu with hu; injection hu with e3 e4
    subst e3 e4; exact h4 rfl
  | @copy s s' _ hd hq hdec hc ih =>
    have hF : s.Fix s.okQ := by
      rcases ih.fix with h3 | h3
      · rw [hd] at h3; cases h3
      · exact h3
    obtain ⟨s1, h1, h2⟩ := copy_spec (E := E) ih.rinv.inv hF hq hdec
    rw [hc] at h1
    injection h1 with h1; subst h1
    refine ⟨⟨h2.inv, ?_, ?_⟩, Or.inr h2.fix⟩
    · intro hx; rw [h2.dead, hd] at hx; cases hx
    · right
      intro D hD
      rw [h2.posted, List.mem_append] at hD
      rcases hD with hD | hD
      · obtain ⟨d, hd', rfl⟩ := List.mem_map.1 hD
        left
        refine ⟨d, by simp, ?_, h2.level _⟩
        rw [value_true, h2.assigns]; exact (value_true _ _).1 (hdec d hd')
      · rcases ih.rinv.link with h3 | h3
        · rw [hd] at h3; cases h3
        · exact h2.linked D (h3 D hD)

end Sat
end Semitone
