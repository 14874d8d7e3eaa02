import Verif.Sat.Notify

/-!
# Notifications: the reified expressions and whole calls
-/
namespace Semitone
namespace Sat
variable {T : Type}

/-- Variables that do not exist yet are unassigned. -/
def NV (s : Sat T) : Prop := ∀ v, s.nvars ≤ v → s.assigns v = none

/-- Elementary changes that keep `NV`. -/
def MN (s s' : Sat T) : Prop := s.NV → Mic s s' ∧ s'.NV

theorem MN.refl (s : Sat T) : MN s s := fun h => ⟨.refl s, h⟩
theorem MN.trans {s1 s2 s3 : Sat T} (h1 : MN s1 s2) (h2 : MN s2 s3) : MN s1 s3 := fun h =>
  ⟨(h1 h).1.trans (h2 (h1 h).2).1, (h2 (h1 h).2).2⟩

theorem newVar_mn (s : Sat T) : MN s s.newVar.1 := by
  intro h
  have ha : s.assigns s.nvars = none := h _ (Nat.le_refl _)
  have he : s.newVar.1.assigns = s.assigns := by
    funext v
    simp only [newVar, upd]
    split
    · rename_i e; rw [e, ha]
    · rfl
  refine ⟨.still ⟨he, rfl, rfl, ?_, rfl⟩, ?_⟩
  · intro v hv
    simp only [newVar, upd]
    split
    · rename_i e; rw [e] at hv; exact absurd ha hv
    · rfl
  · intro v hv
    rw [he]
    exact h v (Nat.le_of_succ_le hv)

theorem enqueue_nv {s : Sat T} {p c} (hp : p.var < s.nvars) (h : s.NV) : (s.enqueue p c).1.NV := by
  match hv : s.value p with
  | some b => rw [enqueue_some hv]; exact h
  | none =>
    rw [enqueue_none hv]
    intro v hv'
    have hv' : s.nvars ≤ v := hv'
    simp only [Sat.enq]
    rw [upd_ne _ _ (by omega : v ≠ p.var)]
    exact h v hv'

theorem newClauseObj_assigns {s s' : Sat T} {ls c} (h : s.newClauseObj ls = .ok (s', c)) : s'.assigns = s.assigns ∧ s'.nvars = s.nvars := by
  unfold newClauseObj at h
  split at h
  · injection h with h; injection h with h _; subst h; exact ⟨rfl, rfl⟩
  · cases h

theorem newClause_mn {E : Env} {s s' : Sat T} {ls b} (h : s.newClause E ls = .ok (s', b)) : MN s s' := by
  intro hn
  refine ⟨newClause_mic h, ?_⟩
  unfold newClause at h
  split at h
  · cases h
  split at h
  · cases h
  rename_i hin
  have hin : s.inRange ls = true := by simpa using hin
  simp only at h
  split at h
  · injection h with h; injection h with h _; subst h; exact hn
  · injection h with h; injection h with h _; subst h; exact hn
  · rename_i l hf
    injection h with h
    have hl : l.var < s.nvars := by
      have h2 := ((filt_sorted E true s.value ls _ hf).1 l (by simp)).1
      simp only [inRange, List.all_eq_true] at hin
      simpa using hin l h2
    have := enqueue_nv (s := { s with posted := ls :: s.posted }) (p := l) (c := none) hl hn
    rw [h] at this
    exact this
  · rename_i l _ _ _
    split at h
    · cases h
    · rename_i s1 c hc
      injection h with h; injection h with h _; subst h
      obtain ⟨e1, e2⟩ := newClauseObj_assigns hc
      intro v hv
      show s1.assigns v = none
      rw [e1]; exact hn v (by rw [← e2]; exact hv)

theorem postAll_mn {E : Env} (cs : List (List Lit)) : ∀ {s s' : Sat T} {b}, postAll E cs s = .ok (s', b) → MN s s' := by
  induction cs with
  | nil => intro s s' b h; injection h with h; injection h with h _; subst h; exact .refl _
  | cons c cs ih =>
    intro s s' b h
    simp only [postAll] at h
    match hc : s.newClause E c with
    | .error _ => simp [hc] at h
    | .ok (s1, false) => simp only [hc] at h; injection h with h; injection h with h _; subst h; exact newClause_mn hc
    | .ok (s1, true) => simp only [hc] at h; exact (newClause_mn hc).trans (ih h)

theorem define_mn {E : Env} {s s' : Sat T} {k ctr cls r} (h : define E s k ctr cls = .ok (s', r)) : MN s s' := by
  unfold define at h
  split at h
  · cases h
  · rename_i hp; injection h with h; injection h with h _; subst h; exact postAll_mn _ hp
  · rename_i hp; injection h with h; injection h with h _; subst h
    intro hn
    obtain ⟨a, b⟩ := postAll_mn _ hp hn
    exact ⟨a.trans (.still ⟨rfl, rfl, rfl, fun _ _ => rfl, rfl⟩), b⟩

theorem newEq_mn {E : Env} {s s' : Sat T} {a b r} (h : s.newEq E a b = .ok (s', r)) : MN s s' := by
  unfold newEq at h
  split at h
  · cases h
  split at h
  · cases h
  split at h
  · injection h with h; injection h with h _; subst h; exact .refl _
  split at h
  all_goals try (injection h with h; injection h with h _; subst h; exact .refl _)
  split at h
  · injection h with h; injection h with h _; subst h; exact .refl _
  · exact (newVar_mn s).trans (define_mn h)

theorem newConj_mn {E : Env} {s s' : Sat T} {ls r} (h : s.newConj E ls = .ok (s', r)) : MN s s' := by
  unfold newConj at h
  split at h
  · cases h
  split at h
  · cases h
  split at h
  all_goals try (injection h with h; injection h with h _; subst h; exact .refl _)
  split at h
  · injection h with h; injection h with h _; subst h; exact .refl _
  · exact (newVar_mn s).trans (define_mn h)

theorem newDisj_mn {E : Env} {s s' : Sat T} {ls r} (h : s.newDisj E ls = .ok (s', r)) : MN s s' := by
  unfold newDisj at h
  split at h
  · cases h
  split at h
  · cases h
  split at h
  all_goals try (injection h with h; injection h with h _; subst h; exact .refl _)
  split at h
  · injection h with h; injection h with h _; subst h; exact .refl _
  · exact (newVar_mn s).trans (define_mn h)

theorem newVars_mn (n : Nat) : ∀ (s : Sat T), MN s (newVars n s).1 := by
  induction n with
  | zero => intro s; exact .refl s
  | succ n ih => intro s; exact (newVar_mn s).trans (ih _)

theorem newAMOGo_mn {E : Env} (f : Nat) : ∀ {s s' : Sat T} {ls r}, newAMOGo E f s ls = .ok (s', r) → MN s s' := by
  induction f with
  | zero => intro s s' ls r h; cases h
  | succ f ih =>
    intro s s' ls r h
    unfold newAMOGo at h
    split at h
    · cases h
    split at h
    · cases h
    split at h
    all_goals try (injection h with h; injection h with h _; subst h; exact .refl _)
    split at h
    · injection h with h; injection h with h _; subst h; exact .refl _
    split at h
    · exact (newVar_mn s).trans (define_mn h)
    · simp only at h
      split at h
      · cases h
      rename_i h1
      split at h
      · cases h
      rename_i h2
      split at h
      · cases h
      rename_i h3
      exact (newVars_mn _ s).trans ((newVars_mn _ _).trans ((ih h1).trans ((ih h2).trans ((newConj_mn h3).trans (define_mn h)))))

theorem newEXO_mn {E : Env} {s s' : Sat T} {ls r} (h : s.newEXO E ls = .ok (s', r)) : MN s s' := by
  unfold newEXO at h
  split at h
  · cases h
  split at h
  · cases h
  split at h
  all_goals try (injection h with h; injection h with h _; subst h; exact .refl _)
  split at h
  · injection h with h; injection h with h _; subst h; exact .refl _
  split at h
  · injection h with h; injection h with h _; subst h; exact .refl _
  split at h
  · cases h
  rename_i h1
  exact (newAMOGo_mn _ h1).trans (define_mn h)

theorem WF.nvv {s : Sat T} {ex} (h : s.WF ex) : s.NV := by
  intro v hv
  apply Classical.byContradiction
  intro hne
  have := h.rng v hne
  omega

theorem assume_mic {E : Env} {O : TheoryOps T} {C : Contract O} {s s' : Sat T} {p b} (h : s.Inv C) (hp : s.assume E O p = .ok (s', b)) : Mic s s' := by
  have hA := assume_spec h hp
  have m0 : Mic s (s.pushed O p) := .still ⟨rfl, rfl, rfl, fun _ _ => rfl, rfl⟩
  unfold assume at hp
  rw [if_neg (by simp [inRange, hA.range]), if_neg (by simp [hA.queue0])] at hp
  have hp' : (match (s.pushed O p).enqueue p none with
    | (s, true) => s.propagate E O
    | (s, false) => Except.ok (s, false)) = .ok (s', b) := hp
  have hi := h.pushed (O := O) hA.queue0 p
  match hv : (s.pushed O p).value p with
  | some true =>
    rw [enqueue_some hv] at hp'
    exact m0.trans (propagate_mic hi hp')
  | some false =>
    rw [enqueue_some hv] at hp'
    injection hp' with hp; injection hp with hp _; subst hp; exact m0
  | none =>
    rw [enqueue_none hv] at hp'
    have hwe := hi.wf.enq (c := none) (p := p) hv hA.range (fun x hx => by cases hx) (fun _ => Or.inr rfl)
    exact m0.trans ((Mic.enq hv).trans (propLoop_mic C _ _ _ _ hwe hp'))

theorem next_mic {E : Env} {O : TheoryOps T} {C : Contract O} {s s' : Sat T} {b} (h : s.Inv C) (hn : s.next E O = .ok (s', b)) : Mic s s' := by
  unfold next at hn
  by_cases hr : s.root = true
  · rw [if_pos hr] at hn
    injection hn with hn; injection hn with e1 e2; subst e1; exact .refl _
  rw [if_neg hr] at hn
  simp only at hn
  match hp : s.pop O with
  | .error e => rw [hp] at hn; cases hn
  | .ok s1 =>
    rw [hp] at hn
    simp only at hn
    have hP := pop_inv h hp
    match hrec : ({ s1 with posted := s.decisions.map Lit.neg :: s1.posted } : Sat T).record E (s.decisions.map Lit.neg) with
    | .error e => rw [hrec] at hn; cases hn
    | .ok s2 =>
      rw [hrec] at hn
      simp only at hn
      have hwp : ({ s1 with posted := s.decisions.map Lit.neg :: s1.posted } : Sat T).WF noEx :=
        hP.inv.wf.congr rfl rfl rfl rfl rfl rfl rfl rfl rfl rfl rfl rfl
      obtain ⟨l0, rest, hng, hv0, hvr, hrng, w2, -⟩ := record_spec C hwp hrec
      have m1 : Mic s1 { s1 with posted := s.decisions.map Lit.neg :: s1.posted } := .still ⟨rfl, rfl, rfl, fun _ _ => rfl, rfl⟩
      exact (pop_mic h.wf hp).trans (m1.trans ((record_mic hrec).trans (propLoop_mic C _ _ _ _ w2 hn)))

theorem checkGo_mic {E : Env} {O : TheoryOps T} {C : Contract O} (rl : Nat) (ps : List Lit) : ∀ {s w : Sat T} {b : Bool}, s.Inv C → s.propQ = [] →
    checkGo E O rl ps s = .ok (w, b) → Mic s w ∧ w.Inv C ∧ w.propQ = [] := by
  induction ps with
  | nil => intro s w b h hq hc; injection hc with hc; injection hc with hc _; subst hc; exact ⟨.refl _, h, hq⟩
  | cons p ps ih =>
    intro s w b h hq hc
    simp only [checkGo] at hc
    match ha : s.assume E O p with
    | .error e => rw [ha] at hc; cases hc
    | .ok (u, false) =>
      rw [ha] at hc
      simp only at hc
      have r := ((assume_spec h ha).facts h)
      match hp : popTo O rl u with
      | .error e => rw [hp] at hc; cases hc
      | .ok x =>
        rw [hp] at hc
        injection hc with hc; injection hc with e1 e2; subst e1
        have P := popLevels_inv r.inv r.queue hp
        exact ⟨(assume_mic h ha).trans (popLevels_mic _ r.inv.wf r.queue hp), P.inv, by rw [P.cut.fr]; exact r.queue⟩
    | .ok (u, true) =>
      rw [ha] at hc
      simp only at hc
      have r := ((assume_spec h ha).facts h)
      match hpr : u.propagate E O with
      | .error e => rw [hpr] at hc; cases hc
      | .ok (y, b2) =>
        rw [hpr] at hc
        simp only at hc
        have d := propagate_spec r.inv hpr
        have m := (assume_mic h ha).trans (propagate_mic r.inv hpr)
        by_cases hb : b2 = false ∨ y.dl ≤ s.dl
        · rw [if_pos hb] at hc
          match hp : popTo O rl y with
          | .error e => rw [hp] at hc; cases hc
          | .ok x =>
            rw [hp] at hc
            injection hc with hc; injection hc with e1 e2; subst e1
            have P := popLevels_inv d.inv d.queue hp
            exact ⟨m.trans (popLevels_mic _ d.inv.wf d.queue hp), P.inv, by rw [P.cut.fr]; exact d.queue⟩
        · rw [if_neg hb] at hc
          obtain ⟨a, b, c⟩ := ih d.inv d.queue hc
          exact ⟨m.trans a, b, c⟩

theorem check_mic {E : Env} {O : TheoryOps T} {C : Contract O} {s s' : Sat T} {ls b} (h : s.Inv C) (hc : s.check E O ls = .ok (s', b)) : Mic s s' := by
  by_cases hq : s.propQ = []
  · unfold check at hc
    simp only at hc
    match hg : checkGo E O s.dl ls s with
    | .error e => rw [hg] at hc; cases hc
    | .ok (w, false) =>
      rw [hg] at hc
      injection hc with hc; injection hc with e1 e2; subst e1
      exact (checkGo_mic _ _ h hq hg).1
    | .ok (w, true) =>
      rw [hg] at hc
      simp only at hc
      obtain ⟨a, b, c⟩ := checkGo_mic _ _ h hq hg
      split at hc
      · cases hc
      · match hp : popTo O s.dl w with
        | .error e => rw [hp] at hc; cases hc
        | .ok x =>
          rw [hp] at hc
          injection hc with hc; injection hc with e1 e2; subst e1
          exact a.trans (popLevels_mic _ b.wf c hp)
  · cases ls with
    | nil =>
      simp [check, checkGo, popTo, popLevels] at hc
      obtain ⟨rfl, rfl⟩ := hc
      exact .refl _
    | cons p ps =>
      have : s.assume E O p = .error .terminate ∨ s.assume E O p = .error .assert := by
        unfold assume
        split
        · exact Or.inl rfl
        · exact Or.inr rfl
      simp only [check, checkGo] at hc
      rcases this with e | e <;> rw [e] at hc <;> cases hc

theorem Still.trans {s1 s2 s3 : Sat T} (h1 : Still s1 s2) (h2 : Still s2 s3) : Still s1 s3 :=
  ⟨h2.1.trans h1.1, h2.2.1.trans h1.2.1, h2.2.2.1.trans h1.2.2.1, fun v hv => (h2.2.2.2.1 v (by rw [h1.1]; exact hv)).trans (h1.2.2.2.1 v hv), h2.2.2.2.2.trans h1.2.2.2.2⟩

theorem simplifyGo_still (n : Nat) : ∀ (s : Sat T) (kept act rem : List Nat), Still s (simplifyGo n s kept act rem).1 := by
  induction n with
  | zero => intro s _ _ _; exact ⟨rfl, rfl, rfl, fun _ _ => rfl, rfl⟩
  | succ n ih =>
    intro s kept act rem
    cases act with
    | nil => exact ⟨rfl, rfl, rfl, fun _ _ => rfl, rfl⟩
    | cons c act =>
      have h0 : Still s { s with db := upd s.db c (simplifyLits s.value (s.db c) [] (s.db c)).2 } := ⟨rfl, rfl, rfl, fun _ _ => rfl, rfl⟩
      simp only [simplifyGo]
      split
      · exact h0.trans (ih _ _ _ _)
      · exact h0.trans (ih _ _ _ _)

theorem deleteClause_still {s s' : Sat T} {c} (h : s.deleteClause c = .ok s') : Still s s' := by
  unfold deleteClause at h
  split at h
  · split at h
    · simp only at h
      split at h
      · injection h with h; subst h; exact ⟨rfl, rfl, rfl, fun _ _ => rfl, rfl⟩
      · cases h
    · cases h
  · cases h

theorem deleteAll_still (cs : List Nat) : ∀ {s s' : Sat T}, deleteAll cs s = .ok s' → Still s s' := by
  induction cs with
  | nil => intro s s' h; injection h with h; subst h; exact ⟨rfl, rfl, rfl, fun _ _ => rfl, rfl⟩
  | cons c cs ih =>
    intro s s' h
    simp only [deleteAll] at h
    match hc : s.deleteClause c with
    | .error _ => simp [hc] at h
    | .ok s1 => simp only [hc] at h; exact (deleteClause_still hc).trans (ih h)

theorem simplifyDb_mic {E : Env} {O : TheoryOps T} (C : Contract O) {s s' : Sat T} {b} (h : s.WF noEx) (hs : s.simplifyDb E O = .ok (s', b)) : Mic s s' := by
  unfold simplifyDb at hs
  split at hs
  · cases hs
  match hp : s.propagate E O with
  | .error e => rw [hp] at hs; cases hs
  | .ok (u, false) =>
    rw [hp] at hs
    injection hs with hs; injection hs with e1 e2; subst e1
    exact propLoop_mic C _ _ _ _ h hp
  | .ok (u, true) =>
    rw [hp] at hs
    simp only at hs
    match hd : deleteAll (simplifyGo (u.constrs.length + 1) u [] u.constrs []).2.2 (simplifyGo (u.constrs.length + 1) u [] u.constrs []).1 with
    | .error e => rw [hd] at hs; cases hs
    | .ok x =>
      rw [hd] at hs
      injection hs with hs; injection hs with e1 e2; subst e1
      have h3 := ((simplifyGo_still (u.constrs.length + 1) u [] u.constrs []).trans (deleteAll_still _ hd))
      exact (propLoop_mic C _ _ _ _ h hp).trans (.still ⟨h3.1, h3.2.1, h3.2.2.1, h3.2.2.2⟩)

theorem copyClauses_still {orig : Sat T} (cs : List Nat) : ∀ {s s' : Sat T} {m m'}, copyClauses orig cs s m = .ok (s', m') → Still s s' := by
  induction cs with
  | nil => intro s s' m m' h; injection h with h; injection h with h _; subst h; exact ⟨rfl, rfl, rfl, fun _ _ => rfl, rfl⟩
  | cons c cs ih =>
    intro s s' m m' h
    simp only [copyClauses] at h
    match hc : s.newClauseObj (orig.db c) with
    | .error _ => simp [hc] at h
    | .ok (s1, d) =>
      simp only [hc] at h
      have h1 : Still s { s1 with constrs := s1.constrs ++ [d] } := by
        unfold newClauseObj at hc
        split at hc
        · injection hc with hc; injection hc with hc _; subst hc; exact ⟨rfl, rfl, rfl, fun _ _ => rfl, rfl⟩
        · cases hc
      exact h1.trans (ih h)

/-- The calls other than registrations. -/
theorem step_mic {E : Env} {O : TheoryOps T} {C : Contract O} {s s' : Sat T} {op : Op} {out} (h : s.Inv C)
    (hl : ∀ v l, op ≠ .listen v l) (hs : s.step E O op = .ok (s', out)) : Mic s s' := by
  have hn := h.wf.nvv
  cases op with
  | newVar => injection hs with hs; injection hs with e1 e2; subst e1; exact (newVar_mn s hn).1
  | newClause ls => obtain ⟨a, h1, h2⟩ := map_ok hs; injection h2 with e1 e2; subst e1; exact newClause_mic (b := a.2) h1
  | newEq x y => obtain ⟨a, h1, h2⟩ := map_ok hs; injection h2 with e1 e2; subst e1; exact (newEq_mn (r := a.2) h1 hn).1
  | newConj ls => obtain ⟨a, h1, h2⟩ := map_ok hs; injection h2 with e1 e2; subst e1; exact (newConj_mn (r := a.2) h1 hn).1
  | newDisj ls => obtain ⟨a, h1, h2⟩ := map_ok hs; injection h2 with e1 e2; subst e1; exact (newDisj_mn (r := a.2) h1 hn).1
  | newAMO ls => obtain ⟨a, h1, h2⟩ := map_ok hs; injection h2 with e1 e2; subst e1; exact (newAMOGo_mn (r := a.2) _ h1 hn).1
  | newEXO ls => obtain ⟨a, h1, h2⟩ := map_ok hs; injection h2 with e1 e2; subst e1; exact (newEXO_mn (r := a.2) h1 hn).1
  | assume p => obtain ⟨a, h1, h2⟩ := map_ok hs; injection h2 with e1 e2; subst e1; exact assume_mic (b := a.2) h h1
  | pop => obtain ⟨a, h1, h2⟩ := map_ok hs; injection h2 with e1 e2; subst e1; exact pop_mic h.wf h1
  | propagate => obtain ⟨a, h1, h2⟩ := map_ok hs; injection h2 with e1 e2; subst e1; exact propagate_mic (b := a.2) h h1
  | next => obtain ⟨a, h1, h2⟩ := map_ok hs; injection h2 with e1 e2; subst e1; exact next_mic (b := a.2) h h1
  | check ls => obtain ⟨a, h1, h2⟩ := map_ok hs; injection h2 with e1 e2; subst e1; exact check_mic (b := a.2) h h1
  | simplify => obtain ⟨a, h1, h2⟩ := map_ok hs; injection h2 with e1 e2; subst e1; exact simplifyDb_mic (b := a.2) C h.wf h1
  | bind v i => injection hs with hs; injection hs with e1 e2; subst e1; exact .still ⟨rfl, rfl, rfl, fun _ _ => rfl, rfl⟩
  | listen v l => exact absurd rfl (hl v l)

theorem NInv.listen {s : Sat T} (h : s.NInv) (v l : Nat) : (s.listen v l).NInv := by
  unfold Sat.listen
  split
  · rename_i hv
    have hin : ∀ w m, m ∈ upd s.listening v (l :: (s.listening v).erase l) w → m ∈ s.listening w ∨ (m = l ∧ w = v) := by
      intro w m hm
      unfold upd at hm
      split at hm
      · rename_i e
        rcases List.mem_cons.1 hm with hm | hm
        · exact Or.inr ⟨hm, e⟩
        · exact Or.inl (e ▸ List.mem_of_mem_erase hm)
      · exact Or.inl hm
    have hin' : ∀ w m, m ∈ s.listening w → m ∈ upd s.listening v (l :: (s.listening v).erase l) w := by
      intro w m hm
      unfold upd
      split
      · rename_i e
        by_cases hml : m = l
        · simp [hml]
        · exact List.mem_cons_of_mem _ ((List.mem_erase_of_ne hml).2 (e ▸ hm))
      · exact hm
    refine ⟨?_, h.chg, ?_, ?_⟩
    · intro w
      simp only [upd]
      split
      · rw [List.nodup_cons]
        exact ⟨fun hm => ((h.nd v).mem_erase_iff.1 hm).1 rfl, (h.nd v).erase l⟩
      · exact h.nd w
    · intro m w hm
      have hm : m ∈ upd s.listening v (l :: (s.listening v).erase l) w ∨ s.log m w ≠ [] := hm
      rcases hm with hm | hm
      · rcases hin w m hm with hm | ⟨rfl, rfl⟩
        · exact h.mir m w (Or.inl hm)
        · by_cases hr : s.log m w = []
          · show (s.log m w).head?.getD none = s.assigns w
            rw [hr, hv]; rfl
          · exact h.mir m w (Or.inr hr)
      · exact h.mir m w (Or.inr hm)
    · intro m w h1 h2
      exact h.off m w (fun hm => h1 (hin' w m hm)) h2
  · exact h

theorem Reach.ninv {E : Env} {O : TheoryOps T} {C : Contract O} {s : Sat T} (h : Reach E C s) : s.NInv := by
  induction h with
  | init _ => exact ⟨fun _ => List.nodup_nil, fun _ _ => trivial, fun _ _ h => by simp [Sat.init, newVar, log] at h, fun _ _ _ h => by simp [Sat.init, newVar, log] at h⟩
  | @step s s' op out hr hsf hs ih =>
    by_cases hl : ∃ v l, op = .listen v l
    · obtain ⟨v, l, rfl⟩ := hl
      injection hs with hs; injection hs with e1 e2; subst e1
      exact ih.listen v l
    · exact ih.mic (step_mic hr.rinv.inv (fun v l e => hl ⟨v, l, e⟩) hs)
  | theory _ _ _ ih => exact ⟨ih.nd, ih.chg, ih.mir, ih.off⟩

theorem NInv.copied {s s' : PSat} (hn : s.NInv) (c : Copied s s') : s'.NInv := by
  have hl : ∀ l v, s'.log l v = s.log l v := fun l v => by unfold log; rw [c.notes]
  refine ⟨fun v => by rw [c.listening]; exact hn.nd v, fun l v => by rw [hl]; exact hn.chg l v, fun l v h => ?_, fun l v h1 h2 => ?_⟩
  · rw [hl, c.listening] at h
    rw [hl, c.assigns]; exact hn.mir l v h
  · rw [c.listening] at h1
    rw [hl] at h2
    exact ⟨by rw [c.assigns]; exact (hn.off l v h1 h2).1, c.level v⟩

theorem LReach.ninv {E : Env} {s : PSat} (h : LReach E s) : s.NInv := by
  induction h with
  | init => exact ⟨fun _ => List.nodup_nil, fun _ _ => trivial, fun _ _ h => by simp [Sat.init, newVar, log] at h, fun _ _ _ h => by simp [Sat.init, newVar, log] at h⟩
  | @step s s' op out hr hsf hs ih =>
    by_cases hl : ∃ v l, op = .listen v l
    · obtain ⟨v, l, rfl⟩ := hl
      injection hs with hs; injection hs with e1 e2; subst e1
      exact ih.listen v l
    · exact ih.mic (step_mic hr.linv.rinv.inv (fun v l e => hl ⟨v, l, e⟩) hs)
  | @copy s s' hr hd hq hdec hc ih =>
    have hi := hr.linv
    obtain ⟨u, h1, h2⟩ := copy_spec (E := E) hi.rinv.inv (hi.fixq hd) hq hdec
    rw [hc] at h1; injection h1 with h1; subst h1
    exact ih.copied h2

end Sat
end Semitone
