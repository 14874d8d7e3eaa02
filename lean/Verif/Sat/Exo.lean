import Verif.Sat.Amo

/-!
# `new_exct_one`
-/
namespace Semitone
namespace Sat
variable {T : Type}

/-- Posting defining clauses, in general. -/
theorem define_spec {E : Env} {O : TheoryOps T} {C : Contract O} {s : Sat T} {k ls ctr cls} (h : s.Inv C) (hr : s.root = true)
    (hv : ∀ c ∈ cls, ∀ l ∈ c, l.var < s.nvars) (hc : ctr.var < s.nvars) (hl : ∀ l ∈ ls, l.var < s.nvars)
    (hm : ∀ α, s.Sol C.Th α → (∀ c ∈ cls, α.clause c) → mean k α ls ctr) :
    ∃ s' r, define E s (key k ls) ctr cls = .ok (s', r) ∧ Defd C s s' ∧ s'.nvars = s.nvars ∧
      ((r = ctr ∧ s'.posted = cls.reverse ++ s.posted) ∨ (r = FALSE_lit ∧ s'.Unsat C.Th ∧ ∃ D, D.Sublist cls.reverse ∧ s'.posted = D ++ s.posted)) := by
  obtain ⟨s1, b, h1, k1⟩ := postAll_spec (E := E) cls s h hr hv
  cases b with
  | true =>
    obtain ⟨g1, g2, g3⟩ := k1.good rfl
    have hinv : (s1.addExpr (key k ls) ctr).Inv C := by
      apply k1.inv.addExpr
      · intro l hl'; rw [k1.nv]; exact hl l hl'
      · rw [k1.nv]; exact hc
      · intro α hα
        apply hm α (k1.rstep.sol hα)
        intro c hcc
        exact hα.2.1 c (by rw [g3]; simp [hcc])
    refine ⟨s1.addExpr (key k ls) ctr, ctr, by simp [define, h1], ⟨hinv, k1.rstep.trans (addExpr_rstep _ _ _), k1.bounds, ?_, ?_, ?_, ?_⟩,
      k1.nv, Or.inl ⟨rfl, g3⟩⟩
    · intro hF; have := k1.fix hF; exact ⟨this.nd, this.fx⟩
    · intro D hD
      have hD' : D ∈ s1.posted := hD
      rw [g3, List.mem_append, List.mem_reverse] at hD'
      rcases hD' with h2 | h2
      · exact Or.inr (Or.inl (g2 D h2))
      · exact Or.inl h2
    · intro hd; show s1.dead = true; rw [g1]; exact hd
    · intro hd; left; have : s1.dead = true := hd; rw [g1] at this; exact this
  | false =>
    obtain ⟨g1, g2⟩ := k1.bad rfl
    refine ⟨s1, FALSE_lit, by simp [define, h1], ⟨k1.inv, k1.rstep, k1.bounds, k1.fix, fun _ _ => Or.inr (Or.inr g2), fun _ => g2, fun _ => Or.inr g1⟩, k1.nv, Or.inr ⟨rfl, g1, ?_⟩⟩
    clear hm hl g1 g2 k1
    induction cls generalizing s with
    | nil => simp [postAll] at h1
    | cons c cls ih =>
      obtain ⟨s2, b2, h2⟩ := newClause_ok (E := E) hr (hv c (by simp))
      have k2 := newClause_spec h h2
      simp only [postAll, h2] at h1
      cases b2 with
      | false =>
        simp at h1; subst h1
        exact ⟨[c], by simp, by rw [k2.posted]; rfl⟩
      | true =>
        simp only at h1
        obtain ⟨D, hD1, hD2⟩ := ih k2.inv (by rw [k2.rstep.root]; exact hr) (by intro c' hc' l hl; rw [k2.nv]; exact hv c' (by simp [hc']) l hl) (by rw [k2.nv]; exact hc) h1
        refine ⟨D ++ [c], ?_, by rw [hD2, k2.posted]; simp⟩
        rw [List.reverse_cons]
        exact hD1.append (List.Sublist.refl _)

theorem filt_head (stop : Bool) (val : Lit → Option Bool) : ∀ (ls : List Lit) (p : Option Lit) (out : List Lit),
    filt stop val p ls = some out → (∀ l, out.head? = some l → some l ≠ p) ∧ (∀ y z r, out = y :: z :: r → y ≠ z) := by
  intro ls
  induction ls with
  | nil => intro p out h; simp [filt] at h; subst h; simp
  | cons x ls ih =>
    intro p out h
    simp only [filt] at h
    split at h
    · cases h
    · split at h
      · rename_i h2
        cases hx : filt stop val (some x) ls with
        | none => rw [hx] at h; cases h
        | some o =>
          rw [hx] at h
          simp at h; subst h
          obtain ⟨a, b⟩ := ih _ _ hx
          refine ⟨by intro l hl; simp at hl; subst hl; exact h2.2, ?_⟩
          intro y z r e
          injection e with e1 e2; subst e1
          intro e3
          exact a z (by rw [e2]; rfl) (by rw [e3])
      · exact ih _ _ h

theorem amoFilt_head (val : Lit → Option Bool) : ∀ (ls : List Lit) (p : Option Lit) (out : List Lit),
    amoFilt val p ls = some out → (∀ l, out.head? = some l → some l ≠ p) ∧ (∀ y z r, out = y :: z :: r → y ≠ z) := by
  intro ls
  induction ls with
  | nil => intro p out h; simp [amoFilt] at h; subst h; simp
  | cons x ls ih =>
    intro p out h
    simp only [amoFilt] at h
    split at h
    · exact filt_head _ _ _ _ _ h
    · split at h
      · rename_i h2
        cases hx : amoFilt val (some x) ls with
        | none => rw [hx] at h; cases h
        | some o =>
          rw [hx] at h
          simp at h; subst h
          obtain ⟨a, b⟩ := ih _ _ hx
          refine ⟨by intro l hl; simp at hl; subst hl; exact h2.2, ?_⟩
          intro y z r e
          injection e with e1 e2; subst e1
          intro e3
          exact a z (by rw [e2]; rfl) (by rw [e3])
      · exact ih _ _ h

/-- Result of `new_exct_one` on the filtered literals `out`. -/
structure ExoRes {O : TheoryOps T} (C : Contract O) (s s' : Sat T) (r : Lit) (out : List Lit) : Prop where
  defd : Defd C s s'
  var : r.var < s'.nvars
  rel : ∀ α, s'.Sol C.Th α → α.sat r → α.exactlyOne out
  cached : s.findExpr (key .exo out) ≠ none → s' = s
  one : ∀ l, out = [l] → l.sign = true → s' = s ∧ r = l
  fresh : 2 ≤ out.length → s.findExpr (key .exo out) = none → (∀ ms, (∀ l, l ∈ ms ↔ l ∈ out) → s.findExpr (key .amo ms) = none) →
    s.Local C.Th → ∀ α, s.Sol C.Th α → ∀ b : Bool, (b = true → α.clause out ∧ Alone α out) →
    ∃ β, Asg.agree s.nvars α β ∧ s'.Sol C.Th β ∧ (β.sat r ↔ b = true)

theorem newEXO_spec {E : Env} {O : TheoryOps T} {C : Contract O} {s : Sat T} {ls : List Lit} (h : s.Inv C) (hr : s.root = true)
    (hv : ∀ l ∈ ls, l.var < s.nvars) : ∃ s' r, s.newEXO E ls = .ok (s', r) ∧
      (∀ out, amoFilt s.value none (E.sortVar ls) = some out → ExoRes C s s' r out) ∧
      (amoFilt s.value none (E.sortVar ls) = none → s' = s ∧ r = FALSE_lit) := by
  have hin : s.inRange ls = true := by simpa [inRange] using hv
  unfold newEXO
  simp only [hr, hin, Bool.true_eq_false, if_false]
  match hfl : amoFilt s.value none (E.sortVar ls) with
  | none =>
    simp only
    exact ⟨s, _, rfl, by simp, fun _ => ⟨rfl, rfl⟩⟩
  | some [] =>
    simp only
    refine ⟨s, _, rfl, ?_, by simp⟩
    intro out e; injection e with e; subst e
    exact ⟨Defd.refl h, h.wf.nv, fun α hα hs => absurd hs (not_sat_false_lit hα), fun _ => rfl, by simp, by simp⟩
  | some (x :: rest) =>
    simp only
    obtain ⟨hs1, hs2⟩ := amoFilt_sublist _ _ _ _ hfl
    have hm : ∀ l ∈ x :: rest, l.var < s.nvars := fun l hl => hv l ((E.sortVar_perm ls).mem_iff.1 (hs1.subset hl))
    have hne : x :: rest ≠ [] := by simp
    generalize hout : x :: rest = out at *
    match hone : exoOne out with
    | some l =>
      simp only
      obtain ⟨rfl, hl⟩ : out = [l] ∧ l.sign = true := by
        unfold exoOne at hone
        split at hone
        · split at hone
          · injection hone with e; subst e; exact ⟨rfl, by assumption⟩
          · cases hone
        · cases hone
      refine ⟨s, l, rfl, ?_, by simp⟩
      intro out e; injection e with e; subst e
      refine ⟨Defd.refl h, hm l (by simp), fun α hα hs => ⟨⟨l, by simp, hs⟩, by simp [Asg.atMostOne]⟩, fun _ => rfl, ?_, by simp⟩
      intro l' e _; injection e with e; exact ⟨rfl, e⟩
    | none =>
      simp only
      have hk : "^" ++ litsStr out = key .exo out := rfl
      rw [hk]
      have hnone : ∀ l, out = [l] → l.sign = true → False := by
        intro l e hl; rw [e] at hone; simp [exoOne, hl] at hone
      match hfe : s.findExpr (key .exo out) with
      | some q =>
        simp only
        refine ⟨s, q, rfl, ?_, by simp⟩
        intro out' e; injection e with e; subst e
        obtain ⟨c1, c2, c3⟩ := h.cache _ _ _ (findExpr_mem hfe)
        exact ⟨Defd.refl h, c2, c3, fun _ => rfl, fun l e hl => (hnone l e hl).elim, by simp [hfe]⟩
      | none =>
        simp only
        obtain ⟨s1, ctr, h1, A⟩ := newAMOGo_spec (E := E) (out.length + 1) s out h hr hm (Nat.lt_succ_self _)
        unfold newAMO
        rw [h1]
        simp only
        have hperm := E.sortVar_perm out
        obtain ⟨out', ho, hsub, ho1, ho2⟩ := amoFilt_some s.value (E.sortVar out) none (by
          intro l hl; rw [hs2 l (hperm.mem_iff.1 hl)]; simp)
        have hoeq : ∀ l, l ∈ out' ↔ l ∈ out := by
          intro l
          constructor
          · intro hl; exact hperm.mem_iff.1 (hsub.subset hl)
          · intro hl
            rcases ho2 l (hperm.mem_iff.2 hl) with h1 | h1 | h1
            · exact h1
            · rw [hs2 l hl] at h1; cases h1
            · cases h1
        have R := A.1 out' ho
        have hD := R.reif.defd
        have hamo : ∀ α : Asg, α.atMostOne out' ↔ α.atMostOne out := by
          intro α; unfold Asg.atMostOne; simp only [hoeq]
        have hcl : ∀ α : Asg, α.clause (out ++ [ctr.neg]) ↔ (α.sat ctr → α.clause out) := by
          intro α
          constructor
          · rintro ⟨l, hl, sl⟩ hs
            rcases List.mem_append.1 hl with h1 | h1
            · exact ⟨l, h1, sl⟩
            · simp at h1; subst h1; exact absurd hs ((α.sat_neg _).1 sl)
          · intro hh
            by_cases hs : α.sat ctr
            · obtain ⟨l, h1, h2⟩ := hh hs; exact ⟨l, by simp [h1], h2⟩
            · exact ⟨ctr.neg, by simp, (α.sat_neg _).2 hs⟩
        have hmn : ∀ α, s1.Sol C.Th α → α.clause (out ++ [ctr.neg]) → α.sat ctr → α.exactlyOne out := by
          intro α hα hc hs
          exact ⟨(hcl α).1 hc hs, (hamo α).1 (R.reif.rel α hα hs)⟩
        have hn1 := hD.rstep.nv
        obtain ⟨s2, r, g1, g2, g3, g4⟩ := define_spec (E := E) (k := .exo) (ls := out) (ctr := ctr) (cls := [out ++ [ctr.neg]]) hD.inv
          (by rw [hD.rstep.root]; exact hr) (by
            intro c hc l hl
            simp at hc; subst hc
            rcases List.mem_append.1 hl with h1 | h1
            · exact Nat.lt_of_lt_of_le (hm l h1) hn1
            · simp at h1; subst h1; exact R.reif.var) R.reif.var
          (fun l hl => Nat.lt_of_lt_of_le (hm l hl) hn1) (fun α hα hc => hmn α hα (hc _ (by simp)))
        refine ⟨s2, r, g1, ?_, by simp⟩
        intro out'' e; injection e with e; subst e
        refine ⟨hD.trans g2, ?_, ?_, by simp [hfe], fun l e hl => (hnone l e hl).elim, ?_⟩
        · rw [g3]
          rcases g4 with ⟨rfl, -⟩ | ⟨rfl, -⟩
          · exact R.reif.var
          · exact Nat.lt_of_lt_of_le h.wf.nv hn1
        · intro α hα hs
          rcases g4 with ⟨rfl, hp⟩ | ⟨rfl, hu, -⟩
          · exact hmn α (g2.rstep.sol hα) (hα.2.1 _ (by rw [hp]; simp)) hs
          · exact absurd hα (hu α)
        · intro hlen _ hamo0 hL α hα b hb
          have hn' := hamo0 out' hoeq
          have hlen' : 2 ≤ out'.length := by
            match hq : out, hlen with
            | y :: z :: r, _ =>
              have hyz := (amoFilt_head _ _ _ _ hfl).2 y z r rfl
              have hy := (hoeq y).2 (by simp)
              have hz := (hoeq z).2 (by simp)
              match out', hy, hz with
              | [w], hy, hz => simp at hy hz; exact absurd (hy.trans hz.symm) hyz
              | _ :: _ :: _, _, _ => simp
          have hA : Alone α out → Alone α out' := by
            intro hh
            have h5 : Alone α (E.sortVar out) := by
              unfold Alone at *
              exact (hperm.symm.pairwise_iff (fun {a b} hab hba => hab ⟨hba.2, hba.1⟩)).1 hh
            exact List.Pairwise.sublist hsub h5
          obtain ⟨β, x1, x2, x3⟩ := (R.fresh hlen' hn').1 hL α hα b (fun hb' => hA (hb hb').2)
          have hcb : β.clause (out ++ [ctr.neg]) := by
            rw [hcl]
            intro hs
            exact (agree_clause x1 hm).1 (hb (x3.1 hs)).1
          have hS2 : s2.Sol C.Th β := by
            refine ⟨x2.1, ?_, by rw [g2.rstep.th]; exact x2.2.2⟩
            intro D hD'
            rcases g4 with ⟨-, hp⟩ | ⟨-, -, D', hs', hp⟩
            · rw [hp] at hD'
              rcases List.mem_append.1 hD' with h1 | h1
              · simp at h1; subst h1; exact hcb
              · exact x2.2.1 D h1
            · rw [hp] at hD'
              rcases List.mem_append.1 hD' with h1 | h1
              · have := hs'.subset h1
                simp at this; subst this; exact hcb
              · exact x2.2.1 D h1
          rcases g4 with ⟨rfl, hp⟩ | ⟨rfl, hu, -⟩
          · exact ⟨β, x1, hS2, x3⟩
          · exact absurd hS2 (hu β)

end Sat
end Semitone
