import Verif.Sat.Next

/-!
# `check` keeps the invariant
-/
namespace Semitone
namespace Sat
variable {T : Type}

/-- Everything `check` tells about the state it leaves. -/
structure CheckF {O : TheoryOps T} (C : Contract O) (s s' : Sat T) (ls : List Lit) (b : Bool) : Prop where
  inv : s'.Inv C
  queue : s.propQ = [] → s'.propQ = []
  dl : s'.dl ≤ s.dl
  dec : s'.decisions <:+ s.decisions
  low : ∀ v, s.assigns v ≠ none → s.level v ≤ s'.dl → s'.assigns v = s.assigns v ∧ s'.level v = s.level v
  new : ∀ v, s'.assigns v ≠ none → (s.assigns v ≠ none ∧ s.level v ≤ s'.dl) ∨ (s'.level v = s'.dl ∧ b = false)
  posted : s'.posted = s.posted
  nv : s'.nvars = s.nvars
  exprs : s'.exprs = s.exprs
  linked : ∀ D, s.Linked D → s'.Linked D
  th : ∀ α, C.Th s'.th α ↔ C.Th s.th α
  dead : s.dead = true → s'.dead = true
  bad : s'.dead = true → s.dead = true ∨ (b = false ∧ s.Unsat C.Th)
  good : b = true → s'.dl = s.dl
  ans : b = false → s.UnsatWith C.Th (ls ++ s.decisions)

/-- `s` lies above `s0`: decisions `L` were added, nothing was backjumped. -/
structure Above {O : TheoryOps T} (C : Contract O) (s0 s : Sat T) (L : List Lit) : Prop where
  inv : s.Inv C
  queue : s0.propQ = [] → s.propQ = []
  dl : s.dl = s0.dl + L.length
  dec : s.decisions = L ++ s0.decisions
  low : ∀ v, s0.assigns v ≠ none → s.assigns v = s0.assigns v ∧ s.level v = s0.level v
  new : ∀ v, s.assigns v ≠ none → s0.assigns v ≠ none ∨ s0.dl < s.level v
  posted : s.posted = s0.posted
  nv : s.nvars = s0.nvars
  exprs : s.exprs = s0.exprs
  linked : ∀ D, s0.Linked D → s.Linked D
  th : ∀ α, C.Th s.th α ↔ C.Th s0.th α
  dead : s.dead = s0.dead

theorem Above.refl {O : TheoryOps T} {C : Contract O} {s : Sat T} (h : s.Inv C) : Above C s s [] :=
  ⟨h, id, rfl, rfl, fun _ _ => ⟨rfl, rfl⟩, fun _ h => Or.inl h, rfl, rfl, rfl, fun _ h => h, fun _ => Iff.rfl, rfl⟩

/-- What one round of `check` leaves, before popping: `u` is the state after `assume(p)` and `propagate()`. -/
structure Round {O : TheoryOps T} (C : Contract O) (s u : Sat T) (p : Lit) (b : Bool) : Prop where
  inv : u.Inv C
  queue : u.propQ = []
  dl : u.dl ≤ s.dl + 1
  dec : u.decisions <:+ p :: s.decisions
  low : ∀ v, s.assigns v ≠ none → s.level v ≤ u.dl → u.assigns v = s.assigns v ∧ u.level v = s.level v
  new : ∀ v, u.assigns v ≠ none → s.assigns v ≠ none ∧ s.level v ≤ u.dl ∨ u.level v = u.dl
  posted : u.posted = s.posted
  nv : u.nvars = s.nvars
  exprs : u.exprs = s.exprs
  linked : ∀ D, s.Linked D → u.Linked D
  th : ∀ α, C.Th u.th α ↔ C.Th s.th α
  jump : (u.dl ≤ s.dl ∨ b = false) → s.UnsatWith C.Th (p :: s.decisions)
  dead : s.dead = true → u.dead = true
  bad : u.dead = true → s.dead = true ∨ (b = false ∧ s.Unsat C.Th)

theorem AssumedF.round {O : TheoryOps T} {C : Contract O} {s u : Sat T} {p : Lit} {b : Bool} (a : AssumedF C s u p b) : Round C s u p b :=
  ⟨a.inv, a.queue, a.dl, a.dec, a.low, a.new, a.posted, a.nv, a.exprs, a.linked, a.th, a.jump, a.dead, a.bad⟩

theorem Round.done {O : TheoryOps T} {C : Contract O} {s u w : Sat T} {p : Lit} {b : Bool} (a : Round C s u p true) (d : Done C u w b) : Round C s w p b := by
  have hsol : ∀ α, u.Sol C.Th α ↔ s.Sol C.Th α := Sol.congr a.posted a.th
  refine ⟨d.inv, d.queue, Nat.le_trans d.evo.dl a.dl, d.evo.dec.trans a.dec, ?_, ?_, d.evo.posted.trans a.posted, d.evo.nv.trans a.nv,
    d.evo.exprs.trans a.exprs, fun D hD => d.linked D (a.linked D hD), fun α => (d.th α).trans (a.th α), ?_, ?_, ?_⟩
  · intro v hv hl
    have h1 := a.low v hv (Nat.le_trans hl d.evo.dl)
    have h2 := d.evo.low v (by rw [h1.1]; exact hv) (by rw [h1.2]; exact hl)
    exact ⟨h2.1.trans h1.1, h2.2.1.trans h1.2⟩
  · intro v hv
    have hle := d.inv.wf.level_le v
    rcases d.evo.new v hv with h1 | h1
    · rcases a.new v (by rw [h1.1]; exact hv) with ⟨h2, h3⟩ | h2
      · left
        refine ⟨h2, ?_⟩
        rw [← (a.low v h2 h3).2, h1.2.1]; exact hle
      · right
        have := d.evo.dl
        have e := h1.2.1
        omega
    · exact Or.inr h1
  · rintro (h1 | h1) α hα hd
    · by_cases h2 : u.dl ≤ s.dl
      · exact a.jump (Or.inl h2) α hα hd
      · exact (d.jump (by omega)).1 α ((hsol α).2 hα) (fun l hl => hd l (a.dec.subset hl))
    · exact (d.bad h1).2.2 α ((hsol α).2 hα)
  · intro h
    have := a.dead h
    cases b with
    | true => rw [d.dead rfl]; exact this
    | false => exact (d.bad rfl).1
  · intro h
    cases b with
    | true =>
      rw [d.dead rfl] at h
      rcases a.bad h with h1 | h1
      · exact Or.inl h1
      · exact absurd h1.1 (by simp)
    | false => exact Or.inr ⟨rfl, fun α hα => (d.bad rfl).2.2 α ((hsol α).2 hα)⟩

theorem Above.step {O : TheoryOps T} {C : Contract O} {s0 s u : Sat T} {L : List Lit} {p : Lit} (a : Above C s0 s L) (r : Round C s u p true)
    (hdl : ¬ u.dl ≤ s.dl) : Above C s0 u (p :: L) := by
  have h1 := r.dl
  have h2 := a.dl
  have hd : u.decisions = p :: s.decisions := by
    apply r.dec.eq_of_length
    rw [r.inv.wf.dec]
    show u.dl = _
    simp [a.inv.wf.dec]
    show u.dl = s.dl + 1
    omega
  refine ⟨r.inv, fun _ => r.queue, by simp; omega, by rw [hd, a.dec]; rfl, ?_, ?_, r.posted.trans a.posted, r.nv.trans a.nv, r.exprs.trans a.exprs,
    fun D hD => r.linked D (a.linked D hD), fun α => (r.th α).trans (a.th α), ?_⟩
  · intro v hv
    have h3 := a.low v hv
    have h4 := r.low v (by rw [h3.1]; exact hv) (by have := a.inv.wf.level_le v; omega)
    exact ⟨h4.1.trans h3.1, h4.2.trans h3.2⟩
  · intro v hv
    rcases r.new v hv with ⟨h3, h4⟩ | h3
    · rcases a.new v h3 with h5 | h5
      · exact Or.inl h5
      · right; rw [(r.low v h3 h4).2]; exact h5
    · right; omega
  · rcases hx : u.dead with _ | _
    · cases hy : s0.dead with
      | false => rfl
      | true =>
        rw [← a.dead] at hy
        rw [r.dead hy] at hx; cases hx
    · rcases r.bad hx with h3 | h3
      · rw [← a.dead, h3]
      · simp at h3

/-- Popping back after a failed round. -/
theorem Above.fail {O : TheoryOps T} {C : Contract O} {s0 s u w : Sat T} {L ls : List Lit} {p : Lit} {b : Bool} (a : Above C s0 s L) (r : Round C s u p b)
    (hj : u.dl ≤ s.dl ∨ b = false) (hw : popTo O s0.dl u = .ok w) (hm : ∀ l ∈ p :: L, l ∈ ls) : CheckF C s0 w ls false := by
  have P := popLevels_inv r.inv r.queue hw
  have hsol : ∀ α, s.Sol C.Th α ↔ s0.Sol C.Th α := Sol.congr a.posted a.th
  have hdl := P.dl
  have hw' : w.dl ≤ s0.dl := by omega
  have hal := a.dl
  have hdec : w.decisions <:+ s0.decisions := by
    have h1 : w.decisions <:+ p :: s.decisions := P.evo.dec.trans r.dec
    have h2 : s0.decisions <:+ p :: s.decisions := by
      rw [a.dec]; exact ⟨p :: L, rfl⟩
    refine List.suffix_of_suffix_length_le h1 h2 ?_
    rw [P.inv.wf.dec]
    show w.dl ≤ _
    have : s0.decisions.length = s.decisions.length - L.length := by rw [a.dec]; simp
    rw [this, a.inv.wf.dec]
    show w.dl ≤ s.dl - L.length
    omega
  refine ⟨P.inv, fun _ => by rw [P.cut.fr]; exact r.queue, hw', hdec, ?_, ?_, P.evo.posted.trans (r.posted.trans a.posted),
    P.evo.nv.trans (r.nv.trans a.nv), P.evo.exprs.trans (r.exprs.trans a.exprs),
    fun D hD => P.linked D (r.linked D (a.linked D hD)), fun α => (P.th α).trans ((r.th α).trans (a.th α)), ?_, ?_, by simp, ?_⟩
  · intro v hv hl
    have h3 := a.low v hv
    have h4 := r.low v (by rw [h3.1]; exact hv) (by rw [h3.2]; omega)
    have h5 := P.evo.low v (by rw [h4.1, h3.1]; exact hv) (by rw [h4.2, h3.2]; exact hl)
    exact ⟨h5.1.trans (h4.1.trans h3.1), h5.2.1.trans (h4.2.trans h3.2)⟩
  · intro v hv
    have hle := P.inv.wf.level_le v
    rcases P.evo.new v hv with h1 | h1
    · rcases r.new v (by rw [h1.1]; exact hv) with ⟨h2, h3⟩ | h2
      · rcases a.new v h2 with h5 | h5
        · left
          refine ⟨h5, ?_⟩
          rw [← (a.low v h5).2, ← (r.low v h2 h3).2, h1.2.1]; exact hle
        · have := (r.low v h2 h3).2
          have := h1.2.1
          omega
      · right
        have := h1.2.1
        exact ⟨by omega, rfl⟩
    · exact Or.inr ⟨h1, rfl⟩
  · intro h
    rw [P.dead]; exact r.dead (by rw [a.dead]; exact h)
  · intro h
    rw [P.dead] at h
    rcases r.bad h with h1 | h1
    · left; rw [← a.dead]; exact h1
    · exact Or.inr ⟨rfl, fun α hα => h1.2 α ((hsol α).2 hα)⟩
  · intro _ α hα hd
    refine r.jump hj α ((hsol α).2 hα) ?_
    intro l hl
    rw [a.dec] at hl
    rcases List.mem_cons.1 hl with h1 | h1
    · exact hd l (by simp [hm l (by simp [h1])])
    · rcases List.mem_append.1 h1 with h1 | h1
      · exact hd l (by simp [hm l (by simp [h1])])
      · exact hd l (by simp [h1])

theorem checkGo_spec {E : Env} {O : TheoryOps T} {C : Contract O} {s0 : Sat T} {ls : List Lit} (ps : List Lit) : ∀ (s w : Sat T) (L : List Lit) (b : Bool),
    Above C s0 s L → (∀ l ∈ L, l ∈ ls) → (∀ l ∈ ps, l ∈ ls) → checkGo E O s0.dl ps s = .ok (w, b) →
    (b = false → CheckF C s0 w ls false) ∧ (b = true → ∃ L', L'.length = L.length + ps.length ∧ Above C s0 w L') := by
  induction ps with
  | nil =>
    intro s w L b a _ _ hc
    simp only [checkGo] at hc
    injection hc with hc; injection hc with e1 e2; subst e1 e2
    exact ⟨by simp, fun _ => ⟨L, rfl, a⟩⟩
  | cons p ps ih =>
    intro s w L b a hL hps hc
    have hm : ∀ l ∈ p :: L, l ∈ ls := by
      intro l hl
      rcases List.mem_cons.1 hl with h1 | h1
      · exact hps l (by simp [h1])
      · exact hL l h1
    simp only [checkGo] at hc
    match ha : s.assume E O p with
    | .error e => rw [ha] at hc; cases hc
    | .ok (u, false) =>
      rw [ha] at hc
      simp only at hc
      have r := ((assume_spec a.inv ha).facts a.inv).round
      match hp : popTo O s0.dl u with
      | .error e => rw [hp] at hc; cases hc
      | .ok x =>
        rw [hp] at hc
        simp only at hc
        injection hc with hc; injection hc with e1 e2; subst e1 e2
        exact ⟨fun _ => a.fail r (Or.inr rfl) hp hm, by simp⟩
    | .ok (u, true) =>
      rw [ha] at hc
      simp only at hc
      have r := ((assume_spec a.inv ha).facts a.inv).round
      match hpr : u.propagate E O with
      | .error e => rw [hpr] at hc; cases hc
      | .ok (y, b2) =>
        rw [hpr] at hc
        simp only at hc
        have r2 := r.done (propagate_spec r.inv hpr)
        by_cases hb : b2 = false ∨ y.dl ≤ s.dl
        · rw [if_pos hb] at hc
          match hp : popTo O s0.dl y with
          | .error e => rw [hp] at hc; cases hc
          | .ok x =>
            rw [hp] at hc
            simp only at hc
            injection hc with hc; injection hc with e1 e2; subst e1 e2
            exact ⟨fun _ => a.fail r2 hb.symm hp hm, by simp⟩
        · rw [if_neg hb] at hc
          have hb1 : b2 = true := by
            cases b2 with
            | true => rfl
            | false => exact absurd (Or.inl rfl) hb
          subst hb1
          have a2 := a.step r2 (fun h => hb (Or.inr h))
          obtain ⟨h1, h2⟩ := ih y w (p :: L) b a2 hm (fun l hl => hps l (by simp [hl])) hc
          refine ⟨h1, fun h => ?_⟩
          obtain ⟨L', hl', ha'⟩ := h2 h
          exact ⟨L', by rw [hl']; simp; omega, ha'⟩

theorem check_spec_queue {E : Env} {O : TheoryOps T} {C : Contract O} {s s' : Sat T} {ls : List Lit} {b : Bool} (h : s.Inv C) (hq : s.propQ = [])
    (hc : s.check E O ls = .ok (s', b)) : CheckF C s s' ls b := by
  unfold check at hc
  simp only at hc
  match hg : checkGo E O s.dl ls s with
  | .error e => rw [hg] at hc; cases hc
  | .ok (w, false) =>
    rw [hg] at hc
    simp only at hc
    injection hc with hc; injection hc with e1 e2; subst e1 e2
    exact (checkGo_spec ls s w [] false (Above.refl h) (by simp) (fun _ h => h) hg).1 rfl
  | .ok (w, true) =>
    rw [hg] at hc
    simp only at hc
    obtain ⟨L, hL, a⟩ := (checkGo_spec ls s w [] true (Above.refl h) (by simp) (fun _ h => h) hg).2 rfl
    by_cases hd : s.dl + ls.length ≠ w.dl
    · rw [if_pos hd] at hc; cases hc
    rw [if_neg hd] at hc
    match hp : popTo O s.dl w with
    | .error e => rw [hp] at hc; cases hc
    | .ok x =>
      rw [hp] at hc
      simp only at hc
      injection hc with hc; injection hc with e1 e2; subst e1 e2
      have P := popLevels_inv a.inv (a.queue hq) hp
      have hdl := P.dl
      have hal := a.dl
      have hxl : x.dl = s.dl := by omega
      have hdec : x.decisions <:+ s.decisions := by
        have h2 : s.decisions <:+ w.decisions := by rw [a.dec]; exact ⟨L, rfl⟩
        refine List.suffix_of_suffix_length_le P.evo.dec h2 ?_
        rw [P.inv.wf.dec, h.wf.dec]
        show x.dl ≤ s.dl
        omega
      refine ⟨P.inv, fun _ => by rw [P.cut.fr]; exact a.queue hq, by omega, hdec, ?_, ?_, P.evo.posted.trans a.posted, P.evo.nv.trans a.nv,
        P.evo.exprs.trans a.exprs, fun D hD => P.linked D (a.linked D hD), fun α => (P.th α).trans (a.th α), ?_, ?_, fun _ => hxl, by simp⟩
      · intro v hv hl
        have h3 := a.low v hv
        have h5 := P.evo.low v (by rw [h3.1]; exact hv) (by rw [h3.2]; exact hl)
        exact ⟨h5.1.trans h3.1, h5.2.1.trans h3.2⟩
      · intro v hv
        left
        have hs := P.cut.same v hv
        have hle := P.inv.wf.level_le v
        rcases a.new v (by rw [← hs.1]; exact hv) with h1 | h1
        · exact ⟨h1, by rw [← (a.low v h1).2, ← hs.2.1]; exact hle⟩
        · have := hs.2.1; omega
      · intro hd; rw [P.dead, a.dead]; exact hd
      · intro hd; left; rw [← a.dead, ← P.dead]; exact hd

theorem check_spec {E : Env} {O : TheoryOps T} {C : Contract O} {s s' : Sat T} {ls : List Lit} {b : Bool} (h : s.Inv C)
    (hc : s.check E O ls = .ok (s', b)) : CheckF C s s' ls b := by
  by_cases hq : s.propQ = []
  · exact check_spec_queue h hq hc
  · cases ls with
    | nil =>
      simp [check, checkGo, popTo, popLevels] at hc
      obtain ⟨rfl, rfl⟩ := hc
      exact ⟨h, id, Nat.le_refl _, List.suffix_refl _, fun v _ _ => ⟨rfl, rfl⟩, fun v hv => Or.inl ⟨hv, h.wf.level_le v⟩, rfl, rfl, rfl, fun _ h => h,
        fun _ => Iff.rfl, id, Or.inl, fun _ => rfl, by simp⟩
    | cons p ps =>
      have : s.assume E O p = .error .terminate ∨ s.assume E O p = .error .assert := by
        unfold assume
        split
        · exact Or.inl rfl
        · exact Or.inr rfl
      simp only [check, checkGo] at hc
      rcases this with e | e <;> rw [e] at hc <;> cases hc

end Sat
end Semitone
