import Verif.Sat.Light

/-!
# Retractions: a clause that is properly watched stays so
-/
namespace Semitone
namespace Sat
variable {T : Type}

theorem Wtd.toC {s : Sat T} {c : Nat} (h : s.Wtd c) : s.WtdC c := Wt.mono h (fun _ _ h => h.elim) (fun _ => rfl)

/-- The queue is emptied: what it contains was assigned at the current level. -/
theorem WtdC.clearQ {s : Sat T} {c : Nat} (hw : s.TW) (h : s.WtdC c) : ({ s with propQ := [] } : Sat T).WtdC c := by
  obtain ⟨l0, l1, r, e, a, b⟩ := h.wat
  have go : ∀ {w w'}, s.WOk (fun w => s.level w.var = s.dl) w w' → ({ s with propQ := [] } : Sat T).WOk (fun w => s.level w.var = s.dl) w w' := by
    intro w w' hw' hf
    rcases hw' hf with h1 | h1 | h1
    · right; left
      have := (hw.que _ h1).2
      rwa [Lit.neg_var] at this
    · exact .inr (.inl h1)
    · exact .inr (.inr h1)
  exact ⟨h.lt, h.nd, h.cnt, l0, l1, r, e, go a, go b⟩

/-- One literal of the current level is retracted. -/
theorem popOne_down {s : Sat T} {p : Lit} {tr : List Lit} (h : s.TW) (hq : s.propQ = []) (htr : s.trail = p :: tr) (hl : s.level p.var = s.dl) :
    s.popOne.TW ∧ Cut s s.popOne ∧ s.popOne.propQ = [] ∧ s.popOne.trailLim = s.trailLim ∧ s.popOne.decisions = s.decisions ∧ s.popOne.th = s.th ∧
      (∀ q b, s.value q = some b → s.level q.var < s.dl → s.popOne.value q = some b) := by
  have hs := popOne_eq htr
  have hlt : ∀ l ∈ s.trailLim, l < s.trail.length := by
    have h1 := h.tlv p tr (by rw [htr]; exact List.suffix_refl _)
    rw [hl] at h1
    have h2 := (List.countP_eq_length (p := fun l => decide (l ≤ tr.length)) (l := s.trailLim)).1 h1.symm
    intro l hl'
    have := h2 l hl'
    simp at this
    rw [htr]; simp; omega
  refine ⟨h.popOne hq (fun l hl' => .inl (hlt l hl')), popOne_cut2 h, by rw [hs]; exact hq, by rw [hs], by rw [hs], by rw [hs], fun q b hv hlq => ?_⟩
  have hne : q.var ≠ p.var := fun e => by rw [e, hl] at hlq; exact Nat.lt_irrefl _ hlq
  rw [value_eq] at hv ⊢
  simp [hs, upd_ne _ _ hne, hv]

theorem explainStep_bt {s : Sat T} {a a' : An} {q : Lit} (h : s.TW) (hb : a.bt < s.dl) (he : s.explainStep a q = .ok a') : a'.bt < s.dl := by
  unfold explainStep at he
  split at he
  · injection he with he; subst he; exact hb
  split at he
  · cases he
  split at he
  · injection he with he; subst he; exact hb
  split at he
  · rename_i hne _
    injection he with he; subst he
    have := h.level_le q.var
    show max a.bt (s.level q.var) < s.dl
    omega
  · injection he with he; subst he; exact hb

theorem explain_bt {s : Sat T} (h : s.TW) : ∀ (qs : List Lit) {a a' : An}, a.bt < s.dl → s.explain qs a = .ok a' → a'.bt < s.dl := by
  intro qs
  induction qs with
  | nil => intro a a' hb he; injection he with he; subst he; exact hb
  | cons q qs ih =>
    intro a a' hb he
    simp only [explain] at he
    match hx : s.explainStep a q with
    | .error _ => simp [hx] at he
    | .ok a1 =>
      simp only [hx] at he
      exact ih (explainStep_bt h hb hx) he

/-- What the analysis of a conflict keeps. -/
structure Shrunk (s s' : Sat T) : Prop where
  tw : s'.TW
  cut : Cut s s'
  q : s'.propQ = []
  lim : s'.trailLim = s.trailLim
  decs : s'.decisions = s.decisions
  th : s'.th = s.th
  val : ∀ q b, s.value q = some b → s.level q.var < s.dl → s'.value q = some b

theorem Shrunk.dl {s s' : Sat T} (h : Shrunk s s') : s'.dl = s.dl := by simp [Sat.dl, h.lim]

theorem Shrunk.refl {s : Sat T} (h : s.TW) (hq : s.propQ = []) : Shrunk s s := ⟨h, Cut.refl s, hq, rfl, rfl, rfl, fun _ _ h _ => h⟩

theorem Shrunk.trans {s1 s2 s3 : Sat T} (h1 : Shrunk s1 s2) (h2 : Shrunk s2 s3) : Shrunk s1 s3 :=
  ⟨h2.tw, h1.cut.trans h2.cut, h2.q, h2.lim.trans h1.lim, h2.decs.trans h1.decs, h2.th.trans h1.th, fun q b hv hl => by
    have := h1.val q b hv hl
    exact h2.val q b this (by rw [h1.cut.level_some this, h1.dl]; exact hl)⟩

theorem analyzeGo_down (n : Nat) : ∀ {s s' : Sat T} {a : An} {pr ng : List Lit} {bt : Nat}, s.TW → s.propQ = [] → a.bt < s.dl → analyzeGo n s a pr = .ok (s', ng, bt) →
    Shrunk s s' ∧ bt < s.dl := by
  induction n with
  | zero => intro s s' a pr ng bt _ _ _ h; cases h
  | succ n ih =>
    intro s s' a pr ng bt h hq hb he
    unfold analyzeGo at he
    match htr : s.trail with
    | [] => simp [htr] at he
    | p :: tr =>
      simp only [htr] at he
      split at he
      · cases he
      rename_i hl
      have hl : s.level p.var = s.dl := by simpa using hl
      obtain ⟨w1, w2, w3, w4, w5, w6, w7⟩ := popOne_down h hq htr hl
      have S1 : Shrunk s s.popOne := ⟨w1, w2, w3, w4, w5, w6, w7⟩
      split at he
      · cases he
      rename_i pr' hpr
      split at he
      · split at he
        · split at he
          · cases he
          rename_i a2 hx
          obtain ⟨S2, hb2⟩ := ih w1 w3 (explain_bt w1 pr' (a := { a with counter := a.counter - 1 }) (by rw [S1.dl]; exact hb) hx) he
          exact ⟨S1.trans S2, by rw [← S1.dl]; exact hb2⟩
        · split at he
          · injection he with he; injection he with h1 h2; injection h2 with h2 h3; subst h1 h2 h3
            exact ⟨S1, hb⟩
          · cases he
      · obtain ⟨S2, hb2⟩ := ih w1 w3 (by rw [S1.dl]; exact hb) he
        exact ⟨S1.trans S2, by rw [← S1.dl]; exact hb2⟩

theorem Shrunk.wt {s s' : Sat T} (h : Shrunk s s') (hT : s.TW) (hq : s.propQ = []) {c : Nat} (hc : s.WtdC c) : s'.WtdC c ∧ s'.db c = s.db c := by
  have hdb : s'.db = s.db := by rw [h.cut.fr]
  have hw : s'.watches = s.watches := by rw [h.cut.fr]
  have hn : s'.ncls = s.ncls := by rw [h.cut.fr]
  obtain ⟨l0, l1, r, e, a, b⟩ := hc.wat
  have go : ∀ {w w'}, s.WOk (fun w => s.level w.var = s.dl) w w' → s'.WOk (fun w => s'.level w.var = s'.dl) w w' := by
    intro w w' hw' hf
    have hf0 := h.cut.value_some hf
    have hlv := h.cut.level_some hf
    rcases hw' hf0 with h1 | h1 | ⟨h1, h2⟩
    · rw [hq] at h1; cases h1
    · right; left; show s'.level w.var = s'.dl; rw [hlv, h.dl]; exact h1
    · by_cases hx : s.level w.var = s.dl
      · right; left; show s'.level w.var = s'.dl; rw [hlv, h.dl]; exact hx
      · right; right
        have := hT.level_le w.var
        have hv' := h.val w' true h1 (by omega)
        exact ⟨hv', by rw [h.cut.level_some hv', hlv]; exact h2⟩
  refine ⟨⟨by rw [hn]; exact hc.lt, by rw [hdb]; exact hc.nd, fun m => by rw [hw, hdb]; exact hc.cnt m, l0, l1, r, by rw [hdb]; exact e, go a, go b⟩, by rw [hdb]⟩

/-- The effect of retracting whole levels. -/
structure Lower (s s' : Sat T) : Prop where
  tw : s'.TW
  cut : Cut s s'
  full : Full s s'
  q : s'.propQ = []
  lt : s'.dl < s.dl

theorem Lower.val {s s' : Sat T} (h : Lower s s') (hT : s.TW) {q : Lit} {b} (hq : s.value q = some b) (hl : s.level q.var ≤ s'.dl) : s'.value q = some b :=
  h.cut.survive2 hT (fun q hq hl => (h.full q hq).1 hl) hq hl

theorem Lower.wt {s s' : Sat T} (h : Lower s s') (hT : s.TW) (hq : s.propQ = []) {c : Nat} (hc : s.WtdC c) : s'.Wtd c ∧ s'.db c = s.db c := by
  have hdb : s'.db = s.db := by rw [h.cut.fr]
  have hw : s'.watches = s.watches := by rw [h.cut.fr]
  have hn : s'.ncls = s.ncls := by rw [h.cut.fr]
  obtain ⟨l0, l1, r, e, a, b⟩ := hc.wat
  have go : ∀ {w w'}, s.WOk (fun w => s.level w.var = s.dl) w w' → s'.WOk (fun _ => False) w w' := by
    intro w w' hw' hf
    have hf0 := h.cut.value_some hf
    have hlv := h.cut.level_some hf
    have hle := h.tw.level_le w.var
    have hlt := h.lt
    rcases hw' hf0 with h1 | h1 | ⟨h1, h2⟩
    · rw [hq] at h1; cases h1
    · omega
    · right; right
      have hv' := h.val hT h1 (by omega)
      exact ⟨hv', by rw [h.cut.level_some hv', hlv]; exact h2⟩
  refine ⟨⟨by rw [hn]; exact hc.lt, by rw [hdb]; exact hc.nd, fun m => by rw [hw, hdb]; exact hc.cnt m, l0, l1, r, by rw [hdb]; exact e, go a, go b⟩, by rw [hdb]⟩

theorem popLevels_lower {O : TheoryOps T} {n : Nat} {s s' : Sat T} (h : s.TW) (hq : s.propQ = []) (hn : 0 < n) (he : popLevels O n s = .ok s') : Lower s s' ∧ s.dl = s'.dl + n := by
  obtain ⟨a, b, c, d⟩ := popLevels_spec2 n h hq he
  exact ⟨⟨a, b, d, by rw [b.fr]; exact hq, by omega⟩, c⟩

theorem pop_lower {O : TheoryOps T} {s s' : Sat T} (h : s.TW) (hq : s.propQ = []) (he : s.pop O = .ok s') : Lower s s' ∧ s.dl = s'.dl + 1 := by
  obtain ⟨a, b, c, -, d⟩ := pop_spec2 h hq he
  exact ⟨⟨a, b, d, by rw [b.fr]; exact hq, by omega⟩, c⟩

/-- The effect of backjumping and learning, or of retracting levels. -/
structure Dn (O : TheoryOps T) (s s' : Sat T) : Prop where
  tw : s'.TW
  nv : s'.nvars = s.nvars
  bnd : s'.bounds = s.bounds
  post : s'.posted = s.posted
  dead : s'.dead = s.dead
  lt : s'.dl < s.dl
  th : popTh O (s.dl - s'.dl) s.th = .ok s'.th
  keep : ∀ i q, i ≤ s'.dl → s.tru i q → s'.tru i q
  low : ∀ i q, i < s'.dl → s'.tru i q → s.tru i q
  new : ∀ q, s'.tru s'.dl q → s.tru s'.dl q ∨ q ∈ s'.propQ
  wt : ∀ c, s.WtdC c → s'.Wtd c ∧ ∀ l, l ∈ s'.db c ↔ l ∈ s.db c

theorem Lower.tru_keep {s s' : Sat T} (h : Lower s s') (hT : s.TW) {i : Nat} {q : Lit} (hi : i ≤ s'.dl) (hq : s.tru i q) : s'.tru i q := by
  have hv := h.val hT hq.1 (Nat.le_trans hq.2 hi)
  exact ⟨hv, by rw [h.cut.level_some hv]; exact hq.2⟩

theorem Lower.tru_low {s s' : Sat T} (h : Lower s s') {i : Nat} {q : Lit} (hq : s'.tru i q) : s.tru i q :=
  ⟨h.cut.value_some hq.1, by rw [← h.cut.level_some hq.1]; exact hq.2⟩

theorem Lower.dn {O : TheoryOps T} {s s' : Sat T} (h : Lower s s') (hT : s.TW) (hq : s.propQ = []) (hth : popTh O (s.dl - s'.dl) s.th = .ok s'.th) : Dn O s s' := by
  refine ⟨h.tw, by rw [h.cut.fr], by rw [h.cut.fr], by rw [h.cut.fr], by rw [h.cut.fr], h.lt, hth, fun i q hi hq => h.tru_keep hT hi hq, fun i q hi hq => h.tru_low hq, fun q hq => .inl (h.tru_low hq), fun c hc => ?_⟩
  obtain ⟨a, b⟩ := h.wt hT hq hc
  exact ⟨a, fun l => by rw [b]⟩

theorem Dn.up {O : TheoryOps T} {s s1 s' : Sat T} (h : Dn O s s1) (U : Up s1 s') (hth : s'.th = s1.th) : Dn O s s' := by
  refine ⟨U.tw, U.nv.trans h.nv, U.bnd.trans h.bnd, U.post.trans h.post, U.dead.trans h.dead, by rw [U.dl]; exact h.lt, by rw [U.dl, hth]; exact h.th,
    fun i q hi hq => U.tru_keep (h.keep i q (by rw [← U.dl]; exact hi) hq), fun i q hi hq => h.low i q (by rw [← U.dl]; exact hi) (U.tru_low hi hq), fun q hq => ?_, fun c hc => ?_⟩
  · rcases U.tru_new h.tw hq with h1 | h1
    · rcases h.new q h1 with h2 | h2
      · left; rw [U.dl]; exact h2
      · exact .inr (U.que q h2)
    · exact .inr h1
  · obtain ⟨a, b⟩ := h.wt c hc
    obtain ⟨a', b'⟩ := U.wt c _ _ a
    exact ⟨a', fun l => (b' l).trans (b l)⟩

theorem resolve_dn {E : Env} {O : TheoryOps T} {s s' : Sat T} {cl : List Lit} (h : s.TW) (hq : s.propQ = []) (hd : 0 < s.dl) (he : s.resolveConflict E O cl = .ok s') : Dn O s s' := by
  unfold resolveConflict at he
  match ha : s.analyze cl with
  | .error _ => simp [ha] at he
  | .ok (s1, ng, bt) =>
    simp only [ha] at he
    unfold analyze at ha
    split at ha
    · cases ha
    rename_i pr hpr
    split at ha
    · cases ha
    rename_i a hx
    obtain ⟨S, hbt⟩ := analyzeGo_down _ h hq (explain_bt h pr hd hx) ha
    match hp : popLevels O (s1.dl - bt) s1 with
    | .error _ => simp [hp] at he
    | .ok s2 =>
      simp only [hp] at he
      obtain ⟨L, hdl⟩ := popLevels_lower S.tw S.q (by rw [S.dl]; omega) hp
      have hth := popLevels_popTh _ hp
      obtain ⟨U, hth', -⟩ := record_up L.tw he
      have hlt := L.lt
      have hd1 := S.dl
      have hk : s1.dl - bt = s.dl - s2.dl := by omega
      have D : Dn O s s2 := by
        refine ⟨L.tw, ?_, ?_, ?_, ?_, by omega, by rw [← S.th, ← hk]; exact hth, fun i q hi hq => ?_, fun i q hi hq => ?_, fun q hq => .inl ?_, fun c hc => ?_⟩
        · rw [L.cut.fr, S.cut.fr]
        · rw [L.cut.fr, S.cut.fr]
        · rw [L.cut.fr, S.cut.fr]
        · rw [L.cut.fr, S.cut.fr]
        · have hv := S.val q true hq.1 (by have := hq.2; omega)
          exact L.tru_keep S.tw hi ⟨hv, by rw [S.cut.level_some hv]; exact hq.2⟩
        · have := L.tru_low hq
          exact ⟨S.cut.value_some this.1, by rw [← S.cut.level_some this.1]; exact this.2⟩
        · have := L.tru_low hq
          exact ⟨S.cut.value_some this.1, by rw [← S.cut.level_some this.1]; exact this.2⟩
        · obtain ⟨a1, b1⟩ := S.wt h hq hc
          obtain ⟨a2, b2⟩ := L.wt S.tw S.q a1
          exact ⟨a2, fun l => by rw [b2, b1]⟩
      exact D.up U hth'

theorem analyzeAndBackjump_dn {E : Env} {O : TheoryOps T} {s s' : Sat T} {cl : List Lit} (h : s.TW) (hq : s.propQ = []) (hd : 0 < s.dl) (he : s.analyzeAndBackjump E O cl = .ok s') : Dn O s s' := by
  unfold analyzeAndBackjump at he
  split at he
  · split at he
    · exact resolve_dn h hq hd he
    · cases he
  · cases he

end Sat
end Semitone
