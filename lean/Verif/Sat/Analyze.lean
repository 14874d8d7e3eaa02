import Verif.Sat.Visit2

/-!
# Conflict analysis
-/
namespace Semitone
namespace Sat
variable {T : Type}

/-- Literals of the trail that are assigned at the current level and already seen. -/
def cutL (s : Sat T) (seen : List Nat) : List Lit :=
  s.trail.filter (fun q => decide (q.var ∈ seen ∧ s.level q.var = s.dl))

/-- Invariant of the analysis (structural part). -/
structure AnInv (s : Sat T) (a : An) : Prop where
  cnt : a.counter = ((s.cutL a.seen).length : Int)
  lrn : ∀ l ∈ a.learnt, s.value l = some false ∧ 0 < s.level l.var ∧ s.level l.var < s.dl ∧ s.level l.var ≤ a.bt ∧
    l.var ∈ a.seen
  bt : a.bt = 0 ∨ ∃ l ∈ a.learnt, s.level l.var = a.bt
  nd : (a.learnt.map Lit.var).Nodup
  seen : ∀ q : Lit, q.var ∈ a.seen → s.value q = some true → s.level q.var = 0 ∨ s.level q.var = s.dl ∨ q.neg ∈ a.learnt

theorem filter_insert (l : List Lit) (R : Lit → Bool) (seen : List Nat) (q : Lit) (hnd : (l.map Lit.var).Nodup)
    (hq : q ∈ l) (hs : q.var ∉ seen) (hR : R q = true) :
    (l.filter (fun x => decide (x.var ∈ q.var :: seen ∧ R x = true))).length =
    (l.filter (fun x => decide (x.var ∈ seen ∧ R x = true))).length + 1 := by
  induction l with
  | nil => simp at hq
  | cons x xs ih =>
    simp only [List.map_cons, List.nodup_cons] at hnd
    rcases List.mem_cons.1 hq with rfl | hq
    · have e : xs.filter (fun x => decide (x.var ∈ q.var :: seen ∧ R x = true)) =
          xs.filter (fun x => decide (x.var ∈ seen ∧ R x = true)) := by
        apply List.filter_congr
        intro y hy
        have : y.var ≠ q.var := fun h => hnd.1 (List.mem_map.2 ⟨y, hy, h⟩)
        simp [this]
      rw [List.filter_cons_of_pos (by simp [hR]), List.filter_cons_of_neg (by simp [hs]), e, List.length_cons]
    · have hne : x.var ≠ q.var := fun h => hnd.1 (List.mem_map.2 ⟨q, hq, h.symm⟩)
      have := ih hnd.2 hq
      rw [List.filter_cons, List.filter_cons]
      have e : (decide (x.var ∈ q.var :: seen ∧ R x = true)) = decide (x.var ∈ seen ∧ R x = true) := by simp [hne]
      rw [e]
      split
      · rw [List.length_cons, List.length_cons, this]
      · exact this

theorem filter_insert_off (l : List Lit) (R : Lit → Bool) (seen : List Nat) (v : Nat)
    (hR : ∀ x ∈ l, x.var = v → R x = false) :
    l.filter (fun x => decide (x.var ∈ v :: seen ∧ R x = true)) =
    l.filter (fun x => decide (x.var ∈ seen ∧ R x = true)) := by
  apply List.filter_congr
  intro y hy
  by_cases e : y.var = v
  · simp [hR y hy e]
  · simp [e]

theorem cutL_eq (s : Sat T) (seen : List Nat) :
    s.cutL seen = s.trail.filter (fun x => decide (x.var ∈ seen ∧ (fun x : Lit => decide (s.level x.var = s.dl)) x = true)) := by
  simp [cutL]

theorem cutL_mem {s : Sat T} {seen} {q : Lit} : q ∈ s.cutL seen ↔ q ∈ s.trail ∧ q.var ∈ seen ∧ s.level q.var = s.dl := by
  simp [cutL]

/-- The clause represented by the state of the analysis. -/
def anClause (s : Sat T) (a : An) : List Lit := a.learnt ++ (s.cutL a.seen).map Lit.neg

theorem explainStep_spec {O : TheoryOps T} (C : Contract O) {s : Sat T} {ex a q} (hw : s.WF ex) (hd : 0 < s.dl) (ha : s.AnInv a)
    (hq : s.value q = some true) :
    ∃ a', s.explainStep a q = .ok a' ∧ s.AnInv a' ∧ a.counter ≤ a'.counter ∧
      (s.Sem C → ∀ α, s.Sol C.Th α → (α.clause (s.anClause a) ∨ ¬ α.sat q) → α.clause (s.anClause a')) := by
  unfold explainStep
  by_cases h1 : q.var ∈ a.seen
  · refine ⟨a, by simp [h1], ha, Int.le_refl _, ?_⟩
    rintro hS α hα (h | h)
    · exact h
    · rcases ha.seen q h1 hq with h2 | h2 | h2
      · exfalso
        have := hS.val q hq α hα
        rw [h2] at this
        exact h (this (by simp [decUpTo, Asg.all]))
      · refine ⟨q.neg, ?_, (α.sat_neg q).2 h⟩
        have hm : q ∈ s.trail := by
          rcases hw.true_cases hq with h | h
          · exact h
          · have := hw.fixed_level h; omega
        simp only [anClause, List.mem_append, List.mem_map]
        exact Or.inr ⟨q, cutL_mem.2 ⟨hm, h1, h2⟩, rfl⟩
      · exact ⟨q.neg, by simp [anClause, h2], (α.sat_neg q).2 h⟩
  · simp only [h1, if_false, hq, ne_eq, not_true_eq_false]
    by_cases h2 : s.level q.var = s.dl
    · have hm : q ∈ s.trail := by
        rcases hw.true_cases hq with h | h
        · exact h
        · have := hw.fixed_level h; omega
      refine ⟨_, by simp only [h2, if_true]; rfl, ?_, by simp; omega, ?_⟩
      · constructor
        · simp only
          rw [cutL_eq, filter_insert _ _ _ q hw.tnd hm h1 (by simp [h2]), ← cutL_eq, ha.cnt]
          push_cast; rfl
        · intro l hl
          have := ha.lrn l hl
          exact ⟨this.1, this.2.1, this.2.2.1, this.2.2.2.1, by simp [this.2.2.2.2]⟩
        · exact ha.bt
        · exact ha.nd
        · intro x hx hxv
          simp only [List.mem_cons] at hx
          rcases hx with hx | hx
          · right; left; rw [hx]; exact h2
          · exact ha.seen x hx hxv
      · rintro hS α hα (h | h)
        · obtain ⟨l, hl, hs⟩ := h
          refine ⟨l, ?_, hs⟩
          simp only [anClause, List.mem_append, List.mem_map] at hl ⊢
          rcases hl with hl | ⟨x, hx, rfl⟩
          · exact Or.inl hl
          · refine Or.inr ⟨x, ?_, rfl⟩
            rw [cutL_mem] at hx ⊢
            exact ⟨hx.1, by simp [hx.2.1], hx.2.2⟩
        · refine ⟨q.neg, ?_, (α.sat_neg q).2 h⟩
          simp only [anClause, List.mem_append, List.mem_map]
          exact Or.inr ⟨q, cutL_mem.2 ⟨hm, by simp, h2⟩, rfl⟩
    · have hcut : s.cutL (q.var :: a.seen) = s.cutL a.seen := by
        rw [cutL_eq, filter_insert_off, ← cutL_eq]
        intro x _ hx; simp [hx, h2]
      simp only [h2, if_false]
      by_cases h3 : 0 < s.level q.var
      · refine ⟨_, by simp only [h3, if_true]; rfl, ?_, by simp, ?_⟩
        · constructor
          · simp only [hcut]; exact ha.cnt
          · intro l hl
            simp only [List.mem_append, List.mem_singleton] at hl
            rcases hl with hl | rfl
            · have := ha.lrn l hl
              refine ⟨this.1, this.2.1, this.2.2.1, ?_, by simp [this.2.2.2.2]⟩
              simp only; omega
            · refine ⟨?_, ?_, ?_, ?_, by simp⟩
              · rw [value_neg_false]; exact hq
              · exact h3
              · have := hw.level_le q.var
                simp only [Lit.neg_var]; omega
              · simp only [Lit.neg_var]; omega
          · simp only
            rcases Nat.le_total a.bt (s.level q.var) with h | h
            · right; exact ⟨q.neg, by simp, by simp [Nat.max_eq_right h]⟩
            · rw [Nat.max_eq_left h]
              rcases ha.bt with h4 | ⟨l, hl, h4⟩
              · left; exact h4
              · right; exact ⟨l, by simp [hl], h4⟩
          · simp only [List.map_append, List.map_cons, List.map_nil, List.nodup_append]
            refine ⟨ha.nd, by simp, ?_⟩
            intro x hx y hy
            simp at hy; subst hy
            intro e; subst e
            obtain ⟨l, hl, e⟩ := List.mem_map.1 hx
            have := (ha.lrn l hl).2.2.2.2
            rw [e] at this; exact h1 this
          · intro x hx hxv
            simp only [List.mem_cons] at hx
            rcases hx with hx | hx
            · right; right
              have : x = q := by
                rcases Lit.eq_or_neg hx with e | e
                · exact e
                · rw [e, value_neg_true, hq] at hxv; cases hxv
              simp [this]
            · rcases ha.seen x hx hxv with h | h | h
              · exact Or.inl h
              · exact Or.inr (Or.inl h)
              · right; right; simp [h]
        · rintro hS α hα (h | h)
          · obtain ⟨l, hl, hs⟩ := h
            refine ⟨l, ?_, hs⟩
            simp only [anClause, hcut, List.mem_append] at hl ⊢
            rcases hl with hl | hl
            · exact Or.inl (Or.inl hl)
            · exact Or.inr hl
          · exact ⟨q.neg, by simp [anClause], (α.sat_neg q).2 h⟩
      · refine ⟨_, by simp only [h3, if_false]; rfl, ?_, by simp, ?_⟩
        · constructor
          · simp only [hcut]; exact ha.cnt
          · intro l hl
            have := ha.lrn l hl
            exact ⟨this.1, this.2.1, this.2.2.1, this.2.2.2.1, by simp [this.2.2.2.2]⟩
          · exact ha.bt
          · exact ha.nd
          · intro x hx hxv
            simp only [List.mem_cons] at hx
            rcases hx with hx | hx
            · left; rw [hx]; omega
            · exact ha.seen x hx hxv
        · rintro hS α hα (h | h)
          · simpa only [anClause, hcut] using h
          · exfalso
            have := hS.val q hq α hα
            have h0 : s.level q.var = 0 := by omega
            rw [h0] at this
            exact h (this (by simp [decUpTo, Asg.all]))

theorem explain_spec {O : TheoryOps T} (C : Contract O) {s : Sat T} {ex} (hw : s.WF ex) (hd : 0 < s.dl) (pr : List Lit) :
    ∀ a, s.AnInv a → (∀ q ∈ pr, s.value q = some true) →
    ∃ a', s.explain pr a = .ok a' ∧ s.AnInv a' ∧ a.counter ≤ a'.counter ∧
      ((∃ q ∈ pr, s.level q.var = s.dl ∧ q.var ∉ a.seen) → a.counter < a'.counter) ∧
      (s.Sem C → ∀ α, s.Sol C.Th α → (α.clause (s.anClause a) ∨ ∃ q ∈ pr, ¬ α.sat q) → α.clause (s.anClause a')) := by
  induction pr with
  | nil => intro a ha _; exact ⟨a, rfl, ha, Int.le_refl _, by simp, fun _ α _ h => by simpa using h⟩
  | cons q qs ih =>
    intro a ha hpr
    obtain ⟨a1, he, ha1, hle, hS1⟩ := explainStep_spec C hw hd ha (hpr q (by simp))
    obtain ⟨a2, he2, ha2, hle2, hlt2, hS2⟩ := ih a1 ha1 (fun x hx => hpr x (by simp [hx]))
    refine ⟨a2, by simp [explain, he, he2], ha2, by omega, ?_, ?_⟩
    · rintro ⟨x, hx, hxl, hxs⟩
      by_cases hxq : x.var ∈ a1.seen
      · -- then `x` has the variable of `q`
        have hq1 : s.explainStep a q = .ok a1 := he
        unfold explainStep at hq1
        by_cases h1 : q.var ∈ a.seen
        · simp [h1] at hq1; rw [← hq1] at hxq; exact absurd hxq hxs
        · simp only [h1, if_false, hpr q (by simp), ne_eq, not_true_eq_false] at hq1
          have hx2 : x.var = q.var := by
            by_cases h2 : s.level q.var = s.dl
            · simp only [h2, if_true] at hq1; injection hq1 with hq1; rw [← hq1] at hxq
              simp at hxq; rcases hxq with h | h
              · exact h
              · exact absurd h hxs
            · simp only [h2, if_false] at hq1
              split at hq1 <;> (injection hq1 with hq1; rw [← hq1] at hxq; simp at hxq; rcases hxq with h | h)
              · exact h
              · exact absurd h hxs
              · exact h
              · exact absurd h hxs
          have h2 : s.level q.var = s.dl := by rw [← hx2]; exact hxl
          simp only [h2, if_true] at hq1; injection hq1 with hq1; rw [← hq1] at hle2; simp at hle2; omega
      · rcases List.mem_cons.1 hx with rfl | hx
        · exfalso
          have hq1 : s.explainStep a x = .ok a1 := he
          unfold explainStep at hq1
          simp only [hxs, if_false, hpr x (by simp), ne_eq, not_true_eq_false, hxl, if_true] at hq1
          injection hq1 with hq1; rw [← hq1] at hxq; simp at hxq
        · have := hlt2 ⟨x, hx, hxl, hxq⟩; omega
    · intro hS α hα h
      apply hS2 hS α hα
      rcases h with h | ⟨x, hx, hxs⟩
      · exact Or.inl (hS1 hS α hα (Or.inl h))
      · rcases List.mem_cons.1 hx with rfl | hx
        · exact Or.inl (hS1 hS α hα (Or.inr hxs))
        · exact Or.inr ⟨x, hx, hxs⟩

/-! ### walking back the trail -/

theorem Cut.fields {s s' : Sat T} (h : Cut s s') : s'.db = s.db ∧ s'.constrs = s.constrs ∧ s'.posted = s.posted ∧
    s'.nvars = s.nvars ∧ s'.propQ = s.propQ ∧ s'.watches = s.watches ∧ s'.ncls = s.ncls ∧ s'.exprs = s.exprs ∧
    s'.bounds = s.bounds ∧ s'.dead = s.dead ∧ s'.listening = s.listening := by
  rw [h.fr]; simp

/-- Levels do not increase from the top of the trail to the bottom. -/
theorem WF.head_level {s : Sat T} {ex p tr} (hw : s.WF ex) (htr : s.trail = p :: tr) {q : Lit} (hq : q ∈ s.trail) :
    s.level q.var ≤ s.level p.var := by
  obtain ⟨t, ht⟩ := mem_suffix hq
  rw [hw.tlv q t ht, hw.tlv p tr (by rw [htr]; exact List.suffix_refl _)]
  have : t.length ≤ tr.length := by have := suffix_len ht; rw [htr] at this; simp at this; omega
  apply List.countP_mono_left
  intro l _ hl
  simp at hl ⊢; omega

theorem WF.top_lims {s : Sat T} {ex p tr} (hw : s.WF ex) (htr : s.trail = p :: tr) (hl : s.level p.var = s.dl) :
    ∀ l ∈ s.trailLim, l ≤ tr.length := by
  have h := hw.tlv p tr (by rw [htr]; exact List.suffix_refl _)
  rw [hl, dl] at h
  have := List.countP_eq_length.1 h.symm
  intro l hlm; simpa using this l hlm

/-- Below a decision there is no literal of its level. -/
theorem WF.below_decision {s : Sat T} {ex p tr} (hw : s.WF ex) (hd : 0 < s.dl) (htr : s.trail = p :: tr) (hl : s.level p.var = s.dl)
    (hr : s.reason p.var = none) : ∀ q ∈ tr, s.level q.var ≠ s.dl := by
  intro q hq
  rcases hw.tdc p tr (by rw [htr]; exact List.suffix_refl _) hr with h | h
  · omega
  · obtain ⟨t, ht⟩ := mem_suffix hq
    have ht' : (q :: t) <:+ s.trail := by rw [htr]; exact ht.trans (List.suffix_cons _ _)
    rw [hw.tlv q t ht', dl]
    intro e
    have h1 := List.countP_eq_length.1 e _ h
    have h2 := suffix_len ht
    simp at h1
    omega

/-- The result of the analysis. -/
structure Analyzed {O : TheoryOps T} (C : Contract O) (P : Prop) (s s' : Sat T) (ng : List Lit) (bt : Nat) : Prop where
  wf : s'.WF noEx
  cut : Cut s s'
  dl : s'.dl = s.dl
  th : s'.th = s.th
  shape : ∃ p learnt, ng = p.neg :: learnt ∧ s'.value p = none ∧ p ∈ s.trail ∧ s.level p.var = s.dl ∧ p.var < s.nvars ∧
    (∀ l ∈ learnt, s'.value l = some false ∧ s'.level l.var ≤ bt) ∧
    (bt = 0 ∨ ∃ l ∈ learnt, s'.level l.var = bt) ∧ (learnt = [] → bt = 0) ∧ (learnt.map Lit.var).Nodup ∧
    (∀ l ∈ learnt, 0 < s'.level l.var)
  bt : bt < s.dl
  low : ∀ q ∈ s.trail, s.level q.var < s.dl → q ∈ s'.trail
  ent : P → s.Ent C.Th ng

theorem AnInv.bt_lt {s : Sat T} {a} (h : s.AnInv a) (hd : 0 < s.dl) : a.bt < s.dl := by
  rcases h.bt with h1 | ⟨l, hl, h1⟩
  · omega
  · have := (h.lrn l hl).2.2.1; omega

theorem analyzeGo_spec {O : TheoryOps T} (C : Contract O) (P : Prop) (n : Nat) : ∀ (s : Sat T) (a : An) (pr : List Lit),
    s.WF noEx → s.propQ = [] → 0 < s.dl → s.AnInv a → s.trail.length < n →
    (P → s.Sem C) → (P → s.Ent C.Th (s.anClause a)) →
    (0 < a.counter → ∃ r, analyzeGo n s a pr = .ok r) ∧
    (∀ s' ng bt, analyzeGo n s a pr = .ok (s', ng, bt) → Analyzed C P s s' ng bt) := by
  induction n with
  | zero => intro s a pr hw hq hd ha hn; omega
  | succ n ih =>
    intro s a pr hw hq hd ha hn hS hE
    match htr : s.trail with
    | [] =>
      refine ⟨?_, ?_⟩
      · intro hc; rw [ha.cnt] at hc; simp [cutL, htr] at hc
      · intro s' ng bt h; simp [analyzeGo, htr] at h
    | p :: tr =>
      by_cases hl : s.level p.var = s.dl
      swap
      · refine ⟨?_, ?_⟩
        · intro hc
          exfalso
          rw [ha.cnt] at hc
          have : s.cutL a.seen ≠ [] := by intro e; rw [e] at hc; simp at hc
          obtain ⟨x, hx⟩ := List.exists_mem_of_ne_nil _ this
          rw [cutL_mem] at hx
          have h1 := hw.head_level htr hx.1
          have h2 := hw.level_le p.var
          omega
        · intro s' ng bt h; simp [analyzeGo, htr, hl] at h
      · -- the top literal belongs to the current level
        have hpm : p ∈ s.trail := by rw [htr]; simp
        have hlims := hw.top_lims htr hl
        have hw' : s.popOne.WF noEx := hw.popOne hq (fun l hl' => Or.inl (by have := hlims l hl'; rw [htr]; simp; omega))
        have hcut : Cut s s.popOne := popOne_cut hw
        have hs := popOne_eq htr
        have hq' : s.popOne.propQ = [] := by rw [hs]; exact hq
        have hdl' : s.popOne.dl = s.dl := by rw [hs]; rfl
        have hth' : s.popOne.th = s.th := by rw [hs]
        have hpt : ∀ q ∈ tr, q.var ≠ p.var := by
          have hnd := hw.tnd
          rw [htr] at hnd
          simp only [List.map_cons, List.nodup_cons] at hnd
          exact fun q hq e => hnd.1 (List.mem_map.2 ⟨q, hq, e⟩)
        have hvne : ∀ q : Lit, q.var ≠ p.var → s.popOne.value q = s.value q := by
          intro q e; simp [value, hs, upd_ne _ _ e]
        have hlne : ∀ v : Nat, v ≠ p.var → s.popOne.level v = s.level v := by
          intro v e; simp [hs, upd_ne _ _ e]
        have hvp : s.popOne.value p = none := by rw [value_none]; simp [hs]
        -- the reason of `p`
        have hreason : ∃ pr', s.reasonLits p pr = .ok pr' ∧
            ((s.reason p.var = none ∧ pr' = pr) ∨ (∃ c rest, s.reason p.var = some c ∧ c ∈ s.constrs ∧ s.db c = p :: rest ∧
              pr' = rest.map Lit.neg ∧ ∀ q ∈ rest, s.popOne.value q.neg = some true)) := by
          match hr : s.reason p.var with
          | none => exact ⟨pr, by simp [reasonLits, hr], Or.inl ⟨rfl, rfl⟩⟩
          | some c =>
            obtain ⟨hcm, b, rest, hb, hdb⟩ := hw.rsn _ _ hr
            have hpb : (⟨p.var, b⟩ : Lit) = p := by
              have := hw.tval p hpm; rw [hb] at this; injection this with this; cases p; simp_all
            rw [hpb] at hdb
            have htrue : ∀ q ∈ rest, s.popOne.value q.neg = some true := by
              intro q hq
              rcases hw.trs p tr (by rw [htr]; exact List.suffix_refl _) c rest hr hdb q hq with h | h
              · exact hw'.trail_true (by rw [hs]; exact h)
              · exact (hcut.fixed h).1
            have hfalse : ∀ q ∈ rest, s.value q = some false := by
              intro q hq; rw [← value_neg_true]; exact hcut.value_some (htrue q hq)
            refine ⟨rest.map Lit.neg, ?_, Or.inr ⟨c, rest, rfl, hcm, hdb, rfl, htrue⟩⟩
            simp only [reasonLits, hr, getReason, hdb]
            rw [if_pos]
            refine ⟨trivial, ?_⟩
            rw [List.all_eq_true]
            intro q hq; simp [hfalse q hq]
        obtain ⟨pr', hpr', hprc⟩ := hreason
        have hun : analyzeGo (n + 1) s a pr =
            (if p.var ∈ a.seen then
              if 0 < a.counter - 1 then
                match s.popOne.explain pr' { a with counter := a.counter - 1 } with
                | .error e => .error e
                | .ok a => analyzeGo n s.popOne a pr'
              else if a.learnt.all (fun l => s.popOne.value l == some false) then
                .ok (s.popOne, p.neg :: a.learnt, a.bt)
              else .error .assert
            else analyzeGo n s.popOne a pr') := by
          conv_lhs => unfold analyzeGo
          simp only [htr, hl, ne_eq, not_true_eq_false, if_false]
          rw [hpr']
          rfl
        -- literals other than `p`
        have hlrn : ∀ l ∈ a.learnt, l.var ≠ p.var := by
          intro l hl' e
          have := (ha.lrn l hl').2.2.1
          rw [e, hl] at this; omega
        have hcut1 : ∀ seen : List Nat, s.popOne.cutL seen = tr.filter (fun q => decide (q.var ∈ seen ∧ s.level q.var = s.dl)) := by
          intro seen
          have e1 : s.popOne.trail = tr := by rw [hs]
          unfold cutL
          rw [e1]
          apply List.filter_congr
          intro q hq
          rw [hlne _ (hpt q hq), hdl']
        have hcut2 : ∀ seen : List Nat, s.cutL seen = (if p.var ∈ seen then [p] else []) ++ s.popOne.cutL seen := by
          intro seen
          rw [hcut1]
          unfold cutL
          rw [htr, List.filter_cons]
          by_cases h : p.var ∈ seen <;> simp [h, hl]
        have hinv : ∀ k : Int, k = ((s.popOne.cutL a.seen).length : Int) → s.popOne.AnInv { a with counter := k } := by
          intro k hk
          constructor
          · exact hk
          · intro l hl'
            have h1 := ha.lrn l hl'
            have h2 := hlrn l hl'
            rw [hvne l h2, hlne _ h2, hdl']
            exact h1
          · rcases ha.bt with h | ⟨l, hl', h⟩
            · exact Or.inl h
            · right; exact ⟨l, hl', by rw [hlne _ (hlrn l hl')]; exact h⟩
          · exact ha.nd
          · intro q hq1 hq2
            have hne : q.var ≠ p.var := by
              intro e
              have : s.popOne.value q = none := by rw [value_none, e, ← value_none]; exact hvp
              rw [this] at hq2; cases hq2
            rw [hvne q hne] at hq2
            rw [hlne _ hne, hdl']
            exact ha.seen q hq1 hq2
        have hsol : ∀ α, s.popOne.Sol C.Th α ↔ s.Sol C.Th α := by
          intro α; rw [hs]; exact Iff.rfl
        have hsem : s.Sem C → s.popOne.Sem C := by
          intro hS
          refine ⟨?_, ?_⟩
          · intro c hc α hα
            rw [hs] at hc ⊢
            exact hS.cls c hc α ((hsol α).1 hα)
          · intro q hq α hα hdd
            have h1 := hcut.value_some hq
            rw [hcut.level_some hq] at hdd
            refine hS.val q h1 α ((hsol α).1 hα) ?_
            have : s.popOne.decUpTo = s.decUpTo := by rw [hs]; rfl
            rw [this] at hdd; exact hdd
        have hnlen : s.popOne.trail.length < n := by rw [hs]; rw [htr] at hn; simp at hn ⊢; omega
        -- transfer of the result
        have hres : ∀ s' ng bt, Analyzed C P s.popOne s' ng bt → Analyzed C P s s' ng bt := by
          intro s' ng bt h
          refine ⟨h.wf, hcut.trans h.cut, h.dl.trans hdl', h.th.trans hth', ?_, by rw [← hdl']; exact h.bt, ?_, ?_⟩
          · obtain ⟨p', learnt, e1, e2, e3, e4, e5, e6⟩ := h.shape
            have hm : p' ∈ tr := by rw [hs] at e3; exact e3
            refine ⟨p', learnt, e1, e2, by rw [htr]; simp [hm], ?_, by rw [hs] at e5; exact e5, e6⟩
            rw [hlne _ (hpt p' hm), hdl'] at e4; exact e4
          · intro q hqm hql
            have hm : q ∈ tr := by
              rw [htr] at hqm
              rcases List.mem_cons.1 hqm with rfl | hm
              · omega
              · exact hm
            exact h.low q (by rw [hs]; exact hm) (by rw [hlne _ (hpt q hm), hdl']; exact hql)
          · intro hP α hα; exact h.ent hP α ((hsol α).2 hα)
        by_cases hseen : p.var ∈ a.seen
        · have hcl : s.cutL a.seen = p :: s.popOne.cutL a.seen := by rw [hcut2]; simp [hseen]
          have hcnt : a.counter - 1 = ((s.popOne.cutL a.seen).length : Int) := by
            rw [ha.cnt, hcl]; simp
          have hinv1 := hinv (a.counter - 1) hcnt
          rw [hun]
          simp only [hseen, if_true]
          by_cases hpos : 0 < a.counter - 1
          · -- `p` is not a decision
            have hr : ∃ c rest, s.reason p.var = some c ∧ c ∈ s.constrs ∧ s.db c = p :: rest ∧
                pr' = rest.map Lit.neg ∧ ∀ q ∈ rest, s.popOne.value q.neg = some true := by
              rcases hprc with ⟨h, _⟩ | h
              · exfalso
                have hb := hw.below_decision hd htr hl h
                rw [hcnt] at hpos
                have : s.popOne.cutL a.seen ≠ [] := by intro e; rw [e] at hpos; simp at hpos
                obtain ⟨x, hx⟩ := List.exists_mem_of_ne_nil _ this
                rw [hcut1] at hx
                simp at hx
                exact hb x hx.1 hx.2.2
              · exact h
            obtain ⟨c, rest, hr1, hr2, hr3, hr4, hr5⟩ := hr
            obtain ⟨a2, he, ha2, hle, _, hS2⟩ := explain_spec C hw' (by rw [hdl']; exact hd) pr' _ hinv1
              (by intro q hq; rw [hr4] at hq; obtain ⟨x, hx, rfl⟩ := List.mem_map.1 hq; exact hr5 x hx)
            simp only [hpos, if_true, he]
            have hE2 : P → s.popOne.Ent C.Th (s.popOne.anClause a2) := by
              intro hP α hα
              have hα' := (hsol α).1 hα
              apply hS2 (hsem (hS hP)) α hα
              obtain ⟨l, hl', hs'⟩ := hE hP α hα'
              simp only [anClause, hcl, List.map_cons, List.mem_append, List.mem_cons] at hl'
              rcases hl' with h | h | h
              · left; exact ⟨l, by simp [anClause, h], hs'⟩
              · right
                obtain ⟨x, hx, hxs⟩ := (hS hP).cls c hr2 α hα'
                rw [hr3] at hx
                rcases List.mem_cons.1 hx with rfl | hx
                · rw [h] at hs'; exact absurd hxs ((α.sat_neg _).1 hs')
                · refine ⟨x.neg, by rw [hr4]; exact List.mem_map.2 ⟨x, hx, rfl⟩, ?_⟩
                  rw [Asg.sat_neg]; exact fun h => h hxs
              · left; exact ⟨l, by simp only [anClause, List.mem_append]; exact Or.inr h, hs'⟩
            have := ih s.popOne a2 pr' hw' hq' (by rw [hdl']; exact hd) ha2 hnlen (fun hP => hsem (hS hP)) hE2
            refine ⟨fun _ => this.1 (by simp only at hle; omega), fun s' ng bt h => hres _ _ _ (this.2 s' ng bt h)⟩
          · simp only [hpos, if_false]
            have hall : a.learnt.all (fun l => s.popOne.value l == some false) = true := by
              rw [List.all_eq_true]
              intro l hl'
              rw [hvne l (hlrn l hl')]; simp [(ha.lrn l hl').1]
            simp only [hall, if_true]
            refine ⟨fun _ => ⟨_, rfl⟩, ?_⟩
            intro s' ng bt h
            injection h with h; injection h with h1 h2; injection h2 with h2 h3
            subst h1 h2 h3
            have hlow : ∀ q ∈ s.trail, s.level q.var < s.dl → q ∈ s.popOne.trail := by
              intro q hqm hql
              rw [htr] at hqm
              rcases List.mem_cons.1 hqm with rfl | hm
              · omega
              · rw [hs]; exact hm
            refine ⟨hw', hcut, hdl', hth', ?_, ha.bt_lt hd, hlow, ?_⟩
            · refine ⟨p, a.learnt, rfl, hvp, hpm, hl, hw.rng _ (by rw [hw.tval p hpm]; simp), ?_, ?_, ?_, ha.nd, ?_⟩
              · intro l hl'
                have := hinv1.lrn l hl'
                exact ⟨this.1, this.2.2.2.1⟩
              · exact hinv1.bt
              · intro e
                rcases hinv1.bt with h | ⟨l, hl', _⟩
                · exact h
                · simp only at hl'; rw [e] at hl'; simp at hl'
              · intro l hl'; exact (hinv1.lrn l hl').2.1
            · intro hP α hα
              obtain ⟨l, hl', hs'⟩ := hE hP α hα
              refine ⟨l, ?_, hs'⟩
              have hnil : s.popOne.cutL a.seen = [] := by
                have : ((s.popOne.cutL a.seen).length : Int) ≤ 0 := by rw [← hcnt]; omega
                exact List.length_eq_zero_iff.1 (by omega)
              simp only [anClause, hcl, hnil, List.map_cons, List.map_nil, List.mem_append, List.mem_singleton] at hl'
              rcases hl' with h | h
              · simp [h]
              · simp [h]
        · have hcl : s.cutL a.seen = s.popOne.cutL a.seen := by rw [hcut2]; simp [hseen]
          have hinv1 := hinv a.counter (by rw [ha.cnt, hcl])
          rw [hun]
          simp only [hseen, if_false]
          have := ih s.popOne a pr' hw' hq' (by rw [hdl']; exact hd) hinv1 hnlen (fun hP => hsem (hS hP)) (by
            intro hP α hα
            have := hE hP α ((hsol α).1 hα)
            simpa only [anClause, hcl] using this)
          exact ⟨this.1, fun s' ng bt h => hres _ _ _ (this.2 s' ng bt h)⟩

theorem analyze_spec {O : TheoryOps T} (C : Contract O) {s : Sat T} {cl : List Lit} (hw : s.WF noEx) (hq : s.propQ = [])
    (hd : 0 < s.dl) (P : Prop) (hSP : P → s.Sem C) (hE : P → s.Ent C.Th cl) :
    ((∀ q ∈ cl, s.value q = some false) → (∃ q ∈ cl, s.level q.var = s.dl) → ∃ r, s.analyze cl = .ok r) ∧
    (∀ s' ng bt, s.analyze cl = .ok (s', ng, bt) → Analyzed C P s s' ng bt ∧ ∀ q ∈ cl, s.value q = some false) := by
  have h0 : s.AnInv { seen := [], counter := 0, learnt := [], bt := 0 } := by
    constructor
    · simp only [cutL]
      rw [List.filter_eq_nil_iff.2]
      · rfl
      · intro q _; simp
    all_goals simp
  by_cases hf : ∀ q ∈ cl, s.value q = some false
  · have hr : s.getReason cl none = .ok (cl.map Lit.neg) := by
      simp only [getReason]
      rw [if_pos]
      rw [List.all_eq_true]; intro q hq; simp [hf q hq]
    have htrue : ∀ q ∈ cl.map Lit.neg, s.value q = some true := by
      intro q hq; obtain ⟨x, hx, rfl⟩ := List.mem_map.1 hq
      rw [value_neg_true]; exact hf x hx
    obtain ⟨a, he, ha, hle, hlt, hS⟩ := explain_spec C hw hd _ _ h0 htrue
    have := analyzeGo_spec C P (s.trail.length + 1) s a (cl.map Lit.neg) hw hq hd ha (by omega) hSP (by
      intro hSem α hα
      apply hS (hSP hSem) α hα
      right
      obtain ⟨l, hl, hs⟩ := hE hSem α hα
      refine ⟨l.neg, List.mem_map.2 ⟨l, hl, rfl⟩, ?_⟩
      rw [Asg.sat_neg]; exact fun h => h hs)
    have hun : s.analyze cl = analyzeGo (s.trail.length + 1) s a (cl.map Lit.neg) := by
      unfold analyze; rw [hr]; simp only; rw [he]
    rw [hun]
    refine ⟨fun _ hx => this.1 ?_, fun s' ng bt h => ⟨this.2 s' ng bt h, hf⟩⟩
    obtain ⟨q, hq1, hq2⟩ := hx
    exact hlt ⟨q.neg, List.mem_map.2 ⟨q, hq1, rfl⟩, hq2, by simp⟩
  · refine ⟨fun h => absurd h hf, ?_⟩
    intro s' ng bt h
    have : s.getReason cl none = .error .assert := by
      simp only [getReason]
      rw [if_neg]
      rw [List.all_eq_true]
      intro h; apply hf; intro q hq; simpa using h q hq
    unfold analyze at h
    rw [this] at h; cases h

end Sat
end Semitone
