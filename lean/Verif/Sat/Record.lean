import Verif.Sat.Analyze

/-!
# Recording clauses, resolving conflicts
-/
namespace Semitone
namespace Sat
variable {T : Type}

/-- How the assignment may evolve without new decisions: levels are only removed from the top, what was assigned at a
surviving level stays, and what is new sits at the current level. -/
structure Evo (s s' : Sat T) : Prop where
  dl : s'.dl ≤ s.dl
  dec : s'.decisions <:+ s.decisions
  low : ∀ v, s.assigns v ≠ none → s.level v ≤ s'.dl →
    s'.assigns v = s.assigns v ∧ s'.level v = s.level v ∧ s'.reason v = s.reason v
  new : ∀ v, s'.assigns v ≠ none →
    (s.assigns v = s'.assigns v ∧ s.level v = s'.level v ∧ s.reason v = s'.reason v) ∨ s'.level v = s'.dl
  posted : s'.posted = s.posted
  nv : s'.nvars = s.nvars
  exprs : s'.exprs = s.exprs

theorem Evo.refl (s : Sat T) : Evo s s :=
  ⟨Nat.le_refl _, List.suffix_refl _, fun _ _ _ => ⟨rfl, rfl, rfl⟩, fun _ _ => Or.inl ⟨rfl, rfl, rfl⟩, rfl, rfl, rfl⟩

theorem Evo.trans {s1 s2 s3 : Sat T} {ex} (hw3 : s3.WF ex) (h1 : Evo s1 s2) (h2 : Evo s2 s3) : Evo s1 s3 where
  dl := Nat.le_trans h2.dl h1.dl
  dec := h2.dec.trans h1.dec
  low := fun v hv hl => by
    have a := h1.low v hv (Nat.le_trans hl h2.dl)
    have b := h2.low v (by rw [a.1]; exact hv) (by rw [a.2.1]; exact hl)
    exact ⟨b.1.trans a.1, b.2.1.trans a.2.1, b.2.2.trans a.2.2⟩
  new := fun v hv => by
    rcases h2.new v hv with a | a
    · rcases h1.new v (by rw [a.1]; exact hv) with b | b
      · exact Or.inl ⟨b.1.trans a.1, b.2.1.trans a.2.1, b.2.2.trans a.2.2⟩
      · right
        have := hw3.level_le v
        have := h2.dl
        omega
    · exact Or.inr a
  posted := h2.posted.trans h1.posted
  nv := h2.nv.trans h1.nv
  exprs := h2.exprs.trans h1.exprs

theorem Grow.evo {s s' : Sat T} (h : Grow s s') : Evo s s' where
  dl := by rw [h.dl]; exact Nat.le_refl _
  dec := by rw [h.dec]; exact List.suffix_refl _
  low := fun v hv _ => h.same v hv
  new := fun v hv => by
    by_cases hs : s.assigns v = none
    · right; rw [h.new v hs hv, h.dl]; rfl
    · left; have := h.same v hs; exact ⟨this.1.symm, this.2.1.symm, this.2.2.symm⟩
  posted := h.posted
  nv := h.nv
  exprs := h.exprs

/-- Cutting the trail is an evolution, if the literals of the surviving levels survive. -/
theorem Cut.evo {s s' : Sat T} (hw : s.WF noEx) (h : Cut s s') (hfull : ∀ q ∈ s.trail, s.level q.var ≤ s'.dl → q ∈ s'.trail) :
    Evo s s' where
  dl := h.dl_le
  dec := h.dec
  low := fun v hv hl => by
    obtain ⟨b, hb⟩ := Option.ne_none_iff_exists'.1 hv
    have h1 : s.value ⟨v, b⟩ = some true := by rw [value_true]; exact hb
    have h2 := h.survive hw hfull h1 hl
    rw [value_true] at h2
    exact h.same v (by rw [h2]; simp)
  new := fun v hv => by
    have := h.same v hv
    exact Or.inl ⟨this.1.symm, this.2.1.symm, this.2.2.symm⟩
  posted := h.fields.2.2.1
  nv := h.fields.2.2.2.1
  exprs := h.fields.2.2.2.2.2.2.2.1

/-- The theories' invariant survives an evolution that keeps the levels and the theories. -/
theorem TInv.evo {O : TheoryOps T} {C : Contract O} {s s' : Sat T} (h : s.TInv C) (he : Evo s s') (hd : s'.dl = s.dl)
    (ht : s'.th = s.th) : s'.TInv C := by
  unfold TInv at *
  rw [hd, ht]
  refine C.mono _ _ _ _ h ?_
  intro i hi q ⟨h1, h2⟩
  rw [value_true] at h1
  have := he.low q.var (by rw [h1]; simp) (by omega)
  refine ⟨by rw [value_true, this.1]; exact h1, by rw [this.2.1]; exact h2⟩

/-- The state after a new clause has been added. -/
def addC (s : Sat T) (lits : List Lit) : Sat T :=
  match lits with
  | l0 :: l1 :: _ =>
    let w := upd s.watches l0.neg (s.watches l0.neg ++ [s.ncls])
    { s with ncls := s.ncls + 1, db := upd s.db s.ncls lits, constrs := s.constrs ++ [s.ncls],
             watches := upd w l1.neg (w l1.neg ++ [s.ncls]) }
  | _ => s

theorem upd_count (w : Lit → List Nat) (l m : Lit) (c x : Nat) :
    (upd w l (w l ++ [c]) m).count x = (w m).count x + (if m = l ∧ x = c then 1 else 0) := by
  by_cases e : m = l
  · subst e
    simp only [upd_self, List.count_append, true_and]
    by_cases e2 : x = c
    · simp [e2]
    · simp [e2, List.count_singleton]
      exact fun h => absurd h.symm e2
  · simp [upd_ne _ _ e, e]

theorem WF.addC {s : Sat T} (h : s.WF noEx) {l0 l1 : Lit} {r : List Lit} (hr : ∀ l ∈ l0 :: l1 :: r, l.var < s.nvars)
    (hn : ∀ l ∈ l0 :: l1 :: r, l.neg ∉ l0 :: l1 :: r) : (s.addC (l0 :: l1 :: r)).WF noEx := by
  have hfresh : s.ncls ∉ s.constrs := fun hm => by have := h.clt _ hm; omega
  have hne : ∀ c ∈ s.constrs, c ≠ s.ncls := fun c hc e => hfresh (e ▸ hc)
  constructor
  case nv => exact h.nv
  case fv => exact h.fv
  case fvt => exact h.fvt
  case rng => exact h.rng
  case tval => exact h.tval
  case tnd => exact h.tnd
  case off => exact h.off
  case rsn =>
    intro v c hc
    obtain ⟨h1, h2⟩ := h.rsn v c hc
    refine ⟨by simp [Sat.addC, h1], ?_⟩
    simp only [Sat.addC, upd_ne _ _ (hne c h1)]; exact h2
  case trs =>
    intro p tr hs c rest hc hdb
    obtain ⟨h1, h2⟩ := h.rsn _ c hc
    simp only [Sat.addC, upd_ne _ _ (hne c h1)] at hdb
    exact h.trs p tr hs c rest hc hdb
  case tlv => exact h.tlv
  case tdc => exact h.tdc
  case lims => exact h.lims
  case limle => exact h.limle
  case dec => exact h.dec
  case que => exact h.que
  case cnd =>
    simp only [Sat.addC, List.nodup_append]
    refine ⟨h.cnd, by simp, ?_⟩
    intro a ha b hb
    simp at hb; subst hb; exact hne a ha
  case clt =>
    intro c hc
    simp only [Sat.addC, List.mem_append, List.mem_singleton] at hc ⊢
    rcases hc with hc | hc
    · have := h.clt c hc; omega
    · omega
  case cln =>
    intro c hc
    simp only [Sat.addC, List.mem_append, List.mem_singleton] at hc ⊢
    rcases hc with hc | hc
    · rw [upd_ne _ _ (hne c hc)]; exact h.cln c hc
    · subst hc; rw [upd_self]; exact ⟨l0, l1, r, rfl⟩
  case crng =>
    intro c hc
    simp only [Sat.addC, List.mem_append, List.mem_singleton] at hc ⊢
    rcases hc with hc | hc
    · rw [upd_ne _ _ (hne c hc)]; exact h.crng c hc
    · subst hc; rw [upd_self]; exact hr
  case cnc =>
    intro c hc
    simp only [Sat.addC, List.mem_append, List.mem_singleton] at hc ⊢
    rcases hc with hc | hc
    · rw [upd_ne _ _ (hne c hc)]; exact h.cnc c hc
    · subst hc; rw [upd_self]; exact hn
  case wat =>
    intro c m
    have h1 := h.wat c m
    simp only [noEx, List.count_nil, Nat.add_zero] at h1 ⊢
    simp only [Sat.addC]
    rw [upd_count, upd_count, h1]
    have e0 : (l0 = m.neg) ↔ (m = l0.neg) := ⟨fun h => by rw [h]; simp, fun h => by rw [h]; simp⟩
    have e1 : (l1 = m.neg) ↔ (m = l1.neg) := ⟨fun h => by rw [h]; simp, fun h => by rw [h]; simp⟩
    by_cases e : c = s.ncls
    · subst e
      simp only [hfresh, if_false, List.mem_append, List.mem_singleton, or_true, if_true, upd_self, wc, e0, e1, and_true]
      omega
    · simp only [e, and_false, if_false, List.mem_append, List.mem_singleton, or_false, upd_ne _ _ e, Nat.add_zero]

theorem Sem.addC {O : TheoryOps T} {C : Contract O} {s : Sat T} {ex} (hw : s.WF ex) (h : s.Sem C) {l0 l1 : Lit} {r : List Lit}
    (hE : s.Ent C.Th (l0 :: l1 :: r)) : (s.addC (l0 :: l1 :: r)).Sem C where
  cls := fun c hc => by
    have hfresh : s.ncls ∉ s.constrs := fun hm => by have := hw.clt _ hm; omega
    simp only [Sat.addC, List.mem_append, List.mem_singleton] at hc
    rcases hc with hc | hc
    · have : c ≠ s.ncls := fun e => hfresh (e ▸ hc)
      simp only [Sat.addC, upd_ne _ _ this]; exact h.cls c hc
    · subst hc; simp only [Sat.addC, upd_self]; exact hE
  val := h.val

/-- Adding a clause whose watches satisfy the watch invariant. -/
theorem Fix.addC {s : Sat T} {ex ok} (hw : s.WF ex) (h : s.Fix ok) {l0 l1 : Lit} {r : List Lit} (hnd : s.Distinct (l0 :: l1 :: r))
    (hok : ∀ w w', (w = l0 ∧ w' = l1) ∨ (w = l1 ∧ w' = l0) → s.value w = some false →
      ok w s.ncls ∨ (s.value w' = some true ∧ s.level w'.var ≤ s.level w.var)) : (s.addC (l0 :: l1 :: r)).Fix ok := by
  have hfresh : s.ncls ∉ s.constrs := fun hm => by have := hw.clt _ hm; omega
  constructor
  · intro c hc
    simp only [Sat.addC, List.mem_append, List.mem_singleton] at hc ⊢
    rcases hc with hc | hc
    · rw [upd_ne _ _ (fun e => hfresh (e ▸ hc) : c ≠ s.ncls)]; exact h.nd c hc
    · subst hc; rw [upd_self]; exact hnd
  · intro c hc w w' r' hd hv
    simp only [Sat.addC, List.mem_append, List.mem_singleton] at hc hd
    rcases hc with hc | hc
    · rw [upd_ne _ _ (fun e => hfresh (e ▸ hc) : c ≠ s.ncls)] at hd; exact h.fx c hc w w' r' hd hv
    · subst hc; rw [upd_self] at hd
      apply hok w w' ?_ hv
      rcases hd with hd | hd
      · left; simp at hd; exact ⟨hd.1.symm, hd.2.1.symm⟩
      · right; simp at hd; exact ⟨hd.2.1.symm, hd.1.symm⟩

/-- The watch invariant under `enq`. -/
theorem Fix.enq {s : Sat T} (h : s.Fix s.okQ) {p : Lit} {c} (hp : s.value p = none) : (s.enq p c).Fix (s.enq p c).okQ := by
  refine ⟨fun x hx => (h.nd x hx).mono (s' := s.enq p c) (fun _ _ hr => enq_rootF hp hr), ?_⟩
  intro x hx w w' r hd hv
  by_cases e : w.var = p.var
  · left
    have : w.neg = p := by
      rcases Lit.eq_or_neg e with e | e
      · rw [e, enq_value_self] at hv; cases hv
      · rw [e]; simp
    show w.neg ∈ (s.enq p c).propQ
    rw [this]; simp [Sat.enq]
  · rw [enq_value_ne e] at hv
    rcases h.fx x hx w w' r hd hv with h1 | h1
    · left; show w.neg ∈ (s.enq p c).propQ; simp [Sat.enq]; exact Or.inl h1
    · right
      have e' : w'.var ≠ p.var := by
        intro e2; rw [value_true, e2] at h1; rw [value_none] at hp; rw [hp] at h1; cases h1.1
      refine ⟨by rw [enq_value_ne e']; exact h1.1, ?_⟩
      simp only [Sat.enq, upd_ne _ _ e, upd_ne _ _ e']; exact h1.2

theorem newClauseObj_eq (s : Sat T) (l0 l1 : Lit) (r : List Lit) :
    ∃ s1, s.newClauseObj (l0 :: l1 :: r) = .ok (s1, s.ncls) ∧ { s1 with constrs := s1.constrs ++ [s.ncls] } = s.addC (l0 :: l1 :: r) ∧
      s1.assigns = s.assigns := by
  refine ⟨_, rfl, rfl, rfl⟩

/-- `record` assigns its first literal and nothing else. -/
theorem record_assigns {E : Env} {s s' : Sat T} {l0 : Lit} {rest : List Lit} (h : s.record E (l0 :: rest) = .ok s') :
    s'.assigns = upd s.assigns l0.var (some l0.sign) := by
  unfold record at h
  simp only at h
  by_cases h1 : s.inRange (l0 :: rest) = false
  · simp [h1] at h
  · simp only [h1, if_false] at h
    by_cases h2 : s.value l0 = none ∧ rest.all (fun l => s.value l == some false) = true
    swap
    · simp only [h2, if_false] at h; cases h
    · rw [if_pos h2] at h
      match hrest : rest with
      | [] =>
        simp only at h
        by_cases hroot : s.root = true
        swap
        · simp only [hroot, if_false] at h; cases h
        · simp only [hroot, if_true] at h
          rw [enqueue_none h2.1] at h
          injection h with h; subst h; rfl
      | q0 :: qs =>
        simp only at h
        have hperm := E.sortLvl_perm s.level (q0 :: qs)
        generalize hsl : E.sortLvl s.level (q0 :: qs) = sl at *
        match sl, hperm with
        | [], hperm => simp at hperm
        | l1 :: r, hperm =>
          obtain ⟨s1, he1, he2, he3⟩ := newClauseObj_eq s l0 l1 r
          rw [he1] at h
          simp only at h
          have hv1 : s1.value l0 = none := by rw [value_none, he3, ← value_none]; exact h2.1
          rw [enqueue_none hv1] at h
          injection h with h; subst h
          show upd s1.assigns l0.var (some l0.sign) = _
          rw [he3]


/-- Specification of `record`. -/
theorem record_spec {O : TheoryOps T} (C : Contract O) {E : Env} {s s' : Sat T} {lits : List Lit} (hw : s.WF noEx)
    (h : s.record E lits = .ok s') :
    ∃ (l0 : Lit) (rest : List Lit), lits = l0 :: rest ∧ s.value l0 = none ∧ (∀ q ∈ rest, s.value q = some false) ∧ (∀ l ∈ lits, l.var < s.nvars) ∧
      s'.WF noEx ∧ Evo s s' ∧ s'.dl = s.dl ∧ s'.th = s.th ∧ s'.propQ = s.propQ ++ [l0] ∧ s'.trail = l0 :: s.trail ∧
      s'.dead = s.dead ∧ s'.bounds = s.bounds ∧ s'.decisions = s.decisions ∧ s'.value l0 = some true ∧
      (s.Sem C → s.Ent C.Th lits → s'.Sem C) ∧
      (s.Fix s.okQ → rest.Pairwise (fun a b => a = b → s.rootF a) → (rest = [] ∨ ∃ l ∈ rest, s.level l.var = s.dl) → s'.Fix s'.okQ) ∧
      (∀ D : List Lit, (∃ c ∈ s.constrs, ∀ l ∈ s.db c, l ∈ D) → (∃ c ∈ s'.constrs, ∀ l ∈ s'.db c, l ∈ D)) ∧
      ((rest = [] ∧ s.root = true) ∨ (∃ c ∈ s'.constrs, ∀ l ∈ s'.db c, l ∈ lits)) := by
  unfold record at h
  match hl : lits with
  | [] => simp at h
  | l0 :: rest =>
    simp only at h
    by_cases h1 : s.inRange (l0 :: rest) = false
    · simp [h1] at h
    · simp only [h1, if_false] at h
      have hrange : ∀ l ∈ l0 :: rest, l.var < s.nvars := by
        have : s.inRange (l0 :: rest) = true := by simpa using h1
        simpa [inRange] using this
      by_cases h2 : s.value l0 = none ∧ rest.all (fun l => s.value l == some false) = true
      swap
      · simp only [h2, if_false] at h; cases h
      · rw [if_pos h2] at h
        have hv0 := h2.1
        have hfalse : ∀ q ∈ rest, s.value q = some false := by
          intro q hq; have := List.all_eq_true.1 h2.2 q hq; simpa using this
        refine ⟨l0, rest, rfl, hv0, hfalse, hrange, ?_⟩
        match hrest : rest with
        | [] =>
          simp only at h
          by_cases hroot : s.root = true
          swap
          · simp only [hroot, if_false] at h; cases h
          · simp only [hroot, if_true] at h
            rw [enqueue_none hv0] at h
            injection h with h; subst h
            have hlim : s.trailLim = [] := by simpa [root] using hroot
            refine ⟨?_, (enq_grow hv0).evo, rfl, rfl, rfl, rfl, rfl, rfl, rfl, enq_value_self _ _ _, ?_, ?_, ?_, ?_⟩
            · exact hw.enq hv0 (hrange l0 (by simp)) (fun x hx => by cases hx) (fun _ => Or.inl hlim)
            · intro hS hE
              exact hS.enq hw hv0 (hS.unit hw (rest := []) hE (by simp))
            · intro hF _ _; exact hF.enq hv0
            · intro D hD; exact hD
            · exact Or.inl ⟨rfl, hroot⟩
        | q0 :: qs =>
          simp only at h
          have hperm := E.sortLvl_perm s.level (q0 :: qs)
          have hsort := E.sortLvl_sorted s.level (q0 :: qs)
          generalize hsl : E.sortLvl s.level (q0 :: qs) = sl at *
          match sl, hperm with
          | [], hperm => simp at hperm
          | l1 :: r, hperm =>
            obtain ⟨s1, he1, he2, he3⟩ := newClauseObj_eq s l0 l1 r
            rw [he1] at h
            simp only at h
            have hv1 : s1.value l0 = none := by rw [value_none, he3, ← value_none]; exact hv0
            rw [enqueue_none hv1] at h
            injection h with h
            have hs' : s' = (s.addC (l0 :: l1 :: r)).enq l0 (some s.ncls) := by
              rw [← h, ← he2]; rfl
            have hmem : ∀ l, l ∈ l0 :: l1 :: r ↔ l ∈ l0 :: q0 :: qs := by
              intro l; exact (hperm.cons l0).mem_iff
            have hsl_false : ∀ q ∈ l1 :: r, s.value q = some false := fun q hq => hfalse q (hperm.mem_iff.1 hq)
            have hnc : ∀ l ∈ l0 :: l1 :: r, l.neg ∉ l0 :: l1 :: r := by
              intro l hl hn
              rcases List.mem_cons.1 hl with rfl | hl
              · rcases List.mem_cons.1 hn with hn | hn
                · exact Lit.neg_ne _ hn
                · have := hsl_false _ hn
                  rw [value_neg_false, hv0] at this; cases this
              · have h3 := hsl_false _ hl
                rcases List.mem_cons.1 hn with hn | hn
                · rw [← hn, value_neg, h3] at hv0; cases hv0
                · have := hsl_false _ hn
                  rw [value_neg_false, h3] at this; cases this
            have hWa : (s.addC (l0 :: l1 :: r)).WF noEx :=
              hw.addC (fun l hl => hrange l ((hmem l).1 hl)) hnc
            have hva : (s.addC (l0 :: l1 :: r)).value l0 = none := hv0
            have hW' : ((s.addC (l0 :: l1 :: r)).enq l0 (some s.ncls)).WF noEx := by
              apply hWa.enq hva (hrange l0 (by simp))
              · intro x hx; injection hx with hx; subst hx
                refine ⟨by simp [Sat.addC], l1 :: r, by simp [Sat.addC], hsl_false⟩
              · intro hx; cases hx
            rw [hs']
            refine ⟨hW', ?_, rfl, rfl, rfl, rfl, rfl, rfl, rfl, enq_value_self _ _ _, ?_, ?_, ?_, ?_⟩
            · have := (enq_grow (c := some s.ncls) hv0).evo (s := s)
              exact ⟨this.dl, this.dec, this.low, this.new, this.posted, this.nv, this.exprs⟩
            · intro hS hE
              have hE' : s.Ent C.Th (l0 :: l1 :: r) := by
                intro α hα
                obtain ⟨l, hl, hs⟩ := hE α hα
                exact ⟨l, (hmem l).2 hl, hs⟩
              have hSa := hS.addC hw hE'
              exact hSa.enq hWa hva (hSa.unit hWa (rest := l1 :: r) hE' hsl_false)
            · intro hF hnd hlv
              have hmax : s.level l1.var = s.dl := by
                rcases hlv with hlv | ⟨l, hl, hlv⟩
                · cases hlv
                · have hl' := hperm.mem_iff.2 hl
                  rcases List.mem_cons.1 hl' with rfl | hl'
                  · exact hlv
                  · have := (List.pairwise_cons.1 hsort).1 l hl'
                    have := hw.level_le l1.var
                    omega
              have hl0 : l0 ∉ l1 :: r := by
                intro hm; have := hsl_false _ hm; rw [hv0] at this; cases this
              have hnd' : s.Distinct (l0 :: l1 :: r) := by
                refine ⟨List.pairwise_cons.2 ⟨fun b hb e => absurd (e ▸ hb) hl0, hperm.symm.pairwise hnd (fun {a b} hab e => e ▸ hab e.symm)⟩, ?_⟩
                intro w r' e
                simp at e
                exact hl0 (by rw [e.1, e.2.1]; simp)
              -- first the literal, then the clause
              have hF1 := hF.enq (c := some s.ncls) hv0
              have hWe : (s.enq l0 (some s.ncls)).ncls = s.ncls := rfl
              have hfresh : s.ncls ∉ s.constrs := fun hm => by have := hw.clt _ hm; omega
              constructor
              · intro c hc
                have hm : ∀ l, s.Distinct l → ((s.addC (l0 :: l1 :: r)).enq l0 (some s.ncls)).Distinct l :=
                  fun l hl => hl.mono (fun a _ hr => enq_rootF (s := s.addC (l0 :: l1 :: r)) hva hr)
                apply hm
                simp only [Sat.enq, Sat.addC, List.mem_append, List.mem_singleton] at hc ⊢
                rcases hc with hc | hc
                · rw [upd_ne _ _ (fun e => hfresh (e ▸ hc) : c ≠ s.ncls)]; exact hF.nd c hc
                · subst hc; rw [upd_self]; exact hnd'
              · intro c hc w w' r' hd hv
                have hc' := hc
                simp only [Sat.enq, Sat.addC, List.mem_append, List.mem_singleton] at hc'
                rcases hc' with hc' | hc'
                · refine hF1.fx c hc' w w' r' ?_ hv
                  simp only [Sat.enq, Sat.addC, upd_ne _ _ (fun e => hfresh (e ▸ hc') : c ≠ s.ncls)] at hd
                  exact hd
                · subst hc'
                  simp only [Sat.enq, Sat.addC, upd_self] at hd
                  right
                  rcases hd with hd | hd
                  · simp at hd; obtain ⟨rfl, rfl, rfl⟩ := hd
                    rw [enq_value_self] at hv; cases hv
                  · simp at hd; obtain ⟨rfl, rfl, rfl⟩ := hd
                    refine ⟨enq_value_self _ _ _, ?_⟩
                    have hne : l1.var ≠ l0.var := by
                      intro e
                      have h3 := hsl_false l1 (by simp)
                      rw [value_none, ← e] at hv0
                      rw [value_false, hv0] at h3; cases h3
                    simp only [Sat.enq, upd_self, upd_ne _ _ hne]
                    show s.dl ≤ s.level l1.var
                    omega
            · rintro D ⟨c, hc, hD⟩
              have hfresh : s.ncls ∉ s.constrs := fun hm => by have := hw.clt _ hm; omega
              refine ⟨c, by simp [Sat.enq, Sat.addC, hc], ?_⟩
              simp only [Sat.enq, Sat.addC, upd_ne _ _ (fun e => hfresh (e ▸ hc) : c ≠ s.ncls)]
              exact hD
            · right
              refine ⟨s.ncls, by simp [Sat.enq, Sat.addC], ?_⟩
              simp only [Sat.enq, Sat.addC, upd_self]
              intro l hl; exact (hmem l).1 hl

/-- `record` succeeds on a clause that is unit under the current assignment. -/
theorem record_ok {E : Env} {s : Sat T} {l0 : Lit} {rest : List Lit} (hr : ∀ l ∈ l0 :: rest, l.var < s.nvars)
    (h0 : s.value l0 = none) (hf : ∀ q ∈ rest, s.value q = some false) (hu : rest = [] → s.root = true) :
    ∃ s', s.record E (l0 :: rest) = .ok s' := by
  unfold record
  have h1 : s.inRange (l0 :: rest) = true := by simpa [inRange] using hr
  have h2 : s.value l0 = none ∧ rest.all (fun l => s.value l == some false) = true := by
    refine ⟨h0, ?_⟩
    rw [List.all_eq_true]; intro q hq; simp [hf q hq]
  simp only [h1, Bool.true_eq_false, if_false]
  rw [if_pos h2]
  match rest with
  | [] => simp [hu rfl]
  | q0 :: qs =>
    simp only
    have hperm := E.sortLvl_perm s.level (q0 :: qs)
    generalize E.sortLvl s.level (q0 :: qs) = sl at *
    match sl, hperm with
    | [], hperm => simp at hperm
    | l1 :: r, hperm =>
      obtain ⟨s1, he1, _⟩ := newClauseObj_eq s l0 l1 r
      rw [he1]; exact ⟨_, rfl⟩

end Sat
end Semitone
