import Verif.Sat.Resolve
import Mathlib.Data.List.Perm.Subperm

/-!
# The propagation loop
-/
namespace Semitone
namespace Sat
variable {T : Type}

theorem WF.tru_iff {s : Sat T} {ex} (h : s.WF ex) (q : Lit) : s.tru s.dl q ↔ s.value q = some true :=
  ⟨fun x => x.1, fun x => ⟨x, h.level_le _⟩⟩

theorem WF.root_dec {s : Sat T} {ex} (h : s.WF ex) (hr : s.root = true) : s.decisions = [] := by
  have : s.trailLim = [] := by simpa [root] using hr
  have := h.dec
  simp_all

theorem root_iff (s : Sat T) : s.root = true ↔ s.dl = 0 := by
  simp [root, dl]

theorem Grow.sub {s s' : Sat T} (h : Grow s s') {D} (hD : s.HasSub D) : s'.HasSub D := by
  obtain ⟨c, hc, hD⟩ := hD
  exact ⟨c, by rw [h.constrs]; exact hc, fun l hl => hD l ((h.db c).mem_iff.1 hl)⟩

/-- A variable that was not assigned at the levels that survive is assigned now. -/
def Flip (s s' : Sat T) : Prop := ∃ v, s'.assigns v ≠ none ∧ s'.level v = s'.dl ∧ (s.assigns v ≠ none → s'.dl < s.level v)

/-- An internal step of propagation. -/
structure Stepd {O : TheoryOps T} (C : Contract O) (s s' : Sat T) : Prop where
  wf : s'.WF noEx
  evo : Evo s s'
  sub : ∀ D, s.HasSub D → s'.HasSub D
  dead : s'.dead = s.dead
  sem : s.Sem C → s.TInv C → s'.Sem C ∧ s'.TInv C ∧ (∀ α, C.Th s'.th α ↔ C.Th s.th α) ∧
    (s'.dl < s.dl → s.UnsatWith C.Th s.decisions ∧ s.Flip s')

theorem Stepd.refl {O : TheoryOps T} {C : Contract O} {s : Sat T} (h : s.WF noEx) : Stepd C s s :=
  ⟨h, Evo.refl s, fun _ h => h, rfl, fun a b => ⟨a, b, fun _ => Iff.rfl, fun h => absurd h (Nat.lt_irrefl _)⟩⟩

theorem UnsatWith.up {Th : T → Asg → Prop} {s s1 : Sat T} (he : Evo s s1) (hth : ∀ α, Th s1.th α ↔ Th s.th α)
    (h : s1.UnsatWith Th s1.decisions) : s.UnsatWith Th s.decisions := by
  intro α hα hd
  exact h α ((Sol.congr he.posted hth α).2 hα) (fun l hl => hd l (he.dec.subset hl))

theorem Flip.up {s s1 s2 : Sat T} (h : s1.Flip s2) (he : Evo s s1) (he2 : Evo s1 s2) : s.Flip s2 := by
  obtain ⟨v, e1, e2, e3⟩ := h
  refine ⟨v, e1, e2, ?_⟩
  intro hv
  by_cases hl : s.level v ≤ s2.dl
  · exfalso
    have h1 := he2.dl
    obtain ⟨f1, f2, -⟩ := he.low v hv (by omega)
    have := e3 (by rw [f1]; exact hv)
    omega
  · omega

theorem Stepd.trans {O : TheoryOps T} {C : Contract O} {s1 s2 s3 : Sat T} (h1 : Stepd C s1 s2) (h2 : Stepd C s2 s3) :
    Stepd C s1 s3 where
  wf := h2.wf
  evo := h1.evo.trans h2.wf h2.evo
  sub := fun D hD => h2.sub D (h1.sub D hD)
  dead := h2.dead.trans h1.dead
  sem := fun a b => by
    obtain ⟨a1, b1, c1, d1⟩ := h1.sem a b
    obtain ⟨a2, b2, c2, d2⟩ := h2.sem a1 b1
    refine ⟨a2, b2, fun α => (c2 α).trans (c1 α), ?_⟩
    intro h
    by_cases hx : s2.dl < s1.dl
    · refine ⟨(d1 hx).1, ?_⟩
      by_cases hy : s3.dl < s2.dl
      · exact (d2 hy).2.up h1.evo h2.evo
      · obtain ⟨v, e1, e2, e3⟩ := (d1 hx).2
        have h3 := h2.evo.dl
        have hdl : s3.dl = s2.dl := by omega
        obtain ⟨f1, f2, -⟩ := h2.evo.low v e1 (by omega)
        exact ⟨v, by rw [f1]; exact e1, by rw [f2, hdl]; exact e2, fun h => by rw [hdl]; exact e3 h⟩
    · have := h1.evo.dl
      exact ⟨(d2 (by omega)).1.up h1.evo c1, (d2 (by omega)).2.up h1.evo h2.evo⟩

/-- Outcome of asking the theories. -/
structure Asked {O : TheoryOps T} (C : Contract O) (P : Prop) (s s' : Sat T) (r : Option (List Lit)) : Prop where
  wf : s'.WF noEx
  evo : Evo s s'
  dl : s'.dl = s.dl
  sub : ∀ D, s.HasSub D → s'.HasSub D
  dead : s'.dead = s.dead
  dec : s'.decisions = s.decisions
  bounds : s'.bounds = s.bounds
  sem : P → s'.Sem C ∧ s'.TInv C ∧ (∀ α, C.Th s'.th α ↔ C.Th s.th α)
  cl : P → ∀ cl, r = some cl → s'.Ent C.Th cl ∧ ∀ q ∈ cl, s'.value q = some false

theorem runAct_spec {E : Env} {O : TheoryOps T} (C : Contract O) (P : Prop) (act : TAct T) : ∀ (s s' : Sat T) r, s.WF noEx →
    (P → s.Sem C ∧ ActOK C.Th C.TI s.th s.dl s.tru act) → runAct E act s = .ok (s', r) → Asked C P s s' r := by
  induction act with
  | ok t =>
    intro s s' r hw hP h
    simp only [runAct] at h; injection h with h; injection h with h1 h2; subst h1 h2
    refine ⟨hw.congr rfl rfl rfl rfl rfl rfl rfl rfl rfl rfl rfl rfl, ⟨Nat.le_refl _, List.suffix_refl _, fun _ _ _ => ⟨rfl, rfl, rfl⟩, fun _ _ => Or.inl ⟨rfl, rfl, rfl⟩, rfl, rfl, rfl⟩, rfl, fun _ h => h, rfl, rfl, rfl, ?_, by simp⟩
    intro hp
    obtain ⟨hS, hA⟩ := hP hp
    cases hA with
    | ok hTI hTh =>
      have hsol : ∀ α, ({ s with th := t } : Sat T).Sol C.Th α ↔ s.Sol C.Th α := Sol.congr rfl hTh
      exact ⟨⟨fun c hc α hα => hS.cls c hc α ((hsol α).1 hα), fun q hq α hα hd => hS.val q hq α ((hsol α).1 hα) hd⟩, hTI, hTh⟩
  | confl t cl =>
    intro s s' r hw hP h
    simp only [runAct] at h; injection h with h; injection h with h1 h2; subst h1 h2
    refine ⟨hw.congr rfl rfl rfl rfl rfl rfl rfl rfl rfl rfl rfl rfl, ⟨Nat.le_refl _, List.suffix_refl _, fun _ _ _ => ⟨rfl, rfl, rfl⟩, fun _ _ => Or.inl ⟨rfl, rfl, rfl⟩, rfl, rfl, rfl⟩, rfl, fun _ h => h, rfl, rfl, rfl, ?_, ?_⟩
    · intro hp
      obtain ⟨hS, hA⟩ := hP hp
      cases hA with
      | confl hTI hTh hv hf =>
        have hsol : ∀ α, ({ s with th := t } : Sat T).Sol C.Th α ↔ s.Sol C.Th α := Sol.congr rfl hTh
        exact ⟨⟨fun c hc α hα => hS.cls c hc α ((hsol α).1 hα), fun q hq α hα hd => hS.val q hq α ((hsol α).1 hα) hd⟩, hTI, hTh⟩
    · intro hp cl' e
      injection e with e; subst e
      obtain ⟨hS, hA⟩ := hP hp
      cases hA with
      | confl hTI hTh hv hf =>
        refine ⟨fun α hα => hv α ((hTh α).1 hα.2.2), fun q hq => ?_⟩
        have := (hf q hq).1
        rw [value_neg_true] at this; exact this
  | record cl k ih =>
    intro s s' r hw hP h
    simp only [runAct] at h
    match h1 : s.record E cl with
    | .error _ => simp [h1] at h
    | .ok s1 =>
      simp only [h1] at h
      obtain ⟨l0, rest, hlits, hv0, hfl, hrng, hw1, hevo, hdl, hth, hpq, htr, hdead, hbounds, hdec, hv0', hsem, hfix, hsub, hsub2⟩ :=
        record_spec C hw h1
      have := ih s1.value s1 s' r hw1 (by
        intro hp
        obtain ⟨hS, hA⟩ := hP hp
        cases hA with
        | record hv hk =>
          refine ⟨hsem hS (fun α hα => hv α hα.2.2), ?_⟩
          rw [hth, hdl]
          apply hk
          · intro i hi q ⟨a, b⟩
            rw [value_true] at a
            have := hevo.low q.var (by rw [a]; simp) (by omega)
            exact ⟨by rw [value_true, this.1]; exact a, by rw [this.2.1]; exact b⟩
          · intro q; rw [← hdl]; exact hw1.tru_iff q
          · exact fun q => value_neg s1 q) h
      refine ⟨this.wf, hevo.trans this.wf this.evo, this.dl.trans hdl, fun D hD => this.sub D (hsub D hD), this.dead.trans hdead,
        this.dec.trans hdec, this.bounds.trans hbounds, ?_, this.cl⟩
      intro hp
      obtain ⟨a, b, c⟩ := this.sem hp
      exact ⟨a, b, by rw [hth] at c; exact c⟩
  | fail e => intro s s' r hw hP h; simp [runAct] at h

theorem Asked.comp {O : TheoryOps T} {C : Contract O} {s s1 s' : Sat T} {r} (h1 : Asked C (s.Sem C ∧ s.TInv C) s s1 none)
    (h2 : Asked C (s1.Sem C ∧ s1.TInv C) s1 s' r) : Asked C (s.Sem C ∧ s.TInv C) s s' r where
  wf := h2.wf
  evo := h1.evo.trans h2.wf h2.evo
  dl := h2.dl.trans h1.dl
  sub := fun D hD => h2.sub D (h1.sub D hD)
  dead := h2.dead.trans h1.dead
  dec := h2.dec.trans h1.dec
  bounds := h2.bounds.trans h1.bounds
  sem := fun hP => by
    obtain ⟨a, b, c⟩ := h1.sem hP
    obtain ⟨a2, b2, c2⟩ := h2.sem ⟨a, b⟩
    exact ⟨a2, b2, fun α => (c2 α).trans (c α)⟩
  cl := fun hP => by
    obtain ⟨a, b, c⟩ := h1.sem hP
    exact h2.cl ⟨a, b⟩

theorem runBinds_spec {E : Env} {O : TheoryOps T} (C : Contract O) (p : Lit) (is : List Nat) : ∀ (s s' : Sat T) r, s.WF noEx →
    s.value p = some true → runBinds E O p is s = .ok (s', r) → Asked C (s.Sem C ∧ s.TInv C) s s' r := by
  induction is with
  | nil =>
    intro s s' r hw hp h
    simp only [runBinds] at h; injection h with h; injection h with h1 h2; subst h1 h2
    exact ⟨hw, Evo.refl s, rfl, fun _ h => h, rfl, rfl, rfl, fun h => ⟨h.1, h.2, fun _ => Iff.rfl⟩, by simp⟩
  | cons i is ih =>
    intro s s' r hw hp h
    simp only [runBinds] at h
    have key := fun s1 r1 => runAct_spec (E := E) C (s.Sem C ∧ s.TInv C) (O.propagate i s.th s.value p) s s1 r1 hw (by
      rintro ⟨hS, hTI⟩
      exact ⟨hS, C.prop i s.th s.dl s.tru s.value p hTI hw.tru_iff (fun q => value_neg s q) hp⟩)
    match h1 : runAct E (O.propagate i s.th s.value p) s with
    | .error _ => simp [h1] at h
    | .ok (s1, some cl) =>
      simp only [h1] at h; injection h with h; injection h with h2 h3; subst h2 h3
      exact key _ _ h1
    | .ok (s1, none) =>
      simp only [h1] at h
      have k1 := key _ _ h1
      refine k1.comp (ih s1 s' r k1.wf ?_ h)
      have hv := hp
      rw [value_true] at hv ⊢
      rw [(k1.evo.low p.var (by rw [hv]; simp) (by rw [k1.dl]; exact hw.level_le _)).1]; exact hv

theorem runChecks_spec {O : TheoryOps T} (C : Contract O) (is : List Nat) : ∀ (s s' : Sat T) r, s.WF noEx →
    runChecks O is s = .ok (s', r) → Asked C (s.Sem C ∧ s.TInv C) s s' r ∧ s'.propQ = s.propQ ∧ s'.assigns = s.assigns ∧
      s'.level = s.level ∧ s'.constrs = s.constrs ∧ s'.db = s.db := by
  induction is with
  | nil =>
    intro s s' r hw h
    simp only [runChecks] at h; injection h with h; injection h with h1 h2; subst h1 h2
    exact ⟨⟨hw, Evo.refl s, rfl, fun _ h => h, rfl, rfl, rfl, fun h => ⟨h.1, h.2, fun _ => Iff.rfl⟩, by simp⟩, rfl, rfl, rfl, rfl, rfl⟩
  | cons i is ih =>
    intro s s' r hw h
    simp only [runChecks] at h
    have key : ∀ t r1, O.check i s.th s.value = .ok (t, r1) → Asked C (s.Sem C ∧ s.TInv C) s { s with th := t } r1 := by
      intro t r1 hc
      refine ⟨hw.congr rfl rfl rfl rfl rfl rfl rfl rfl rfl rfl rfl rfl, ⟨Nat.le_refl _, List.suffix_refl _, fun _ _ _ => ⟨rfl, rfl, rfl⟩, fun _ _ => Or.inl ⟨rfl, rfl, rfl⟩, rfl, rfl, rfl⟩, rfl, fun _ h => h, rfl, rfl, rfl, ?_, ?_⟩
      · rintro ⟨hS, hTI⟩
        obtain ⟨a, hTh, c⟩ := C.check i s.th s.dl s.tru s.value t r1 hTI hw.tru_iff (fun q => value_neg s q) hc
        have hsol : ∀ α, ({ s with th := t } : Sat T).Sol C.Th α ↔ s.Sol C.Th α := Sol.congr rfl hTh
        exact ⟨⟨fun c hc α hα => hS.cls c hc α ((hsol α).1 hα), fun q hq α hα hd => hS.val q hq α ((hsol α).1 hα) hd⟩, a, hTh⟩
      · rintro ⟨hS, hTI⟩ cl e
        obtain ⟨a, hTh, c⟩ := C.check i s.th s.dl s.tru s.value t r1 hTI hw.tru_iff (fun q => value_neg s q) hc
        obtain ⟨c1, c2⟩ := c cl e
        refine ⟨fun α hα => c1 α ((hTh α).1 hα.2.2), fun q hq => ?_⟩
        have := (c2 q hq).1
        rw [value_neg_true] at this; exact this
    match h1 : O.check i s.th s.value with
    | .error _ => simp [h1] at h
    | .ok (t, some cl) =>
      simp only [h1] at h; injection h with h; injection h with h2 h3; subst h2 h3
      exact ⟨key _ _ h1, rfl, rfl, rfl, rfl, rfl⟩
    | .ok (t, none) =>
      simp only [h1] at h
      have k1 := key _ _ h1
      obtain ⟨k2, e1, e2, e3, e4, e5⟩ := ih _ s' r k1.wf h
      exact ⟨k1.comp k2, e1, e2, e3, e4, e5⟩

/-- What `propagate` guarantees. -/
structure Propd {O : TheoryOps T} (C : Contract O) (s s' : Sat T) (b : Bool) : Prop where
  step : ∃ s1, Stepd C s s1 ∧ s1.propQ = [] ∧ (b = true → s' = s1) ∧
    (b = false → s' = { s1 with dead := true } ∧ s1.root = true ∧ (s.Sem C → s.TInv C → s.Unsat C.Th))

theorem Propd.comp {O : TheoryOps T} {C : Contract O} {s s1 s' : Sat T} {b} (h1 : Stepd C s s1) (h2 : Propd C s1 s' b) :
    Propd C s s' b := by
  obtain ⟨s2, a, q, c, d⟩ := h2.step
  refine ⟨s2, h1.trans a, q, c, fun hb => ⟨(d hb).1, (d hb).2.1, fun x y => ?_⟩⟩
  obtain ⟨a1, b1, c1, d1⟩ := h1.sem x y
  intro α hα
  exact (d hb).2.2 a1 b1 α ((Sol.congr h1.evo.posted c1 α).2 hα)

theorem Asked.stepd {O : TheoryOps T} {C : Contract O} {s s1 : Sat T} {r} (h : Asked C (s.Sem C ∧ s.TInv C) s s1 r) : Stepd C s s1 where
  wf := h.wf
  evo := h.evo
  sub := h.sub
  dead := h.dead
  sem := fun a b => by
    obtain ⟨x, y, z⟩ := h.sem ⟨a, b⟩
    exact ⟨x, y, z, fun hl => by have := h.dl; omega⟩

theorem Resolved.stepd {O : TheoryOps T} {C : Contract O} {s s1 : Sat T} (h : Resolved C (s.Sem C ∧ s.TInv C) s s1)
    (hu : s.Sem C → s.TInv C → s.UnsatWith C.Th s.decisions) : Stepd C s s1 where
  wf := h.wf
  evo := h.evo
  sub := h.sub
  dead := h.dead
  sem := fun a b => by
    obtain ⟨x, y, z⟩ := h.sem ⟨a, b⟩
    refine ⟨x, y, z, fun _ => ⟨hu a b, ?_⟩⟩
    obtain ⟨l0, h1, h2, h3, h4⟩ := h.learnt
    refine ⟨l0.var, ?_, ?_, fun _ => by rw [h3]; exact h.dl⟩
    · rw [(value_true _ _).1 h4]; simp
    · exact (h.wf.que l0 (by rw [h1]; simp)).2

theorem clearQ_stepd {O : TheoryOps T} {C : Contract O} {s : Sat T} (h : s.WF noEx) : Stepd C s { s with propQ := [] } :=
  ⟨h.clearQ, ⟨Nat.le_refl _, List.suffix_refl _, fun _ _ _ => ⟨rfl, rfl, rfl⟩, fun _ _ => Or.inl ⟨rfl, rfl, rfl⟩, rfl, rfl, rfl⟩,
    fun _ h => h, rfl, fun a b => ⟨⟨a.cls, a.val⟩, b, fun _ => Iff.rfl, fun h => absurd h (Nat.lt_irrefl _)⟩⟩

/-- A conflict at root level. -/
theorem propd_root {O : TheoryOps T} {C : Contract O} {s : Sat T} {cl : List Lit} (hw : s.WF noEx) (hq : s.propQ = []) (hr : s.root = true)
    (hc : s.Sem C → s.TInv C → s.Ent C.Th cl ∧ ∀ q ∈ cl, s.value q = some false) : Propd C s { s with dead := true } false := by
  refine ⟨s, Stepd.refl hw, hq, by simp, fun _ => ⟨rfl, hr, fun a b α hα => ?_⟩⟩
  obtain ⟨x, y⟩ := hc a b
  refine a.conflict hw x y α hα ?_
  rw [hw.root_dec hr]; intro l hl; simp at hl

theorem not_root {s : Sat T} (h : ¬ s.root = true) : 0 < s.dl := by
  rw [root_iff] at h; omega

/-- A conflict above root level. -/
theorem propd_conflict {E : Env} {O : TheoryOps T} {C : Contract O} {s s1 s' : Sat T} {b} {cl : List Lit} (hw : s.WF noEx) (hq : s.propQ = [])
    (hr : ¬ s.root = true)
    (hc : s.Sem C → s.TInv C → s.Ent C.Th cl ∧ ∀ q ∈ cl, s.value q = some false)
    (h1 : s.resolveConflict E O cl = .ok s1) (h2 : Propd C s1 s' b) : Propd C s s' b := by
  have hR := (resolve_spec C hw hq (not_root hr) (s.Sem C ∧ s.TInv C) (·.1) (·.2) (fun h => (hc h.1 h.2).1) h1).1
  refine Propd.comp (hR.stepd ?_) h2
  intro a b
  exact a.conflict hw (hc a b).1 (hc a b).2

theorem analyzeAndBackjump_eq {E : Env} {O : TheoryOps T} {s s1 : Sat T} {cl} (h : s.analyzeAndBackjump E O cl = .ok s1) :
    s.resolveConflict E O cl = .ok s1 := by
  unfold analyzeAndBackjump at h
  split at h
  · split at h
    · exact h
    · cases h
  · cases h

/-- Taking a literal out of the queue and visiting its watchers. -/
theorem visit_stepd {O : TheoryOps T} (C : Contract O) {s : Sat T} {p q} (hw : s.WF noEx) (hq : s.propQ = p :: q) :
    ∃ s1 r, visit p (s.watches p) { s with propQ := q, watches := upd s.watches p [] } = .ok (s1, r) ∧ Stepd C s s1 ∧
      s1.dl = s.dl ∧ s1.value p = some true ∧ s1.level p.var = s1.dl ∧
      (s.Fix s.okQ → (r = none → s1.Fix s1.okQ) ∧ (r ≠ none → s1.Fix s1.okC)) ∧
      (∀ c, r = some c → c ∈ s1.constrs ∧ (∀ q ∈ s1.db c, s1.value q = some false) ∧ p.neg ∈ s1.db c) ∧
      (∃ new, s1.propQ = q ++ new ∧ s1.trail = new.reverse ++ s.trail ∧ ∀ v, s1.assigns v ≠ none → s.assigns v ≠ none ∨ ∃ q ∈ new, q.var = v) ∧
      s1.th = s.th ∧ s1.bounds = s.bounds := by
  have hwt := hw.takeOut hq
  obtain ⟨hpt, hpl⟩ := hw.que p (by rw [hq]; simp)
  have hpv := hw.trail_true hpt
  obtain ⟨s1, r, he, hw1, hG, hS, hF, hC⟩ := visit_spec C p (s.watches p) _ hwt hpv hpl
  have hevo := hG.evo
  have hevo' : Evo s s1 := ⟨hevo.dl, hevo.dec, hevo.low, hevo.new, hevo.posted, hevo.nv, hevo.exprs⟩
  have hdl : s1.dl = s.dl := hG.dl
  refine ⟨s1, r, he, ⟨hw1, hevo', ?_, hG.dead, ?_⟩, hdl, hG.value hpv, ?_, ?_, hC, ?_, hG.th, hG.bounds⟩
  · intro D hD; exact hG.sub hD
  · intro a b
    refine ⟨hS ⟨a.cls, a.val⟩, b.evo hevo' hdl hG.th, ?_, fun h => by omega⟩
    intro α; rw [hG.th]
  · rw [hG.level hpv, hdl]; exact hpl
  · intro hFix
    apply hF
    refine ⟨hFix.nd, ?_⟩
    intro c hc w w' r hd hv
    rcases hFix.fx c hc w w' r hd hv with h | h
    · left
      simp only [okQ, hq, List.mem_cons] at h
      rcases h with h | h
      · right
        refine ⟨h, ?_⟩
        have hcnt := hw.wat c p
        simp only [noEx, List.count_nil, Nat.add_zero] at hcnt
        rw [if_pos hc] at hcnt
        have : 0 < wc (s.db c) p := by
          have e : w = p.neg := by rw [← h]; simp
          rcases hd with hd | hd
          · simp only at hd; rw [hd, e]; simp only [wc, if_true]; omega
          · simp only at hd; rw [hd, e]; simp only [wc, if_true]; omega
        exact List.count_pos_iff.1 (by omega)
      · left; exact h
    · exact Or.inr h
  · exact hG.que

/-- Specification of the propagation loop, for any family of theories. -/
theorem propLoop_spec {E : Env} {O : TheoryOps T} (C : Contract O) (n : Nat) : ∀ (s s' : Sat T) b, s.WF noEx →
    propLoop E O n s = .ok (s', b) → Propd C s s' b := by
  induction n with
  | zero => intro s s' b _ h; simp [propLoop] at h
  | succ n ih =>
    intro s s' b hw h
    unfold propLoop at h
    match hq : s.propQ with
    | p :: q =>
      simp only [hq] at h
      obtain ⟨s1, r, he, hst, hdl, hpv, hpl, hF, hC, -⟩ := visit_stepd C hw hq
      rw [he] at h
      match r, h, hC with
      | some c, h, hC =>
        simp only at h
        obtain ⟨hcm, hcf, hcp⟩ := hC c rfl
        have hcl : ∀ {s2 : Sat T}, s2 = { s1 with propQ := [] } → s2.Sem C → s2.TInv C →
            s2.Ent C.Th (s1.db c) ∧ ∀ q ∈ s1.db c, s2.value q = some false := by
          rintro s2 rfl a b; exact ⟨a.cls c hcm, hcf⟩
        refine Propd.comp (hst.trans (clearQ_stepd hst.wf)) ?_
        by_cases hr : ({ s1 with propQ := [] } : Sat T).root = true
        · rw [if_pos hr] at h
          injection h with h; injection h with h1 h2; subst h1 h2
          exact propd_root hst.wf.clearQ rfl hr (hcl rfl)
        · rw [if_neg hr] at h
          match h1 : resolveConflict E O { s1 with propQ := [] } (s1.db c) with
          | .error _ => simp [h1] at h
          | .ok s2 =>
            simp only [h1] at h
            have hw2 := (resolve_spec C hst.wf.clearQ rfl (not_root (s := s1) hr) False False.elim False.elim False.elim h1).1.wf
            exact propd_conflict hst.wf.clearQ rfl hr (hcl rfl) h1 (ih s2 s' b hw2 h)
      | none, h, hC =>
        simp only at h
        match h1 : runBinds E O p (s1.bounds p.var) s1 with
        | .error _ => simp [h1] at h
        | .ok (s2, some cl) =>
          simp only [h1] at h
          have hA := runBinds_spec C p _ s1 s2 _ hst.wf hpv h1
          have hst2 := hA.stepd
          have hcl : s1.Sem C → s1.TInv C → s2.Ent C.Th cl ∧ ∀ q ∈ cl, s2.value q = some false :=
            fun a b => hA.cl ⟨a, b⟩ cl rfl
          -- the conclusion only needs the hypotheses at `s`, so they are carried through
          by_cases hr : ({ s2 with propQ := [] } : Sat T).root = true
          · rw [if_pos hr] at h
            injection h with h; injection h with h1 h2; subst h1 h2
            refine ⟨{ s2 with propQ := [] }, hst.trans (hst2.trans (clearQ_stepd hst2.wf)), rfl, by simp, fun _ => ⟨rfl, hr, ?_⟩⟩
            intro a b α hα
            obtain ⟨a1, b1, c1, -⟩ := hst.sem a b
            obtain ⟨a2, b2, c2, -⟩ := hst2.sem a1 b1
            obtain ⟨x, y⟩ := hcl a1 b1
            refine a2.conflict hst2.wf x y α ?_ (by rw [hst2.wf.root_dec hr]; intro l hl; simp at hl)
            exact (Sol.congr (hst2.evo.posted.trans hst.evo.posted) (fun α => (c2 α).trans (c1 α)) α).2 hα
          · rw [if_neg hr] at h
            match h3 : analyzeAndBackjump E O { s2 with propQ := [] } cl with
            | .error _ => simp [h3] at h
            | .ok s3 =>
              simp only [h3] at h
              have h3' := analyzeAndBackjump_eq h3
              by_cases hP : s.Sem C ∧ s.TInv C
              · obtain ⟨a1, b1, c1, -⟩ := hst.sem hP.1 hP.2
                have hcl' := hcl a1 b1
                have hw3 := (resolve_spec C hst2.wf.clearQ rfl (not_root (s := s2) hr) False False.elim False.elim False.elim h3').1.wf
                exact Propd.comp (hst.trans (hst2.trans (clearQ_stepd hst2.wf)))
                  (propd_conflict hst2.wf.clearQ rfl hr (fun _ _ => hcl') h3' (ih s3 s' b hw3 h))
              · -- nothing semantic to prove
                have hR := (resolve_spec C hst2.wf.clearQ rfl (not_root (s := s2) hr) False False.elim False.elim False.elim h3').1
                obtain ⟨s4, x1, x2, x3, x4⟩ := (ih s3 s' b hR.wf h).step
                refine ⟨s4, ⟨x1.wf, (hst.evo.trans hst2.wf hst2.evo).trans x1.wf ((clearQ_stepd (C := C) hst2.wf).evo.trans x1.wf (hR.evo.trans x1.wf x1.evo)), ?_, ?_, ?_⟩, x2, x3, ?_⟩
                · intro D hD; exact x1.sub D (hR.sub D (hst2.sub D (hst.sub D hD)))
                · exact x1.dead.trans (hR.dead.trans (hst2.dead.trans hst.dead))
                · intro a b; exact absurd ⟨a, b⟩ hP
                · intro hb; exact ⟨(x4 hb).1, (x4 hb).2.1, fun a b => absurd ⟨a, b⟩ hP⟩
        | .ok (s2, none) =>
          simp only [h1] at h
          have hA := runBinds_spec C p _ s1 s2 _ hst.wf hpv h1
          have hst2 := hA.stepd
          have hst3 : Stepd C s2 (if s2.root then { s2 with bounds := upd s2.bounds p.var [] } else s2) := by
            by_cases hr : s2.root = true
            · rw [if_pos hr]
              refine ⟨hst2.wf.congr rfl rfl rfl rfl rfl rfl rfl rfl rfl rfl rfl rfl, ⟨Nat.le_refl _, List.suffix_refl _, fun _ _ _ => ⟨rfl, rfl, rfl⟩, fun _ _ => Or.inl ⟨rfl, rfl, rfl⟩, rfl, rfl, rfl⟩, fun _ h => h, rfl, fun a b => ⟨⟨a.cls, a.val⟩, b, fun _ => Iff.rfl, fun h => absurd h (Nat.lt_irrefl _)⟩⟩
            · rw [if_neg hr]; exact Stepd.refl hst2.wf
          exact Propd.comp (hst.trans (hst2.trans hst3)) (ih _ s' b hst3.wf h)
    | [] =>
      simp only [hq] at h
      match h1 : runChecks O O.ids s with
      | .error _ => simp [h1] at h
      | .ok (s1, none) =>
        simp only [h1] at h
        injection h with h; injection h with h2 h3; subst h2 h3
        obtain ⟨hA, e1, -⟩ := runChecks_spec C _ s s1 _ hw h1
        exact ⟨s1, hA.stepd, by rw [e1, hq], fun _ => rfl, by simp⟩
      | .ok (s1, some cl) =>
        simp only [h1] at h
        obtain ⟨hA, e1, -⟩ := runChecks_spec C _ s s1 _ hw h1
        have hst := hA.stepd
        have hq1 : s1.propQ = [] := by rw [e1, hq]
        have hcl : s.Sem C → s.TInv C → s1.Ent C.Th cl ∧ ∀ q ∈ cl, s1.value q = some false :=
          fun a b => hA.cl ⟨a, b⟩ cl rfl
        by_cases hr : s1.root = true
        · rw [if_pos hr] at h
          injection h with h; injection h with h1 h2; subst h1 h2
          refine ⟨s1, hst, hq1, by simp, fun _ => ⟨rfl, hr, ?_⟩⟩
          intro a b α hα
          obtain ⟨a1, b1, c1, -⟩ := hst.sem a b
          obtain ⟨x, y⟩ := hcl a b
          refine a1.conflict hst.wf x y α ?_ (by rw [hst.wf.root_dec hr]; intro l hl; simp at hl)
          exact (Sol.congr hst.evo.posted c1 α).2 hα
        · rw [if_neg hr] at h
          match h3 : analyzeAndBackjump E O s1 cl with
          | .error _ => simp [h3] at h
          | .ok s3 =>
            simp only [h3] at h
            have h3' := analyzeAndBackjump_eq h3
            have hR := (resolve_spec C hst.wf hq1 (not_root hr) False False.elim False.elim False.elim h3').1
            by_cases hP : s.Sem C ∧ s.TInv C
            · exact Propd.comp hst (propd_conflict hst.wf hq1 hr (fun _ _ => hcl hP.1 hP.2) h3' (ih s3 s' b hR.wf h))
            · obtain ⟨s4, x1, x2, x3, x4⟩ := (ih s3 s' b hR.wf h).step
              refine ⟨s4, ⟨x1.wf, hst.evo.trans x1.wf (hR.evo.trans x1.wf x1.evo), ?_, ?_, ?_⟩, x2, x3, ?_⟩
              · intro D hD; exact x1.sub D (hR.sub D (hst.sub D hD))
              · exact x1.dead.trans (hR.dead.trans hst.dead)
              · intro a b; exact absurd ⟨a, b⟩ hP
              · intro hb; exact ⟨(x4 hb).1, (x4 hb).2.1, fun a b => absurd ⟨a, b⟩ hP⟩

end Sat
end Semitone
