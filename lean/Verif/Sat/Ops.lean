import Verif.Sat.Total
import Verif.Sat.Exo

/-!
# Search operations keep the invariant: `propagate`, `assume`, `pop`, `next`, `check`
-/
namespace Semitone
namespace Sat
variable {T : Type}

theorem Cache.congr {Th : T → Asg → Prop} {s s' : Sat T} (h : s.Cache Th) (he : s'.exprs = s.exprs) (hn : s'.nvars = s.nvars)
    (hs : ∀ α, s'.Sol Th α → s.Sol Th α) : s'.Cache Th := by
  intro k ls r hm
  rw [he] at hm
  obtain ⟨a, b, c⟩ := h k ls r hm
  rw [hn]
  exact ⟨a, b, fun α hα => c α (hs α hα)⟩

theorem Stepd.inv {O : TheoryOps T} {C : Contract O} {s s1 : Sat T} (h : Stepd C s s1) (hq : s1.propQ = []) (hS : s.Sem C) (hT : s.TInv C)
    (hp : ∀ D ∈ s.posted, ∀ l ∈ D, l.var < s.nvars) (hc : s.Cache C.Th) : s1.Inv C := by
  obtain ⟨a, b, c, -⟩ := h.sem hS hT
  refine ⟨h.wf, a, b, fun _ => hq, ?_, hc.congr h.evo.exprs h.evo.nv (fun α => (Sol.congr h.evo.posted c α).1)⟩
  rw [h.evo.posted, h.evo.nv]; exact hp

theorem Evo.linked {s s' : Sat T} (he : Evo s s') (hs : ∀ D, s.HasSub D → s'.HasSub D) {D} (h : s.Linked D) : s'.Linked D := by
  rcases h with ⟨l, hl, h1, h2⟩ | h | h
  · left
    refine ⟨l, hl, ?_⟩
    rw [value_true] at h1 ⊢
    have := he.low l.var (by rw [h1]; simp) (by omega)
    exact ⟨this.1.trans h1, this.2.1.trans h2⟩
  · exact Or.inr (Or.inl h)
  · exact Or.inr (Or.inr (hs D h))

theorem Stepd.linked {O : TheoryOps T} {C : Contract O} {s s1 : Sat T} (h : Stepd C s s1) {D} (hD : s.Linked D) : s1.Linked D :=
  h.evo.linked h.sub hD

theorem Inv.setDead {O : TheoryOps T} {C : Contract O} {s : Sat T} (h : s.Inv C) : ({ s with dead := true } : Sat T).Inv C :=
  ⟨h.wf.congr rfl rfl rfl rfl rfl rfl rfl rfl rfl rfl rfl rfl, ⟨h.sem.cls, h.sem.val⟩, h.ti, h.qr, h.prng, h.cache⟩

/-- What `propagate` guarantees, started in a state where the queue may be full. -/
structure Done {O : TheoryOps T} (C : Contract O) (s s' : Sat T) (b : Bool) : Prop where
  inv : s'.Inv C
  queue : s'.propQ = []
  evo : Evo s s'
  linked : ∀ D, s.Linked D → s'.Linked D
  th : ∀ α, C.Th s'.th α ↔ C.Th s.th α
  jump : s'.dl < s.dl → s.UnsatWith C.Th s.decisions ∧ s.Flip s'
  dead : b = true → s'.dead = s.dead
  bad : b = false → s'.dead = true ∧ s'.root = true ∧ s.Unsat C.Th

theorem Done.sol {O : TheoryOps T} {C : Contract O} {s s' : Sat T} {b} (h : Done C s s' b) (α : Asg) : s'.Sol C.Th α ↔ s.Sol C.Th α :=
  Sol.congr h.evo.posted h.th α

theorem Propd.done {O : TheoryOps T} {C : Contract O} {s s' : Sat T} {b : Bool} (h : Propd C s s' b) (hS : s.Sem C) (hT : s.TInv C)
    (hp : ∀ D ∈ s.posted, ∀ l ∈ D, l.var < s.nvars) (hc : s.Cache C.Th) : Done C s s' b := by
  obtain ⟨s1, h1, hq, ht, hf⟩ := h.step
  have hi := h1.inv hq hS hT hp hc
  obtain ⟨-, -, c, d⟩ := h1.sem hS hT
  cases b with
  | true =>
    rw [ht rfl]
    exact ⟨hi, hq, h1.evo, fun D hD => h1.linked hD, c, d, fun _ => h1.dead, by simp⟩
  | false =>
    obtain ⟨e, hr, hu⟩ := hf rfl
    rw [e]
    exact ⟨hi.setDead, hq, ⟨h1.evo.dl, h1.evo.dec, h1.evo.low, h1.evo.new, h1.evo.posted, h1.evo.nv, h1.evo.exprs⟩, fun D hD => h1.linked hD, c, d, by simp,
      fun _ => ⟨rfl, hr, hu hS hT⟩⟩

theorem propagate_spec {E : Env} {O : TheoryOps T} {C : Contract O} {s s' : Sat T} {b : Bool} (h : s.Inv C)
    (hp : s.propagate E O = .ok (s', b)) : Done C s s' b :=
  (propLoop_spec C _ _ _ _ h.wf hp).done h.sem h.ti h.prng h.cache

/-! ### pop -/

theorem Fix.cut {s s' : Sat T} (hw : s.WF noEx) (hq : s.propQ = []) (hF : s.Fix s.okQ) (h : Cut s s') (hw' : s'.WF noEx)
    (hfull : ∀ q ∈ s.trail, s.level q.var ≤ s'.dl → q ∈ s'.trail) : s'.Fix s'.okQ := by
  have hdb : s'.db = s.db := h.fields.1
  have hcs : s'.constrs = s.constrs := h.fields.2.1
  refine ⟨fun c hc => ?_, ?_⟩
  · rw [hdb]
    rw [hcs] at hc
    exact (hF.nd c hc).mono (fun a _ ha => by
      have := h.survive hw hfull ha.1 (by rw [ha.2]; exact Nat.zero_le _)
      exact ⟨this, by rw [h.level_some this]; exact ha.2⟩)
  intro c hc w w' r hd hv
  rw [hcs] at hc; rw [hdb] at hd
  rcases hF.fx c hc w w' r hd (h.value_some hv) with h1 | ⟨h1, h2⟩
  · unfold okQ at h1; rw [hq] at h1; cases h1
  · right
    have hl := h.level_some hv
    have hle := hw'.level_le w.var
    have h3 := h.survive hw hfull h1 (by omega)
    exact ⟨h3, by rw [h.level_some h3]; omega⟩

/-- What popping levels guarantees. -/
structure Popd {O : TheoryOps T} (C : Contract O) (s s' : Sat T) (n : Nat) : Prop where
  inv : s'.Inv C
  cut : Cut s s'
  evo : Evo s s'
  dl : s.dl = s'.dl + n
  full : Full s s'
  linked : ∀ D, s.Linked D → s'.Linked D
  th : ∀ α, C.Th s'.th α ↔ C.Th s.th α
  fix : s.Fix s.okQ → s'.Fix s'.okQ
  dead : s'.dead = s.dead

theorem popLevels_inv {O : TheoryOps T} {C : Contract O} {s s' : Sat T} {n : Nat} (h : s.Inv C) (hq : s.propQ = [])
    (hp : popLevels O n s = .ok s') : Popd C s s' n := by
  obtain ⟨a, b, c, d⟩ := popLevels_spec n h.wf hq hp
  have hti := h.ti
  unfold TInv at hti
  rw [c] at hti
  obtain ⟨t1, t2⟩ := popLevels_th C n hp _ _ hti
  have hfull : ∀ q ∈ s.trail, s.level q.var ≤ s'.dl → q ∈ s'.trail := fun q hq hl => (d q hq).1 hl
  have hevo := b.evo h.wf hfull
  have hsub : ∀ D, s.HasSub D → s'.HasSub D := by
    rintro D ⟨c, hc, hD⟩
    exact ⟨c, by rw [b.fields.2.1]; exact hc, by rw [b.fields.1]; exact hD⟩
  refine ⟨⟨a, h.sem.cut a b t2, ?_, ?_, ?_, ?_⟩, b, hevo, c, d, fun D hD => hevo.linked hsub hD, t2, fun hF => hF.cut h.wf hq b a hfull, ?_⟩
  · refine C.mono _ _ _ _ t1 ?_
    intro i hi q hqi
    have hs := b.survive h.wf hfull hqi.1 (Nat.le_trans hqi.2 hi)
    exact ⟨hs, by rw [b.level_some hs]; exact hqi.2⟩
  · intro _; rw [b.fr]; exact hq
  · rw [hevo.posted, hevo.nv]; exact h.prng
  · exact h.cache.congr hevo.exprs hevo.nv (fun α => (Sol.congr hevo.posted t2 α).1)
  · rw [b.fr]

theorem pop_levels {O : TheoryOps T} (s : Sat T) : popLevels O 1 s = s.pop O := by
  simp only [popLevels]
  cases s.pop O <;> rfl

theorem pop_dl {O : TheoryOps T} {s s' : Sat T} (hp : s.pop O = .ok s') : s.dl ≠ 0 := by
  unfold pop at hp
  split at hp
  · rename_i h _; simp [dl, h]
  · cases hp

theorem pop_inv {O : TheoryOps T} {C : Contract O} {s s' : Sat T} (h : s.Inv C) (hp : s.pop O = .ok s') : Popd C s s' 1 :=
  popLevels_inv h (h.qr (pop_dl hp)) (by rw [pop_levels]; exact hp)

/-! ### assume -/

/-- The state after pushing a decision level. -/
def pushed (O : TheoryOps T) (s : Sat T) (p : Lit) : Sat T :=
  { s with trailLim := s.trail.length :: s.trailLim, decisions := p :: s.decisions, th := O.push s.th }

theorem WF.pushed {O : TheoryOps T} {s : Sat T} (h : s.WF noEx) (hq : s.propQ = []) (p : Lit) : (s.pushed O p).WF noEx where
  nv := h.nv
  fv := h.fv
  fvt := h.fvt
  rng := h.rng
  tval := h.tval
  tnd := h.tnd
  off := h.off
  rsn := h.rsn
  trs := h.trs
  tlv := fun q tr htr => by
    rw [show (s.pushed O p).level = s.level from rfl, h.tlv q tr htr]
    show _ = List.countP _ (s.trail.length :: s.trailLim)
    rw [List.countP_cons]
    have := suffix_len (show (q :: tr) <:+ s.trail from htr)
    simp; omega
  tdc := fun q tr htr hr => by
    rcases h.tdc q tr htr hr with h1 | h1
    · exact Or.inl h1
    · exact Or.inr (List.mem_cons_of_mem _ h1)
  lims := by
    show List.Pairwise _ (s.trail.length :: s.trailLim)
    rw [List.pairwise_cons]; exact ⟨h.limle, h.lims⟩
  limle := fun l hl => by
    rcases List.mem_cons.1 (show l ∈ s.trail.length :: s.trailLim from hl) with h1 | h1
    · rw [h1]; exact Nat.le_refl _
    · exact h.limle l h1
  dec := by show (p :: s.decisions).length = (s.trail.length :: s.trailLim).length; simp [h.dec]
  que := by intro q hq'; have : q ∈ s.propQ := hq'; rw [hq] at this; cases this
  cnd := h.cnd
  clt := h.clt
  cln := h.cln
  crng := h.crng
  cnc := h.cnc
  wat := h.wat

theorem decUpTo_pushed {O : TheoryOps T} (s : Sat T) (p : Lit) {n : Nat} (hn : n ≤ s.decisions.length) : (s.pushed O p).decUpTo n = s.decUpTo n :=
  (decUpTo_cut (s := s.pushed O p) (s' := s) (List.suffix_cons p _) hn).symm

theorem Inv.pushed {O : TheoryOps T} {C : Contract O} {s : Sat T} (h : s.Inv C) (hq : s.propQ = []) (p : Lit) : (s.pushed O p).Inv C := by
  have hti := C.push s.th s.dl s.tru h.ti (by
    intro q hqt; exact ⟨hqt.1, Nat.le_succ_of_le hqt.2⟩)
  have hsol : ∀ α, (s.pushed O p).Sol C.Th α ↔ s.Sol C.Th α := Sol.congr rfl hti.2
  refine ⟨h.wf.pushed hq p, ⟨fun c hc α hα => h.sem.cls c hc α ((hsol α).1 hα), ?_⟩, hti.1, fun _ => hq, h.prng, h.cache.congr rfl rfl (fun α => (hsol α).1)⟩
  intro q hv α hα hd
  refine h.sem.val q hv α ((hsol α).1 hα) ?_
  rw [← decUpTo_pushed (O := O) s p (by rw [h.wf.dec]; exact h.wf.level_le _)]
  exact hd

/-- Result of `assume p`. -/
structure Assumed {O : TheoryOps T} (C : Contract O) (s s' : Sat T) (p : Lit) (b : Bool) : Prop where
  range : p.var < s.nvars
  queue0 : s.propQ = []
  /-- `p` was already false: only the level is pushed. -/
  already : s.value p = some false → b = false ∧ s' = s.pushed O p
  done : s.value p ≠ some false → Done C (if s.value p = none then (s.pushed O p).enq p none else s.pushed O p) s' b

theorem assume_spec {E : Env} {O : TheoryOps T} {C : Contract O} {s s' : Sat T} {p : Lit} {b : Bool} (h : s.Inv C)
    (hp : s.assume E O p = .ok (s', b)) : Assumed C s s' p b := by
  unfold assume at hp
  split at hp
  · cases hp
  rename_i hr
  split at hp
  · cases hp
  rename_i hq
  have hq' : s.propQ = [] := by simpa using hq
  have hr' := inRange_true hr p (by simp)
  have hpush := h.pushed hq' p
  have hp' : (match (s.pushed O p).enqueue p none with
    | (s, true) => s.propagate E O
    | (s, false) => Except.ok (s, false)) = .ok (s', b) := hp
  have hv : (s.pushed O p).value p = s.value p := rfl
  match hvp : s.value p with
  | some false =>
    rw [enqueue_some (by rw [hv]; exact hvp)] at hp'
    simp only at hp'
    injection hp' with hp'; injection hp' with e1 e2; subst e1 e2
    exact ⟨hr', hq', fun _ => ⟨rfl, rfl⟩, fun h => absurd hvp h⟩
  | some true =>
    rw [enqueue_some (by rw [hv]; exact hvp)] at hp'
    simp only at hp'
    refine ⟨hr', hq', by simp [hvp], fun _ => ?_⟩
    rw [if_neg (by simp [hvp])]
    exact propagate_spec hpush hp'
  | none =>
    rw [enqueue_none (by rw [hv]; exact hvp)] at hp'
    simp only at hp'
    refine ⟨hr', hq', by simp [hvp], fun _ => ?_⟩
    rw [if_pos hvp]
    have hw2 := hpush.wf.enq (c := none) (p := p) (by rw [hv]; exact hvp) hr' (fun x hx => by cases hx) (fun _ => Or.inr rfl)
    have hG := enq_grow (s := s.pushed O p) (p := p) (c := none) (by rw [hv]; exact hvp)
    have hS2 := hpush.sem.enq hpush.wf (p := p) (r := none) (by rw [hv]; exact hvp) (by
      intro α hα hd
      refine hd p ?_
      have : (s.pushed O p).dl = (s.pushed O p).decisions.length := (hpush.wf.dec).symm
      rw [this, decUpTo_all]
      exact List.mem_cons_self)
    exact (propLoop_spec C _ _ _ _ hw2 hp').done hS2 (hpush.ti.evo hG.evo rfl rfl) h.prng hpush.cache

/-- The state just before the propagation of `assume p`. -/
def assumed0 (O : TheoryOps T) (s : Sat T) (p : Lit) : Sat T := if s.value p = none then (s.pushed O p).enq p none else s.pushed O p

theorem assumed0_facts {O : TheoryOps T} (s : Sat T) (p : Lit) : (s.assumed0 O p).decisions = p :: s.decisions ∧
    (s.assumed0 O p).dl = s.dl + 1 ∧ (s.assumed0 O p).posted = s.posted ∧ (s.assumed0 O p).nvars = s.nvars ∧ (s.assumed0 O p).exprs = s.exprs ∧
    (s.assumed0 O p).dead = s.dead ∧ (s.assumed0 O p).th = O.push s.th ∧ (s.assumed0 O p).constrs = s.constrs ∧ (s.assumed0 O p).db = s.db ∧
    (∀ v, s.assigns v ≠ none → (s.assumed0 O p).assigns v = s.assigns v ∧ (s.assumed0 O p).level v = s.level v) ∧
    (∀ v, (s.assumed0 O p).assigns v ≠ none → s.assigns v = none → (s.assumed0 O p).level v = s.dl + 1) := by
  unfold assumed0
  split
  · rename_i hv
    rw [value_none] at hv
    refine ⟨rfl, rfl, rfl, rfl, rfl, rfl, rfl, rfl, rfl, ?_, ?_⟩
    · intro v hva
      have : v ≠ p.var := fun e => hva (e ▸ hv)
      simp [enq, pushed, upd_ne _ _ this]
    · intro v hva hvn
      by_cases e : v = p.var
      · subst e; simp [enq, pushed, dl]
      · simp [enq, pushed, upd_ne _ _ e] at hva; exact absurd hvn hva
  · refine ⟨rfl, rfl, rfl, rfl, rfl, rfl, rfl, rfl, rfl, fun v _ => ⟨rfl, rfl⟩, fun v h1 h2 => absurd h2 h1⟩

theorem Assumed.inv {O : TheoryOps T} {C : Contract O} {s s' : Sat T} {p : Lit} {b : Bool} (h : s.Inv C) (ha : Assumed C s s' p b) :
    s'.Inv C ∧ s'.propQ = [] := by
  by_cases hv : s.value p = some false
  · rw [(ha.already hv).2]; exact ⟨h.pushed ha.queue0 p, ha.queue0⟩
  · exact ⟨(ha.done hv).inv, (ha.done hv).queue⟩

theorem Assumed.th {O : TheoryOps T} {C : Contract O} {s s' : Sat T} {p : Lit} {b : Bool} (h : s.Inv C) (ha : Assumed C s s' p b) :
    ∀ α, C.Th s'.th α ↔ C.Th s.th α := by
  have hpu := (C.push s.th s.dl s.tru h.ti (by intro q hqt; exact ⟨hqt.1, Nat.le_succ_of_le hqt.2⟩)).2
  by_cases hv : s.value p = some false
  · rw [(ha.already hv).2]; exact hpu
  · intro α
    rw [(ha.done hv).th α]
    have := (assumed0_facts (O := O) s p).2.2.2.2.2.2.1
    unfold assumed0 at this
    rw [this]; exact hpu α

/-- Everything `assume` tells about the state it leaves. -/
structure AssumedF {O : TheoryOps T} (C : Contract O) (s s' : Sat T) (p : Lit) (b : Bool) : Prop where
  inv : s'.Inv C
  queue : s'.propQ = []
  dl : s'.dl ≤ s.dl + 1
  dec : s'.decisions <:+ p :: s.decisions
  low : ∀ v, s.assigns v ≠ none → s.level v ≤ s'.dl → s'.assigns v = s.assigns v ∧ s'.level v = s.level v
  new : ∀ v, s'.assigns v ≠ none → (s.assigns v ≠ none ∧ s.level v ≤ s'.dl) ∨ s'.level v = s'.dl
  posted : s'.posted = s.posted
  nv : s'.nvars = s.nvars
  exprs : s'.exprs = s.exprs
  linked : ∀ D, s.Linked D → s'.Linked D
  th : ∀ α, C.Th s'.th α ↔ C.Th s.th α
  jump : (s'.dl ≤ s.dl ∨ b = false) → s.UnsatWith C.Th (p :: s.decisions)
  dead : s.dead = true → s'.dead = true
  bad : s'.dead = true → s.dead = true ∨ (b = false ∧ s.Unsat C.Th)
  mean : b = true → s'.dl = s.dl + 1 → s'.value p = some true

theorem Assumed.facts {O : TheoryOps T} {C : Contract O} {s s' : Sat T} {p : Lit} {b : Bool} (h : s.Inv C) (ha : Assumed C s s' p b) :
    AssumedF C s s' p b := by
  have hth := ha.th h
  have hi := ha.inv h
  by_cases hv : s.value p = some false
  · obtain ⟨rfl, rfl⟩ := ha.already hv
    refine ⟨hi.1, hi.2, Nat.le_refl _, List.suffix_refl _, fun v _ _ => ⟨rfl, rfl⟩, fun v hv => Or.inl ⟨hv, hi.1.wf.level_le v⟩, rfl, rfl, rfl, fun D hD => hD, hth, ?_, fun h => h, fun h => Or.inl h, by simp⟩
    intro _ α hα hd
    have := h.sem.val _ ((value_neg_true _ _).2 hv) α hα (by
      intro l hl
      have := decUpTo_sub s (n := s.level p.var) (m := s.decisions.length) (by rw [h.wf.dec]; exact h.wf.level_le _) l hl
      rw [decUpTo_all] at this
      exact hd l (by simp [this]))
    exact (α.sat_neg p).1 this (hd p (by simp))
  · have hd := ha.done hv
    obtain ⟨f1, f2, f3, f4, f5, f6, f7, f8, f9, f10, f11⟩ := assumed0_facts (O := O) s p
    have hd : Done C (s.assumed0 O p) s' b := hd
    have hp0 : (s.assumed0 O p).value p = some true := by
      unfold assumed0
      split
      · exact enq_value_self _ _ _
      · rename_i hn
        cases hx : s.value p with
        | none => exact absurd hx hn
        | some x => cases x with
          | true => exact hx
          | false => exact absurd hx hv
    have hlp : (s.assumed0 O p).level p.var ≤ s.dl + 1 := by
      by_cases hs : s.assigns p.var = none
      · rw [f11 p.var (by rw [(value_true _ _).1 hp0]; simp) hs]
      · rw [(f10 p.var hs).2]; have := h.wf.level_le p.var; omega
    have hevo := hd.evo
    have hpush := (C.push s.th s.dl s.tru h.ti (by intro q hqt; exact ⟨hqt.1, Nat.le_succ_of_le hqt.2⟩)).2
    have hsol : ∀ α, (s.assumed0 O p).Sol C.Th α ↔ s.Sol C.Th α := Sol.congr f3 (by rw [f7]; exact hpush)
    refine ⟨hi.1, hi.2, by rw [← f2]; exact hevo.dl, by rw [← f1]; exact hevo.dec, ?_, ?_, by rw [hevo.posted, f3], by rw [hevo.nv, f4], by rw [hevo.exprs, f5], ?_, hth, ?_, ?_, ?_, ?_⟩
    · intro v hv1 hv2
      have a := f10 v hv1
      have b := hevo.low v (by rw [a.1]; exact hv1) (by rw [a.2]; exact hv2)
      exact ⟨b.1.trans a.1, b.2.1.trans a.2⟩
    · intro v hv1
      rcases hevo.new v hv1 with h1 | h1
      · by_cases hs : s.assigns v = none
        · right
          have := f11 v (by rw [h1.1]; exact hv1) hs
          have h2 := hi.1.wf.level_le v
          have h3 := hevo.dl
          omega
        · left
          refine ⟨hs, ?_⟩
          rw [← (f10 v hs).2, h1.2.1]; exact hi.1.wf.level_le v
      · exact Or.inr h1
    · intro D hD
      apply hd.linked
      rcases hD with ⟨l, hl, h1, h2⟩ | h1 | ⟨c, hc, h1⟩
      · left
        rw [value_true] at h1
        have a := f10 l.var (by rw [h1]; simp)
        exact ⟨l, hl, by rw [value_true, a.1]; exact h1, a.2.trans h2⟩
      · exact Or.inr (Or.inl h1)
      · exact Or.inr (Or.inr ⟨c, by rw [f8]; exact hc, by rw [f9]; exact h1⟩)
    · rintro (h1 | h1) α hα hdd
      · exact (hd.jump (by rw [f2]; omega)).1 α ((hsol α).2 hα) (by rw [f1]; exact hdd)
      · exact (hd.bad h1).2.2 α ((hsol α).2 hα)
    · intro hx
      cases b with
      | true => rw [hd.dead rfl, f6]; exact hx
      | false => exact (hd.bad rfl).1
    · intro hx
      cases b with
      | true => rw [hd.dead rfl, f6] at hx; exact Or.inl hx
      | false => exact Or.inr ⟨rfl, fun α hα => (hd.bad rfl).2.2 α ((hsol α).2 hα)⟩
    · intro _ hdl
      rw [value_true] at hp0 ⊢
      rw [(hevo.low p.var (by rw [hp0]; simp) (by omega)).1]; exact hp0

end Sat
end Semitone
