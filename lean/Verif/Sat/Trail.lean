import Verif.Sat.LiveOps

/-!
# Runs of the core under weaker assumptions on the theories

The invariants of `Sat/WF.lean` need the theories to be right (`Contract`). The ones of this file do not: they are the facts about the trail that hold whatever clauses and conflicts
the theories come up with, as long as the calls succeed.
-/
namespace Semitone
namespace Sat
variable {T : Type}

/-- The trail, the levels and the queue are in order; the clauses are about existing variables, the watch lists about existing clauses. -/
structure TW (s : Sat T) : Prop where
  nv : 0 < s.nvars
  fv : s.assigns 0 = some false
  fvt : ∀ q ∈ s.trail, q.var ≠ 0
  rng : ∀ v, s.assigns v ≠ none → v < s.nvars
  tval : ∀ q ∈ s.trail, s.assigns q.var = some q.sign
  tnd : (s.trail.map Lit.var).Nodup
  off : ∀ v, (∀ q ∈ s.trail, q.var ≠ v) → s.level v = 0
  tlv : ∀ p tr, (p :: tr) <:+ s.trail → s.level p.var = s.trailLim.countP (fun l => decide (l ≤ tr.length))
  lims : s.trailLim.Pairwise (fun a b => b ≤ a)
  limle : ∀ l ∈ s.trailLim, l ≤ s.trail.length
  dec : s.decisions.length = s.trailLim.length
  que : ∀ p ∈ s.propQ, p ∈ s.trail ∧ s.level p.var = s.dl
  crng : ∀ c, ∀ l ∈ s.db c, l.var < s.nvars
  wlt : ∀ m, ∀ c ∈ s.watches m, c < s.ncls

theorem TW.trail_true {s : Sat T} (h : s.TW) {q : Lit} (hq : q ∈ s.trail) : s.value q = some true := by
  rw [value_true]; exact h.tval q hq

theorem TW.true_cases {s : Sat T} (h : s.TW) {q : Lit} (hq : s.value q = some true) :
    q ∈ s.trail ∨ s.Fixed q := by
  by_cases hx : ∃ x ∈ s.trail, x.var = q.var
  · obtain ⟨x, hx, hv⟩ := hx
    left
    have h1 := h.tval x hx
    have h2 := (value_true s q).1 hq
    rw [hv, h2] at h1
    have : x = q := by cases x; cases q; simp_all
    exact this ▸ hx
  · right; exact ⟨hq, fun x hx' he => hx ⟨x, hx', he⟩⟩

theorem TW.level_le {s : Sat T} (h : s.TW) (v : Nat) : s.level v ≤ s.dl := by
  by_cases hx : ∃ x ∈ s.trail, x.var = v
  · obtain ⟨x, hx, rfl⟩ := hx
    obtain ⟨tr, htr⟩ := mem_suffix hx
    rw [h.tlv x tr htr]; exact List.countP_le_length
  · rw [h.off v (fun q hq he => hx ⟨q, hq, he⟩)]; exact Nat.zero_le _

theorem TW.enq {s : Sat T} (h : s.TW) {p : Lit} {c : Option Nat} (hp : s.value p = none) (hr : p.var < s.nvars) :
    (s.enq p c).TW := by
  have hpa : s.assigns p.var = none := (value_none s p).1 hp
  have hpt : ∀ q ∈ s.trail, q.var ≠ p.var := by
    intro q hq e; have := h.tval q hq; rw [e, hpa] at this; cases this
  have hp0 : p.var ≠ 0 := by intro e; rw [e, h.fv] at hpa; cases hpa
  constructor
  case nv => exact h.nv
  case fv => simp [Sat.enq, upd_ne _ _ hp0.symm, h.fv]
  case fvt =>
    intro q hq; simp [Sat.enq] at hq
    rcases hq with rfl | hq
    · exact hp0
    · exact h.fvt q hq
  case rng =>
    intro v hv
    by_cases e : v = p.var
    · exact e ▸ hr
    · simp [Sat.enq, upd_ne _ _ e] at hv; exact h.rng v hv
  case tval =>
    intro q hq; simp [Sat.enq] at hq ⊢
    rcases hq with rfl | hq
    · simp
    · rw [upd_ne _ _ (hpt q hq)]; exact h.tval q hq
  case tnd =>
    simp only [Sat.enq, List.map_cons, List.nodup_cons]
    refine ⟨?_, h.tnd⟩
    intro hm
    obtain ⟨q, hq, e⟩ := List.mem_map.1 hm
    exact hpt q hq e
  case off =>
    intro v hv
    have e : v ≠ p.var := by intro e; exact hv p (by simp [Sat.enq]) e.symm
    simp only [Sat.enq, upd_ne _ _ e]
    exact h.off v (fun q hq => hv q (by simp [Sat.enq, hq]))
  case tlv =>
    intro q tr hs
    rcases suffix_cons_cases hs with ⟨rfl, rfl⟩ | hs
    · simp only [Sat.enq, upd_self, dl]
      rw [List.countP_eq_length.2]
      intro l hl; simpa using h.limle l hl
    · have e : q.var ≠ p.var := hpt q (suffix_mem hs)
      simp only [Sat.enq, upd_ne _ _ e]
      exact h.tlv q tr hs
  case lims => exact h.lims
  case limle => intro l hl; have := h.limle l hl; simp [Sat.enq]; omega
  case dec => exact h.dec
  case que =>
    intro q hq
    simp [Sat.enq] at hq
    rcases hq with hq | rfl
    · have := h.que q hq
      refine ⟨by simp [Sat.enq, this.1], ?_⟩
      simp only [Sat.enq, upd_ne _ _ (hpt q this.1)]
      exact this.2
    · simp [Sat.enq, dl]
  case crng => exact h.crng
  case wlt => exact h.wlt

theorem TW.popOne {s : Sat T} (h : s.TW) (hq : s.propQ = [])
    (hl : ∀ l ∈ s.trailLim, l < s.trail.length ∨ s.trail = []) : s.popOne.TW := by
  match htr : s.trail with
  | [] => simpa [Sat.popOne, htr] using h
  | p :: tr =>
    have hs : s.popOne = { s with
        assigns := upd s.assigns p.var none
        level := upd s.level p.var 0
        reason := upd s.reason p.var none
        trail := tr
        notes := (s.listening p.var).map (fun l => (l, p.var, none)) ++ s.notes } := by
      simp [Sat.popOne, htr]
    have hnd := h.tnd
    rw [htr] at hnd
    simp only [List.map_cons, List.nodup_cons] at hnd
    have hpt : ∀ q ∈ tr, q.var ≠ p.var := by
      intro q hq e; exact hnd.1 (List.mem_map.2 ⟨q, hq, e⟩)
    have hsub : ∀ {q : Lit} {t : List Lit}, (q :: t) <:+ tr → (q :: t) <:+ s.trail := by
      intro q t ht; rw [htr]; exact ht.trans (List.suffix_cons p tr)
    have hpm : p ∈ s.trail := by rw [htr]; simp
    have hp0 := h.fvt p hpm
    constructor
    case nv => rw [hs]; exact h.nv
    case fv => simp [hs, upd_ne _ _ hp0.symm, h.fv]
    case fvt => intro q hq'; simp [hs] at hq'; exact h.fvt q (by rw [htr]; simp [hq'])
    case rng =>
      intro v hv
      by_cases e : v = p.var
      · simp [hs, e] at hv
      · simp [hs, upd_ne _ _ e] at hv; rw [hs]; exact h.rng v hv
    case tval =>
      intro q hq'; simp [hs] at hq' ⊢
      rw [upd_ne _ _ (hpt q hq')]; exact h.tval q (by rw [htr]; simp [hq'])
    case tnd => rw [hs]; exact hnd.2
    case off =>
      intro v hv
      by_cases e : v = p.var
      · simp [hs, e]
      · simp only [hs, upd_ne _ _ e]
        apply h.off v
        intro q hq'
        rw [htr] at hq'
        simp at hq'
        rcases hq' with rfl | hq'
        · exact fun e' => e e'.symm
        · exact hv q (by simp [hs, hq'])
    case tlv =>
      intro q t hst
      simp only [hs] at hst
      have e : q.var ≠ p.var := hpt q (suffix_mem hst)
      simp only [hs, upd_ne _ _ e]
      exact h.tlv q t (hsub hst)
    case lims => rw [hs]; exact h.lims
    case limle =>
      intro l hl'
      simp only [hs] at hl' ⊢
      have := hl l hl'
      rw [htr] at this; simp at this; omega
    case dec => rw [hs]; exact h.dec
    case que => rw [hs]; simp only [hq]; intro p hp; simp at hp
    case crng => rw [hs]; exact h.crng
    case wlt => rw [hs]; exact h.wlt

/-- A variable that is still assigned kept its level; a variable of a level that survives is still assigned. -/
theorem Cut.survive2 {s s' : Sat T} (h : Cut s s') (hw : s.TW) (hfull : ∀ q ∈ s.trail, s.level q.var ≤ s'.dl → q ∈ s'.trail)
    {q : Lit} {b} (hq : s.value q = some b) (hl : s.level q.var ≤ s'.dl) :
    s'.value q = some b := by
  have key : ∀ q : Lit, s.value q = some true → s.level q.var ≤ s'.dl → s'.value q = some true := by
    intro q hq hl
    rcases hw.true_cases hq with ht | hf
    · exact h.keep q hq (Or.inl (hfull q ht hl))
    · exact h.keep q hq (Or.inr hf)
  cases b with
  | true => exact key q hq hl
  | false =>
    rw [← value_neg_true] at hq ⊢
    exact key _ hq hl

theorem popOne_cut2 {s : Sat T} (h : s.TW) : Cut s s.popOne := by
  match htr : s.trail with
  | [] => have : s.popOne = s := by simp [popOne, htr]
          rw [this]; exact Cut.refl s
  | p :: tr =>
    have hs := popOne_eq htr
    have hnd := h.tnd
    rw [htr] at hnd
    simp only [List.map_cons, List.nodup_cons] at hnd
    have hpt : ∀ q ∈ tr, q.var ≠ p.var := fun q hq e => hnd.1 (List.mem_map.2 ⟨q, hq, e⟩)
    have hpm : p ∈ s.trail := by rw [htr]; simp
    constructor
    · rw [hs, htr]; exact List.suffix_cons p tr
    · rw [hs]; exact List.suffix_refl _
    · rw [hs]; exact List.suffix_refl _
    · intro v hv
      by_cases e : v = p.var
      · simp [hs, e] at hv
      · simp [hs, upd_ne _ _ e]
    · intro q hq hc
      have e : q.var ≠ p.var := by
        rcases hc with hc | hc
        · exact hpt q (by simpa [hs] using hc)
        · exact fun e => hc.2 p hpm e.symm
      rw [value_true] at hq ⊢
      simp [hs, upd_ne _ _ e, hq]
    · rw [hs]

theorem popN_spec2 (n : Nat) : ∀ (s : Sat T), s.TW → s.propQ = [] →
    (∀ l ∈ s.trailLim, l + n ≤ s.trail.length) → n ≤ s.trail.length →
    (popN n s).TW ∧ Cut s (popN n s) ∧ (popN n s).trail = s.trail.drop n ∧
    (popN n s).trailLim = s.trailLim ∧ (popN n s).decisions = s.decisions ∧ (popN n s).th = s.th := by
  induction n with
  | zero => intro s h hq hl hn; exact ⟨h, Cut.refl s, by simp [popN], rfl, rfl, rfl⟩
  | succ n ih =>
    intro s h hq hl hn
    have hne : s.trail ≠ [] := by intro e; rw [e] at hn; simp at hn
    obtain ⟨p, tr, htr⟩ := List.exists_cons_of_ne_nil hne
    have hs := popOne_eq htr
    have h1 : s.popOne.TW := h.popOne hq (fun l hl' => Or.inl (by have := hl l hl'; omega))
    have hlen : s.popOne.trail.length + 1 = s.trail.length := by rw [hs, htr]; simp
    obtain ⟨a, b, c, d, e, f⟩ := ih s.popOne h1 (by rw [hs]; exact hq)
      (by intro l hl'; have : l ∈ s.trailLim := by rw [hs] at hl'; exact hl'
          have := hl l this; omega) (by omega)
    refine ⟨a, (popOne_cut2 h).trans b, ?_, ?_, ?_, ?_⟩
    · simp only [popN]; rw [c, popOne_trail]; simp
    · simp only [popN]; rw [d, hs]
    · simp only [popN]; rw [e, hs]
    · simp only [popN]; rw [f, hs]

theorem pop_spec2 {O : TheoryOps T} {s s' : Sat T} (h : s.TW) (hq : s.propQ = []) (hp : s.pop O = .ok s') :
    s'.TW ∧ Cut s s' ∧ s.dl = s'.dl + 1 ∧ O.pop s.th = .ok s'.th ∧ Full s s' := by
  unfold pop at hp
  match hlim : s.trailLim, hdec : s.decisions with
  | [], _ => simp [hlim] at hp
  | _ :: _, [] => simp [hlim, hdec] at hp
  | lim :: lims, d :: ds =>
    simp only [hlim, hdec] at hp
    have hlimle := h.limle lim (by rw [hlim]; simp)
    have hsorted := h.lims
    rw [hlim, List.pairwise_cons] at hsorted
    obtain ⟨a, b, c, d', e, f⟩ := popN_spec2 (s.trail.length - lim) s h hq
      (by intro l hl; rw [hlim] at hl
          rcases List.mem_cons.1 hl with rfl | hl
          · omega
          · have := hsorted.1 l hl; omega) (by omega)
    generalize hs1 : popN (s.trail.length - lim) s = s1 at *
    rw [f] at hp
    match ht : O.pop s.th with
    | .error _ => simp [ht] at hp
    | .ok t =>
      simp only [ht] at hp
      injection hp with hp
      have hlen : s1.trail.length = lim := by rw [c]; simp; omega
      have hq1 : s1.propQ = [] := by rw [b.fr]; exact hq
      have hfull : ∀ q ∈ s.trail, (s.level q.var ≤ lims.length ↔ q ∈ s1.trail) := by
        intro q hqm
        obtain ⟨tr, htr⟩ := mem_suffix hqm
        rw [h.tlv q tr htr, hlim, List.countP_cons]
        constructor
        · intro hle
          have hnl : ¬ lim ≤ tr.length := by
            intro hle'
            rw [List.countP_eq_length.2 (by
              intro l hl; have := hsorted.1 l hl; simp; omega)] at hle
            simp [hle'] at hle
          -- a shorter suffix of the trail lies within `s1.trail`
          have hsuf : (q :: tr) <:+ s1.trail := by
            refine List.suffix_of_suffix_length_le htr b.suf ?_
            simp; omega
          exact suffix_mem hsuf
        · intro hm
          obtain ⟨tr', htr'⟩ := mem_suffix hm
          have e1 : tr'.length < lim := by have := suffix_len htr'; omega
          have e2 : (q :: tr) = (q :: tr') := by
            have hs2 := htr'.trans b.suf
            rcases List.suffix_or_suffix_of_suffix htr hs2 with hx | hx
            · rcases suffix_cons_cases hx with ⟨_, hx⟩ | hx
              · rw [hx]
              · exfalso
                have hnd := h.tnd
                obtain ⟨pre, hpre⟩ := hs2
                rw [← hpre] at hnd
                simp only [List.map_append, List.map_cons, List.nodup_append, List.nodup_cons] at hnd
                exact hnd.2.1.1 (List.mem_map.2 ⟨q, suffix_mem hx, rfl⟩)
            · rcases suffix_cons_cases hx with ⟨_, hx⟩ | hx
              · rw [hx]
              · exfalso
                have hnd := h.tnd
                obtain ⟨pre, hpre⟩ := htr
                rw [← hpre] at hnd
                simp only [List.map_append, List.map_cons, List.nodup_append, List.nodup_cons] at hnd
                exact hnd.2.1.1 (List.mem_map.2 ⟨q, suffix_mem hx, rfl⟩)
          have e3 : tr = tr' := by simpa using e2
          rw [e3]
          have : ¬ lim ≤ tr'.length := by omega
          simp [this, List.countP_le_length]
      subst hp
      refine ⟨?_, ?_, ?_, rfl, ?_⟩
      · have hfx : ∀ q, s1.Fixed q → ({ s1 with trailLim := lims, decisions := ds, th := t } : Sat T).Fixed q :=
          fun q hq => hq
        constructor
        case nv => exact a.nv
        case fv => exact a.fv
        case fvt => exact a.fvt
        case rng => exact a.rng
        case tval => exact a.tval
        case tnd => exact a.tnd
        case off => exact a.off
        case tlv =>
          intro q tr hs
          have h1 := a.tlv q tr hs
          have h2 : tr.length < lim := by have := suffix_len hs; simp at this; omega
          rw [d', hlim, List.countP_cons] at h1
          have : ¬ lim ≤ tr.length := by omega
          simpa [this] using h1
        case lims => exact hsorted.2
        case limle => intro l hl; have := hsorted.1 l hl; simp; omega
        case dec => have := h.dec; rw [hlim, hdec] at this; simpa using this
        case que => intro p hp; simp only at hp; rw [hq1] at hp; simp at hp
        case crng => exact a.crng
        case wlt => exact a.wlt
      · constructor
        · exact b.suf
        · rw [hlim]; exact List.suffix_cons _ _
        · rw [hdec]; exact List.suffix_cons _ _
        · exact b.same
        · exact b.keep
        · conv_lhs => rw [b.fr]
      · simp [dl, hlim]
      · exact hfull

theorem popLevels_spec2 {O : TheoryOps T} (n : Nat) : ∀ {s s' : Sat T}, s.TW → s.propQ = [] →
    popLevels O n s = .ok s' → s'.TW ∧ Cut s s' ∧ s.dl = s'.dl + n ∧ Full s s' := by
  induction n with
  | zero =>
    intro s s' h hq hp
    simp only [popLevels] at hp; injection hp with hp; subst hp
    refine ⟨h, Cut.refl s, rfl, ?_⟩
    intro q hqm
    exact ⟨fun _ => hqm, fun _ => h.level_le _⟩
  | succ n ih =>
    intro s s' h hq hp
    simp only [popLevels] at hp
    match h1 : s.pop O with
    | .error _ => simp [h1] at hp
    | .ok s1 =>
      simp only [h1] at hp
      obtain ⟨a, b, c, _, f⟩ := pop_spec2 h hq h1
      have hq1 : s1.propQ = [] := by rw [b.fr]; exact hq
      obtain ⟨a2, b2, c2, f2⟩ := ih a hq1 hp
      refine ⟨a2, b.trans b2, by omega, ?_⟩
      intro q hqm
      have e1 := f q hqm
      by_cases hm : q ∈ s1.trail
      · have e2 := f2 q hm
        have hl := b.level_some (a.trail_true hm)
        rw [hl] at e2; exact e2
      · have : ¬ s.level q.var ≤ s1.dl := fun hle => hm (e1.1 hle)
        constructor
        · intro hle; omega
        · intro hm'; exact absurd (b2.suf.subset hm') hm


end Sat
end Semitone
