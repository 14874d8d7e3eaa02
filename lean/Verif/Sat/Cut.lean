import Verif.Sat.WF

/-!
# Undoing assignments: `pop_one`, `pop`, backjumps
-/
namespace Semitone
namespace Sat
variable {T : Type}

/-- `s'` is `s` after removing some of the newest assignments and decision levels. -/
structure Cut (s s' : Sat T) : Prop where
  suf : s'.trail <:+ s.trail
  lim : s'.trailLim <:+ s.trailLim
  dec : s'.decisions <:+ s.decisions
  same : ∀ v, s'.assigns v ≠ none → s'.assigns v = s.assigns v ∧ s'.level v = s.level v ∧ s'.reason v = s.reason v
  keep : ∀ q, s.value q = some true → (q ∈ s'.trail ∨ s.Fixed q) → s'.value q = some true
  fr : s' = { s with assigns := s'.assigns, level := s'.level, reason := s'.reason, trail := s'.trail,
                     trailLim := s'.trailLim, decisions := s'.decisions, notes := s'.notes, th := s'.th }

theorem Cut.refl (s : Sat T) : Cut s s :=
  ⟨List.suffix_refl _, List.suffix_refl _, List.suffix_refl _, fun _ _ => ⟨rfl, rfl, rfl⟩, fun _ h _ => h, rfl⟩

theorem Cut.fixed {s s' : Sat T} (h : Cut s s') {q : Lit} (hq : s.Fixed q) : s'.Fixed q :=
  ⟨h.keep q hq.1 (Or.inr hq), fun x hx => hq.2 x (h.suf.subset hx)⟩

theorem Cut.trans {s1 s2 s3 : Sat T} (h1 : Cut s1 s2) (h2 : Cut s2 s3) : Cut s1 s3 where
  suf := h2.suf.trans h1.suf
  lim := h2.lim.trans h1.lim
  dec := h2.dec.trans h1.dec
  same := fun v hv => by
    have a := h2.same v hv
    have b := h1.same v (a.1 ▸ hv)
    exact ⟨a.1.trans b.1, a.2.1.trans b.2.1, a.2.2.trans b.2.2⟩
  keep := fun q hq hc => by
    rcases hc with hc | hc
    · exact h2.keep q (h1.keep q hq (Or.inl (h2.suf.subset hc))) (Or.inl hc)
    · exact h2.keep q (h1.keep q hq (Or.inr hc)) (Or.inr (h1.fixed hc))
  fr := by rw [h2.fr, h1.fr]

theorem Cut.value_some {s s' : Sat T} (h : Cut s s') {q : Lit} {b} (hq : s'.value q = some b) : s.value q = some b := by
  rw [value_eq] at hq ⊢
  have := (h.same q.var (by rw [hq]; simp)).1
  rw [← this]; exact hq

theorem Cut.level_some {s s' : Sat T} (h : Cut s s') {q : Lit} {b} (hq : s'.value q = some b) :
    s'.level q.var = s.level q.var := by
  rw [value_eq] at hq
  exact (h.same q.var (by rw [hq]; simp)).2.1

theorem Cut.dl_le {s s' : Sat T} (h : Cut s s') : s'.dl ≤ s.dl := h.lim.length_le

/-- A variable that is still assigned kept its level; a variable of a level that survives is still assigned. -/
theorem Cut.survive {s s' : Sat T} (h : Cut s s') (hw : s.WF noEx) (hfull : ∀ q ∈ s.trail, s.level q.var ≤ s'.dl → q ∈ s'.trail)
    {q : Lit} {b} (hq : s.value q = some b) (hl : s.level q.var ≤ s'.dl) :
    s'.value q = some b := by
  have key : ∀ q : Lit, s.value q = some true → s.level q.var ≤ s'.dl → s'.value q = some true := by
    intro q hq hl
    rcases hw.true_cases hq with ht | hf
    · exact h.keep q hq (Or.inl (hfull q ht hl))
    · exact h.keep q hq (Or.inr hf)
  cases b with
  | true => exact key q hq hl
  | false =>
    rw [← value_neg_true] at hq ⊢
    exact key _ hq hl

/-! ### one assignment -/

theorem popOne_eq {s : Sat T} {p tr} (htr : s.trail = p :: tr) : s.popOne = { s with
        assigns := upd s.assigns p.var none
        level := upd s.level p.var 0
        reason := upd s.reason p.var none
        trail := tr
        notes := (s.listening p.var).map (fun l => (l, p.var, none)) ++ s.notes } := by
  simp [Sat.popOne, htr]

theorem popOne_trail (s : Sat T) : s.popOne.trail = s.trail.tail := by
  unfold popOne; split <;> simp_all

theorem popOne_cut {s : Sat T} {ex} (h : s.WF ex) : Cut s s.popOne := by
  match htr : s.trail with
  | [] => have : s.popOne = s := by simp [popOne, htr]
          rw [this]; exact Cut.refl s
  | p :: tr =>
    have hs := popOne_eq htr
    have hnd := h.tnd
    rw [htr] at hnd
    simp only [List.map_cons, List.nodup_cons] at hnd
    have hpt : ∀ q ∈ tr, q.var ≠ p.var := fun q hq e => hnd.1 (List.mem_map.2 ⟨q, hq, e⟩)
    have hpm : p ∈ s.trail := by rw [htr]; simp
    constructor
    · rw [hs, htr]; exact List.suffix_cons p tr
    · rw [hs]; exact List.suffix_refl _
    · rw [hs]; exact List.suffix_refl _
    · intro v hv
      by_cases e : v = p.var
      · simp [hs, e] at hv
      · simp [hs, upd_ne _ _ e]
    · intro q hq hc
      have e : q.var ≠ p.var := by
        rcases hc with hc | hc
        · exact hpt q (by simpa [hs] using hc)
        · exact fun e => hc.2 p hpm e.symm
      rw [value_true] at hq ⊢
      simp [hs, upd_ne _ _ e, hq]
    · rw [hs]

/-! ### one level -/

theorem popN_spec {ex : Lit → List Nat} (n : Nat) : ∀ (s : Sat T), s.WF ex → s.propQ = [] →
    (∀ l ∈ s.trailLim, l + n ≤ s.trail.length) → n ≤ s.trail.length →
    (popN n s).WF ex ∧ Cut s (popN n s) ∧ (popN n s).trail = s.trail.drop n ∧
    (popN n s).trailLim = s.trailLim ∧ (popN n s).decisions = s.decisions ∧ (popN n s).th = s.th := by
  induction n with
  | zero => intro s h hq hl hn; exact ⟨h, Cut.refl s, by simp [popN], rfl, rfl, rfl⟩
  | succ n ih =>
    intro s h hq hl hn
    have hne : s.trail ≠ [] := by intro e; rw [e] at hn; simp at hn
    obtain ⟨p, tr, htr⟩ := List.exists_cons_of_ne_nil hne
    have hs := popOne_eq htr
    have h1 : s.popOne.WF ex := h.popOne hq (fun l hl' => Or.inl (by have := hl l hl'; omega))
    have hlen : s.popOne.trail.length + 1 = s.trail.length := by rw [hs, htr]; simp
    obtain ⟨a, b, c, d, e, f⟩ := ih s.popOne h1 (by rw [hs]; exact hq)
      (by intro l hl'; have : l ∈ s.trailLim := by rw [hs] at hl'; exact hl'
          have := hl l this; omega) (by omega)
    refine ⟨a, (popOne_cut h).trans b, ?_, ?_, ?_, ?_⟩
    · simp only [popN]; rw [c, popOne_trail]; simp
    · simp only [popN]; rw [d, hs]
    · simp only [popN]; rw [e, hs]
    · simp only [popN]; rw [f, hs]

/-- Literals of the surviving levels are exactly the ones that stay on the trail. -/
def Full (s s' : Sat T) : Prop := ∀ q ∈ s.trail, (s.level q.var ≤ s'.dl ↔ q ∈ s'.trail)

theorem pop_spec {O : TheoryOps T} {ex} {s s' : Sat T} (h : s.WF ex) (hq : s.propQ = []) (hp : s.pop O = .ok s') :
    s'.WF ex ∧ Cut s s' ∧ s.dl = s'.dl + 1 ∧ O.pop s.th = .ok s'.th ∧ Full s s' := by
  unfold pop at hp
  match hlim : s.trailLim, hdec : s.decisions with
  | [], _ => simp [hlim] at hp
  | _ :: _, [] => simp [hlim, hdec] at hp
  | lim :: lims, d :: ds =>
    simp only [hlim, hdec] at hp
    have hlimle := h.limle lim (by rw [hlim]; simp)
    have hsorted := h.lims
    rw [hlim, List.pairwise_cons] at hsorted
    obtain ⟨a, b, c, d', e, f⟩ := popN_spec (s.trail.length - lim) s h hq
      (by intro l hl; rw [hlim] at hl
          rcases List.mem_cons.1 hl with rfl | hl
          · omega
          · have := hsorted.1 l hl; omega) (by omega)
    generalize hs1 : popN (s.trail.length - lim) s = s1 at *
    rw [f] at hp
    match ht : O.pop s.th with
    | .error _ => simp [ht] at hp
    | .ok t =>
      simp only [ht] at hp
      injection hp with hp
      have hlen : s1.trail.length = lim := by rw [c]; simp; omega
      have hq1 : s1.propQ = [] := by rw [b.fr]; exact hq
      have hfull : ∀ q ∈ s.trail, (s.level q.var ≤ lims.length ↔ q ∈ s1.trail) := by
        intro q hqm
        obtain ⟨tr, htr⟩ := mem_suffix hqm
        rw [h.tlv q tr htr, hlim, List.countP_cons]
        constructor
        · intro hle
          have hnl : ¬ lim ≤ tr.length := by
            intro hle'
            rw [List.countP_eq_length.2 (by
              intro l hl; have := hsorted.1 l hl; simp; omega)] at hle
            simp [hle'] at hle; omega
          -- a shorter suffix of the trail lies within `s1.trail`
          have hsuf : (q :: tr) <:+ s1.trail := by
            refine List.suffix_of_suffix_length_le htr b.suf ?_
            simp; omega
          exact suffix_mem hsuf
        · intro hm
          obtain ⟨tr', htr'⟩ := mem_suffix hm
          have e1 : tr'.length < lim := by have := suffix_len htr'; omega
          have e2 : (q :: tr) = (q :: tr') := by
            have hs2 := htr'.trans b.suf
            rcases List.suffix_or_suffix_of_suffix htr hs2 with hx | hx
            · rcases suffix_cons_cases hx with ⟨_, hx⟩ | hx
              · rw [hx]
              · exfalso
                have hnd := h.tnd
                obtain ⟨pre, hpre⟩ := hs2
                rw [← hpre] at hnd
                simp only [List.map_append, List.map_cons, List.nodup_append, List.nodup_cons] at hnd
                exact hnd.2.1.1 (List.mem_map.2 ⟨q, suffix_mem hx, rfl⟩)
            · rcases suffix_cons_cases hx with ⟨_, hx⟩ | hx
              · rw [hx]
              · exfalso
                have hnd := h.tnd
                obtain ⟨pre, hpre⟩ := htr
                rw [← hpre] at hnd
                simp only [List.map_append, List.map_cons, List.nodup_append, List.nodup_cons] at hnd
                exact hnd.2.1.1 (List.mem_map.2 ⟨q, suffix_mem hx, rfl⟩)
          have e3 : tr = tr' := by simpa using e2
          rw [e3]
          have : ¬ lim ≤ tr'.length := by omega
          simp [this, List.countP_le_length]
      subst hp
      refine ⟨?_, ?_, ?_, rfl, ?_⟩
      · have hfx : ∀ q, s1.Fixed q → ({ s1 with trailLim := lims, decisions := ds, th := t } : Sat T).Fixed q :=
          fun q hq => hq
        constructor
        case nv => exact a.nv
        case fv => exact a.fv
        case fvt => exact a.fvt
        case rng => exact a.rng
        case tval => exact a.tval
        case tnd => exact a.tnd
        case off => exact a.off
        case rsn => exact a.rsn
        case trs => exact a.trs
        case tlv =>
          intro q tr hs
          have h1 := a.tlv q tr hs
          have h2 : tr.length < lim := by have := suffix_len hs; simp at this; omega
          rw [d', hlim, List.countP_cons] at h1
          have : ¬ lim ≤ tr.length := by omega
          simpa [this] using h1
        case tdc =>
          intro q tr hs hr
          have h1 := a.tdc q tr hs hr
          have h2 : tr.length < lim := by have := suffix_len hs; simp at this; omega
          rw [d', hlim] at h1
          rcases h1 with h1 | h1
          · exact Or.inl h1
          · rcases List.mem_cons.1 h1 with h1 | h1
            · omega
            · exact Or.inr h1
        case lims => exact hsorted.2
        case limle => intro l hl; have := hsorted.1 l hl; simp; omega
        case dec => have := h.dec; rw [hlim, hdec] at this; simpa using this
        case que => intro p hp; simp only at hp; rw [hq1] at hp; simp at hp
        case cnd => exact a.cnd
        case clt => exact a.clt
        case cln => exact a.cln
        case crng => exact a.crng
        case cnc => exact a.cnc
        case wat => exact a.wat
      · constructor
        · exact b.suf
        · rw [hlim]; exact List.suffix_cons _ _
        · rw [hdec]; exact List.suffix_cons _ _
        · exact b.same
        · exact b.keep
        · conv_lhs => rw [b.fr]
      · simp [dl, hlim]
      · exact hfull

theorem popLevels_spec {O : TheoryOps T} {ex} (n : Nat) : ∀ {s s' : Sat T}, s.WF ex → s.propQ = [] →
    popLevels O n s = .ok s' → s'.WF ex ∧ Cut s s' ∧ s.dl = s'.dl + n ∧ Full s s' := by
  induction n with
  | zero =>
    intro s s' h hq hp
    simp only [popLevels] at hp; injection hp with hp; subst hp
    refine ⟨h, Cut.refl s, rfl, ?_⟩
    intro q hqm
    exact ⟨fun _ => hqm, fun _ => h.level_le _⟩
  | succ n ih =>
    intro s s' h hq hp
    simp only [popLevels] at hp
    match h1 : s.pop O with
    | .error _ => simp [h1] at hp
    | .ok s1 =>
      simp only [h1] at hp
      obtain ⟨a, b, c, _, f⟩ := pop_spec h hq h1
      have hq1 : s1.propQ = [] := by rw [b.fr]; exact hq
      obtain ⟨a2, b2, c2, f2⟩ := ih a hq1 hp
      refine ⟨a2, b.trans b2, by omega, ?_⟩
      intro q hqm
      have e1 := f q hqm
      by_cases hm : q ∈ s1.trail
      · have e2 := f2 q hm
        have hl := b.level_some (a.trail_true hm)
        rw [hl] at e2; exact e2
      · have : ¬ s.level q.var ≤ s1.dl := fun hle => hm (e1.1 hle)
        constructor
        · intro hle; omega
        · intro hm'; exact absurd (b2.suf.subset hm') hm

/-- `pop` fails only if there is no level to pop or a theory fails. -/
theorem pop_ok {O : TheoryOps T} {ex} {s : Sat T} (h : s.WF ex) (hq : s.propQ = []) (hd : s.dl ≠ 0) (hO : ∃ t, O.pop s.th = .ok t) :
    ∃ s', s.pop O = .ok s' := by
  unfold pop
  match hlim : s.trailLim, hdec : s.decisions with
  | [], _ => simp [dl, hlim] at hd
  | _ :: _, [] => have := h.dec; simp [hlim, hdec] at this
  | lim :: lims, d :: ds =>
    simp only
    have hlimle := h.limle lim (by rw [hlim]; simp)
    have hsorted := h.lims
    rw [hlim, List.pairwise_cons] at hsorted
    have := popN_spec (s.trail.length - lim) s h hq
      (by intro l hl; rw [hlim] at hl
          rcases List.mem_cons.1 hl with rfl | hl
          · omega
          · have := hsorted.1 l hl; omega) (by omega)
    rw [this.2.2.2.2.2]
    obtain ⟨t, ht⟩ := hO
    rw [ht]; exact ⟨_, rfl⟩

end Sat
end Semitone
