import Verif.Sat.Later

/-!
# Notifications of the value listeners

`Mic` are the elementary changes of an assignment: a variable gets a value (`enqueue`), the last assignment above root level is
undone (`pop_one`), or nothing the listeners care about changes. Every call is a sequence of these.
-/
namespace Semitone
namespace Sat
variable {T : Type}

/-- The values reported to listener `l` about variable `v`, newest first. -/
def log (s : Sat T) (l v : Nat) : List (Option Bool) :=
  (s.notes.filter (fun n => n.1 == l && n.2.1 == v)).map (fun n => n.2.2)

/-- Nothing the listeners care about has changed. -/
def Still (s s' : Sat T) : Prop :=
  s'.assigns = s.assigns ∧ s'.listening = s.listening ∧ s'.notes = s.notes ∧ (∀ v, s.assigns v ≠ none → s'.level v = s.level v) ∧ s'.trail = s.trail

/-- Sequences of elementary changes. -/
inductive Mic : Sat T → Sat T → Prop
  | still {s s'} : Still s s' → Mic s s'
  | enq {s p c} : s.value p = none → Mic s (s.enq p c)
  | pop {s p tr} : s.trail = p :: tr → 0 < s.level p.var → s.assigns p.var ≠ none → Mic s s.popOne
  | trans {s1 s2 s3} : Mic s1 s2 → Mic s2 s3 → Mic s1 s3

theorem Mic.refl (s : Sat T) : Mic s s := .still ⟨rfl, rfl, rfl, fun _ _ => rfl, rfl⟩

/-- Each report differs from the previous one (the first one from "undefined"). -/
def Changes : List (Option Bool) → Prop
  | [] => True
  | x :: N => x ≠ N.head?.getD none ∧ Changes N

/-- Invariant of the notifications. -/
structure NInv (s : Sat T) : Prop where
  nd : ∀ v, (s.listening v).Nodup
  chg : ∀ l v, Changes (s.log l v)
  mir : ∀ l v, (l ∈ s.listening v ∨ s.log l v ≠ []) → (s.log l v).head?.getD none = s.assigns v
  off : ∀ l v, l ∉ s.listening v → s.log l v ≠ [] → s.assigns v ≠ none ∧ s.level v = 0

theorem log_append {L : List Nat} (hnd : L.Nodup) (v : Nat) (x : Option Bool) (N : List (Nat × Nat × Option Bool)) (l w : Nat) :
    (((L.map (fun l => (l, v, x)) ++ N).filter (fun n => n.1 == l && n.2.1 == w)).map (fun n => n.2.2)) =
      if v = w ∧ l ∈ L then x :: ((N.filter (fun n => n.1 == l && n.2.1 == w)).map (fun n => n.2.2))
      else (N.filter (fun n => n.1 == l && n.2.1 == w)).map (fun n => n.2.2) := by
  induction L with
  | nil => simp
  | cons a L ih =>
    rw [List.nodup_cons] at hnd
    have ih := ih hnd.2
    simp only [List.map_cons, List.cons_append, List.filter_cons]
    by_cases ha : a = l
    · subst ha
      by_cases hv : v = w
      · subst hv
        simp only [BEq.rfl, Bool.and_self, if_true, List.map_cons, ih, hnd.1, and_false, if_false, List.mem_cons, true_or, and_self]
      · simp [hv, ih]
    · have : (a == l) = false := by simp [ha]
      have hl : (l ∈ a :: L) ↔ l ∈ L := by
        constructor
        · intro h; rcases List.mem_cons.1 h with h | h
          · exact absurd h.symm ha
          · exact h
        · intro h; simp [h]
      simp only [this, Bool.false_and, Bool.false_eq_true, if_false, ih, hl]

theorem Still.log {s s' : Sat T} (h : Still s s') (l v : Nat) : s'.log l v = s.log l v := by unfold Sat.log; rw [h.2.2.1]

theorem NInv.still {s s' : Sat T} (h : s.NInv) (e : Still s s') : s'.NInv := by
  obtain ⟨e1, e2, e3, e4, e5⟩ := e
  have hl : ∀ l v, s'.log l v = s.log l v := fun l v => by unfold Sat.log; rw [e3]
  refine ⟨fun v => e2 ▸ h.nd v, fun l v => hl l v ▸ h.chg l v, fun l v hh => ?_, fun l v h1 h2 => ?_⟩
  · rw [hl, e2] at hh; rw [hl, e1]; exact h.mir l v hh
  · rw [e2] at h1; rw [hl] at h2
    obtain ⟨a, b⟩ := h.off l v h1 h2
    exact ⟨e1 ▸ a, by rw [e4 v a]; exact b⟩

theorem NInv.enq {s : Sat T} (h : s.NInv) {p : Lit} {c} (hp : s.value p = none) : (s.enq p c).NInv := by
  rw [value_none] at hp
  have hl : ∀ l v, (s.enq p c).log l v = if p.var = v ∧ l ∈ s.listening p.var then some p.sign :: s.log l v else s.log l v :=
    fun l v => log_append (h.nd p.var) p.var (some p.sign) s.notes l v
  have hlis : ∀ v, v ≠ p.var → (s.enq p c).listening v = s.listening v := by
    intro v hv
    simp only [Sat.enq]
    split
    · exact upd_ne _ _ hv
    · rfl
  have hself : (s.enq p c).assigns p.var = some p.sign := by simp [Sat.enq, upd]
  have hoth : ∀ v, v ≠ p.var → (s.enq p c).assigns v = s.assigns v ∧ (s.enq p c).level v = s.level v := by
    intro v hv; exact ⟨upd_ne _ _ hv, upd_ne _ _ hv⟩
  have hnone : ∀ l, l ∉ s.listening p.var → s.log l p.var = [] := by
    intro l hm
    apply Classical.byContradiction
    intro hne
    exact (h.off l _ hm hne).1 hp
  have hsub : ∀ l, l ∈ (s.enq p c).listening p.var → l ∈ s.listening p.var := by
    intro l hm
    simp only [Sat.enq] at hm
    split at hm
    · simp [upd] at hm
    · exact hm
  constructor
  · intro v
    by_cases hv : v = p.var
    · subst hv
      simp only [Sat.enq]
      split
      · simp [upd]
      · exact h.nd _
    · rw [hlis v hv]; exact h.nd v
  · intro l v
    rw [hl]
    split
    · rename_i hc
      obtain ⟨rfl, hm⟩ := hc
      refine ⟨?_, h.chg l _⟩
      rw [h.mir l _ (Or.inl hm), hp]; simp
    · exact h.chg l v
  · intro l v hh
    rw [hl] at hh ⊢
    by_cases hv : v = p.var
    · subst hv
      by_cases hm : l ∈ s.listening p.var
      · rw [if_pos ⟨rfl, hm⟩, hself]; rfl
      · rw [if_neg (by simp [hm])] at hh ⊢
        rcases hh with hh | hh
        · exact absurd (hsub l hh) hm
        · exact absurd (hnone l hm) hh
    · rw [if_neg (by simp [Ne.symm hv])] at hh ⊢
      rw [hlis v hv] at hh
      rw [(hoth v hv).1]
      exact h.mir l v hh
  · intro l v h1 h2
    rw [hl] at h2
    by_cases hv : v = p.var
    · subst hv
      refine ⟨by rw [hself]; simp, ?_⟩
      by_cases hr : s.root = true
      · have hd := (root_iff s).1 hr
        simp [Sat.enq, upd, hd]
      · have : (s.enq p c).listening = s.listening := by simp [Sat.enq, hr]
        rw [this] at h1
        rw [if_neg (by simp [h1])] at h2
        exact absurd (hnone l h1) h2
    · rw [if_neg (by simp [Ne.symm hv])] at h2
      rw [hlis v hv] at h1
      rw [(hoth v hv).1, (hoth v hv).2]
      exact h.off l v h1 h2

theorem NInv.popOne {s : Sat T} (h : s.NInv) {p : Lit} {tr} (htr : s.trail = p :: tr) (hp : 0 < s.level p.var)
    (hv : s.assigns p.var ≠ none) : s.popOne.NInv := by
  have hs := popOne_eq htr
  have hl : ∀ l v, s.popOne.log l v = if p.var = v ∧ l ∈ s.listening p.var then none :: s.log l v else s.log l v := by
    intro l v
    rw [hs]
    exact log_append (h.nd p.var) p.var none s.notes l v
  have hnone : ∀ l, l ∉ s.listening p.var → s.log l p.var = [] := by
    intro l hm
    apply Classical.byContradiction
    intro hne
    have := (h.off l _ hm hne).2
    omega
  have hlis : s.popOne.listening = s.listening := by rw [hs]
  have hoth : ∀ v, v ≠ p.var → s.popOne.assigns v = s.assigns v ∧ s.popOne.level v = s.level v := by
    intro v hv; rw [hs]; exact ⟨upd_ne _ _ hv, upd_ne _ _ hv⟩
  have hself : s.popOne.assigns p.var = none := by rw [hs]; simp [upd]
  constructor
  · intro v; rw [hlis]; exact h.nd v
  · intro l v
    rw [hl]
    split
    · rename_i hc
      obtain ⟨rfl, hm⟩ := hc
      refine ⟨?_, h.chg l _⟩
      rw [h.mir l _ (Or.inl hm)]; exact Ne.symm hv
    · exact h.chg l v
  · intro l v hh
    rw [hl] at hh ⊢
    rw [hlis] at hh
    by_cases hvv : v = p.var
    · subst hvv
      by_cases hm : l ∈ s.listening p.var
      · rw [if_pos ⟨rfl, hm⟩, hself]; rfl
      · rw [if_neg (by simp [hm])] at hh ⊢
        rcases hh with hh | hh
        · exact absurd hh hm
        · exact absurd (hnone l hm) hh
    · rw [if_neg (by simp [Ne.symm hvv])] at hh ⊢
      rw [(hoth v hvv).1]
      exact h.mir l v hh
  · intro l v h1 h2
    rw [hl] at h2
    rw [hlis] at h1
    by_cases hvv : v = p.var
    · subst hvv
      rw [if_neg (by simp [h1])] at h2
      exact absurd (hnone l h1) h2
    · rw [if_neg (by simp [Ne.symm hvv])] at h2
      rw [(hoth v hvv).1, (hoth v hvv).2]
      exact h.off l v h1 h2

/-- Effect of the elementary changes on the reports of a listener that is not registered: none. -/
theorem Mic.quiet {s s' : Sat T} (h : Mic s s') (hnd : ∀ v, (s.listening v).Nodup) :
    (∀ v, (s'.listening v).Nodup) ∧ (∀ l v, l ∉ s.listening v → l ∉ s'.listening v ∧ s'.log l v = s.log l v) := by
  induction h with
  | still e =>
    obtain ⟨e1, e2, e3, e4, e5⟩ := e
    exact ⟨fun v => e2 ▸ hnd v, fun l v hl => ⟨e2 ▸ hl, by unfold Sat.log; rw [e3]⟩⟩
  | @enq s p c hp =>
    refine ⟨?_, ?_⟩
    · intro v
      simp only [Sat.enq]
      split
      · by_cases hv : v = p.var
        · subst hv; simp [upd]
        · rw [upd_ne _ _ hv]; exact hnd v
      · exact hnd v
    · intro l v hl
      constructor
      · simp only [Sat.enq]
        split
        · by_cases hv : v = p.var
          · subst hv; simp [upd]
          · rw [upd_ne _ _ hv]; exact hl
        · exact hl
      · have := log_append (hnd p.var) p.var (some p.sign) s.notes l v
        have e : (s.enq p c).log l v = if p.var = v ∧ l ∈ s.listening p.var then some p.sign :: s.log l v else s.log l v := this
        rw [e, if_neg]
        rintro ⟨rfl, h⟩; exact hl h
  | @pop s p tr htr hp ha =>
    have hs := popOne_eq htr
    have hlis : s.popOne.listening = s.listening := by rw [hs]
    refine ⟨fun v => hlis ▸ hnd v, fun l v hl => ⟨hlis ▸ hl, ?_⟩⟩
    have e : s.popOne.log l v = if p.var = v ∧ l ∈ s.listening p.var then none :: s.log l v else s.log l v := by
      rw [hs]; exact log_append (hnd p.var) p.var none s.notes l v
    rw [e, if_neg]
    rintro ⟨rfl, h⟩; exact hl h
  | trans _ _ ih1 ih2 =>
    obtain ⟨a, b⟩ := ih1 hnd
    obtain ⟨c, d⟩ := ih2 a
    refine ⟨c, fun l v hl => ?_⟩
    obtain ⟨x, y⟩ := b l v hl
    obtain ⟨z, w⟩ := d l v x
    exact ⟨z, w.trans y⟩

theorem NInv.mic {s s' : Sat T} (h : s.NInv) (m : Mic s s') : s'.NInv := by
  induction m with
  | still e => exact h.still e
  | enq hp => exact h.enq hp
  | pop htr hp ha => exact h.popOne htr hp ha
  | trans _ _ ih1 ih2 => exact ih2 (ih1 h)

/-! ### every function of the core is a sequence of elementary changes -/

theorem enqueue_mic (s : Sat T) (p : Lit) (c) : Mic s (s.enqueue p c).1 := by
  match h : s.value p with
  | some b => rw [enqueue_some h]; exact .refl s
  | none => rw [enqueue_none h]; exact .enq h

theorem newClauseObj_mic {s s' : Sat T} {ls c} (h : s.newClauseObj ls = .ok (s', c)) : Mic s s' := by
  unfold newClauseObj at h
  split at h
  · injection h with h; injection h with h _; subst h; exact .still ⟨rfl, rfl, rfl, fun _ _ => rfl, rfl⟩
  · cases h

theorem clausePropagateAB_mic {s s' : Sat T} {c p a b rest r} (h : s.clausePropagateAB c p a b rest = .ok (s', r)) : Mic s s' := by
  unfold clausePropagateAB at h
  split at h
  · injection h with h; injection h with h _; subst h; exact .still ⟨rfl, rfl, rfl, fun _ _ => rfl, rfl⟩
  · split at h
    · injection h with h; injection h with h _; subst h; exact .still ⟨rfl, rfl, rfl, fun _ _ => rfl, rfl⟩
    · injection h with h; injection h with h _; subst h; exact .still ⟨rfl, rfl, rfl, fun _ _ => rfl, rfl⟩
    · injection h with h
      refine .trans (s2 := { s with db := upd s.db c (a :: b :: rest), watches := upd s.watches p (s.watches p ++ [c]) })
        (.still ⟨rfl, rfl, rfl, fun _ _ => rfl, rfl⟩) ?_
      have := enqueue_mic { s with db := upd s.db c (a :: b :: rest), watches := upd s.watches p (s.watches p ++ [c]) } a (some c)
      rw [h] at this; exact this

theorem clausePropagate_mic {s s' : Sat T} {c p r} (h : s.clausePropagate c p = .ok (s', r)) : Mic s s' := by
  unfold clausePropagate at h
  split at h
  · split at h <;> exact clausePropagateAB_mic h
  · cases h

theorem visit_mic {p : Lit} (cs : List Nat) : ∀ {s s' : Sat T} {r}, visit p cs s = .ok (s', r) → Mic s s' := by
  induction cs with
  | nil => intro s s' r h; simp only [visit] at h; injection h with h; injection h with h _; subst h; exact .refl _
  | cons c cs ih =>
    intro s s' r h
    simp only [visit] at h
    match hc : s.clausePropagate c p with
    | .error _ => simp [hc] at h
    | .ok (s1, true) => simp only [hc] at h; exact .trans (clausePropagate_mic hc) (ih h)
    | .ok (s1, false) =>
      simp only [hc] at h
      injection h with h; injection h with h _; subst h
      exact .trans (clausePropagate_mic hc) (.still ⟨rfl, rfl, rfl, fun _ _ => rfl, rfl⟩)

theorem record_mic {E : Env} {s s' : Sat T} {ls} (h : s.record E ls = .ok s') : Mic s s' := by
  unfold record at h
  split at h
  · cases h
  · rename_i l0 rest
    split at h
    · cases h
    · split at h
      · split at h
        · split at h
          · injection h with h; subst h; exact enqueue_mic s l0 none
          · cases h
        · rename_i l1 r _ _
          match hc : s.newClauseObj (l0 :: E.sortLvl s.level (l1 :: r)) with
          | .error _ => simp [hc] at h
          | .ok (s1, c) =>
            simp only [hc] at h
            injection h with h; subst h
            exact .trans (newClauseObj_mic hc) (.trans (enqueue_mic s1 l0 (some c)) (.still ⟨rfl, rfl, rfl, fun _ _ => rfl, rfl⟩))
      · cases h

/-- The trail lists distinct assigned variables. -/
def TV (s : Sat T) : Prop := (s.trail.map Lit.var).Nodup ∧ ∀ q ∈ s.trail, s.assigns q.var ≠ none

theorem WF.tv {s : Sat T} {ex} (h : s.WF ex) : s.TV := ⟨h.tnd, fun q hq => by rw [h.tval q hq]; simp⟩

theorem TV.popOne {s : Sat T} (h : s.TV) {p tr} (htr : s.trail = p :: tr) : s.popOne.TV := by
  have hs := popOne_eq htr
  obtain ⟨h1, h2⟩ := h
  rw [htr] at h1 h2
  rw [List.map_cons, List.nodup_cons] at h1
  rw [hs]
  refine ⟨h1.2, fun q hq => ?_⟩
  have : q.var ≠ p.var := fun e => h1.1 (List.mem_map.2 ⟨q, hq, e⟩)
  simp only [upd_ne _ _ this]
  exact h2 q (by simp [hq])

theorem analyzeGo_mic (n : Nat) : ∀ {s s' : Sat T} {a pr ng bt}, 0 < s.dl → s.TV → analyzeGo n s a pr = .ok (s', ng, bt) → Mic s s' := by
  induction n with
  | zero => intro s s' a pr ng bt _ _ h; cases h
  | succ n ih =>
    intro s s' a pr ng bt hd hv h
    unfold analyzeGo at h
    match htr : s.trail with
    | [] => simp [htr] at h
    | p :: tr =>
      simp only [htr] at h
      have hs := popOne_eq htr
      have hd' : 0 < s.popOne.dl := by rw [hs]; exact hd
      have hv' := hv.popOne htr
      split at h
      · cases h
      · rename_i hl
        have hl : s.level p.var = s.dl := by simpa using hl
        have m : Mic s s.popOne := .pop htr (by omega) (hv.2 p (by rw [htr]; simp))
        match hr : s.reasonLits p pr with
        | .error _ => simp [hr] at h
        | .ok pr' =>
          simp only [hr] at h
          split at h
          · split at h
            · match he : s.popOne.explain pr' { a with counter := a.counter - 1 } with
              | .error _ => simp [he] at h
              | .ok a' => simp only [he] at h; exact m.trans (ih hd' hv' h)
            · split at h
              · injection h with h; injection h with h _; subst h; exact m
              · cases h
          · exact m.trans (ih hd' hv' h)

theorem analyze_mic {s s' : Sat T} {cl ng bt} (hd : 0 < s.dl) (hv : s.TV) (h : s.analyze cl = .ok (s', ng, bt)) : Mic s s' := by
  unfold analyze at h
  split at h
  · cases h
  · split at h
    · cases h
    · exact analyzeGo_mic _ hd hv h

theorem popN_mic (lim n : Nat) : ∀ {s : Sat T}, s.TV → lim + n = s.trail.length →
    (∀ p tr, (p :: tr) <:+ s.trail → lim ≤ tr.length → 0 < s.level p.var) → Mic s (popN n s) := by
  induction n with
  | zero => intro s _ _ _; exact .refl s
  | succ n ih =>
    intro s hv hn hl
    match htr : s.trail with
    | [] => rw [htr] at hn; simp at hn
    | p :: tr =>
      have hs := popOne_eq htr
      rw [htr] at hn
      simp only [List.length_cons] at hn
      have m : Mic s s.popOne := .pop htr (hl p tr (by rw [htr]; exact List.suffix_refl _) (by omega)) (hv.2 p (by rw [htr]; simp))
      refine m.trans (ih (hv.popOne htr) (by rw [hs]; simp; omega) ?_)
      intro q t hq hlen
      have e : s.popOne.trail = tr := by rw [hs]
      rw [e] at hq
      have h0 := hl q t (by rw [htr]; exact hq.trans (List.suffix_cons p tr)) hlen
      have hne : q.var ≠ p.var := by
        intro e
        have := hv.1
        rw [htr, List.map_cons, List.nodup_cons] at this
        exact this.1 (List.mem_map.2 ⟨q, suffix_mem hq, e⟩)
      rw [hs]
      simp only [upd_ne _ _ hne]; exact h0

theorem pop_mic {O : TheoryOps T} {ex} {s s' : Sat T} (h : s.WF ex) (hp : s.pop O = .ok s') : Mic s s' := by
  unfold pop at hp
  match hlim : s.trailLim, hdec : s.decisions with
  | [], _ => simp [hlim] at hp
  | _ :: _, [] => simp [hlim, hdec] at hp
  | lim :: lims, d :: ds =>
    simp only [hlim, hdec] at hp
    have hle := h.limle lim (by rw [hlim]; simp)
    match ho : O.pop (popN (s.trail.length - lim) s).th with
    | .error _ => simp [ho] at hp
    | .ok t =>
      simp only [ho] at hp
      injection hp with hp; subst hp
      refine .trans (popN_mic lim _ h.tv (by omega) ?_) (.still ⟨rfl, rfl, rfl, fun _ _ => rfl, rfl⟩)
      intro p tr hs hl
      rw [h.tlv p tr hs, hlim]
      rw [List.countP_cons]
      simp [hl]

theorem popLevels_mic {O : TheoryOps T} {ex} (n : Nat) : ∀ {s s' : Sat T}, s.WF ex → s.propQ = [] → popLevels O n s = .ok s' → Mic s s' := by
  induction n with
  | zero => intro s s' _ _ h; injection h with h; subst h; exact .refl s
  | succ n ih =>
    intro s s' hw hq h
    simp only [popLevels] at h
    match hp : s.pop O with
    | .error _ => simp [hp] at h
    | .ok s1 =>
      simp only [hp] at h
      obtain ⟨hw1, hc, -⟩ := pop_spec hw hq hp
      exact (pop_mic hw hp).trans (ih hw1 (by rw [hc.fr]; exact hq) h)

theorem resolve_mic {E : Env} {O : TheoryOps T} (C : Contract O) {s s' : Sat T} {cl} (hw : s.WF noEx) (hq : s.propQ = []) (hd : 0 < s.dl)
    (h : s.resolveConflict E O cl = .ok s') : Mic s s' := by
  unfold resolveConflict at h
  match h1 : s.analyze cl with
  | .error _ => simp [h1] at h
  | .ok (s1, ng, bt) =>
    simp only [h1] at h
    match h2 : popLevels O (s1.dl - bt) s1 with
    | .error _ => simp [h2] at h
    | .ok s2 =>
      simp only [h2] at h
      obtain ⟨hA, -⟩ := (analyze_spec C hw hq hd False False.elim False.elim).2 _ _ _ h1
      have hq1 : s1.propQ = [] := by rw [hA.cut.fr]; exact hq
      exact (analyze_mic hd hw.tv h1).trans ((popLevels_mic _ hA.wf hq1 h2).trans (record_mic h))

theorem runAct_mic {E : Env} (act : TAct T) : ∀ {s s' : Sat T} {r}, runAct E act s = .ok (s', r) → Mic s s' := by
  induction act with
  | ok t => intro s s' r h; injection h with h; injection h with h _; subst h; exact .still ⟨rfl, rfl, rfl, fun _ _ => rfl, rfl⟩
  | confl t cl => intro s s' r h; injection h with h; injection h with h _; subst h; exact .still ⟨rfl, rfl, rfl, fun _ _ => rfl, rfl⟩
  | record cl k ih =>
    intro s s' r h
    simp only [runAct] at h
    match h1 : s.record E cl with
    | .error _ => simp [h1] at h
    | .ok s1 => simp only [h1] at h; exact (record_mic h1).trans (ih _ h)
  | fail e => intro s s' r h; cases h

theorem runBinds_mic {E : Env} {O : TheoryOps T} (p : Lit) (is : List Nat) : ∀ {s s' : Sat T} {r}, runBinds E O p is s = .ok (s', r) → Mic s s' := by
  induction is with
  | nil => intro s s' r h; injection h with h; injection h with h _; subst h; exact .refl _
  | cons i is ih =>
    intro s s' r h
    simp only [runBinds] at h
    match h1 : runAct E (O.propagate i s.th s.value p) s with
    | .error _ => simp [h1] at h
    | .ok (s1, some cl) => simp only [h1] at h; injection h with h; injection h with h _; subst h; exact runAct_mic _ h1
    | .ok (s1, none) => simp only [h1] at h; exact (runAct_mic _ h1).trans (ih h)

theorem runChecks_mic {O : TheoryOps T} (is : List Nat) : ∀ {s s' : Sat T} {r}, runChecks O is s = .ok (s', r) → Mic s s' := by
  induction is with
  | nil => intro s s' r h; injection h with h; injection h with h _; subst h; exact .refl _
  | cons i is ih =>
    intro s s' r h
    simp only [runChecks] at h
    match h1 : O.check i s.th s.value with
    | .error _ => simp [h1] at h
    | .ok (t, some cl) => simp only [h1] at h; injection h with h; injection h with h _; subst h; exact .still ⟨rfl, rfl, rfl, fun _ _ => rfl, rfl⟩
    | .ok (t, none) => simp only [h1] at h; exact .trans (s2 := { s with th := t }) (.still ⟨rfl, rfl, rfl, fun _ _ => rfl, rfl⟩) (ih h)

theorem propLoop_mic {E : Env} {O : TheoryOps T} (C : Contract O) (n : Nat) : ∀ (s s' : Sat T) b, s.WF noEx →
    propLoop E O n s = .ok (s', b) → Mic s s' := by
  induction n with
  | zero => intro s s' b _ h; cases h
  | succ n ih =>
    intro s s' b hw h
    unfold propLoop at h
    match hq : s.propQ with
    | p :: q =>
      simp only [hq] at h
      obtain ⟨s1, r, he, hst, hdl, hpv, hpl, hF, hC, -⟩ := visit_stepd C hw hq
      have m0 : Mic s { s with propQ := q, watches := upd s.watches p [] } := .still ⟨rfl, rfl, rfl, fun _ _ => rfl, rfl⟩
      have m1 := m0.trans (visit_mic _ he)
      rw [he] at h
      match r, h with
      | some c, h =>
        simp only at h
        have m2 : Mic s1 { s1 with propQ := [] } := .still ⟨rfl, rfl, rfl, fun _ _ => rfl, rfl⟩
        by_cases hr : ({ s1 with propQ := [] } : Sat T).root = true
        · rw [if_pos hr] at h
          injection h with h; injection h with h1 h2; subst h1
          exact m1.trans (.still ⟨rfl, rfl, rfl, fun _ _ => rfl, rfl⟩)
        · rw [if_neg hr] at h
          match h1 : resolveConflict E O { s1 with propQ := [] } (s1.db c) with
          | .error _ => simp [h1] at h
          | .ok s2 =>
            simp only [h1] at h
            have hw2 := (resolve_spec C hst.wf.clearQ rfl (not_root (s := s1) hr) False False.elim False.elim False.elim h1).1.wf
            exact m1.trans (m2.trans ((resolve_mic C hst.wf.clearQ rfl (not_root (s := s1) hr) h1).trans (ih s2 s' b hw2 h)))
      | none, h =>
        simp only at h
        match h1 : runBinds E O p (s1.bounds p.var) s1 with
        | .error _ => simp [h1] at h
        | .ok (s2, some cl) =>
          simp only [h1] at h
          have hst2 := (runBinds_spec C p _ s1 s2 _ hst.wf hpv h1).stepd
          have m2 := m1.trans (runBinds_mic p _ h1)
          have m3 : Mic s2 { s2 with propQ := [] } := .still ⟨rfl, rfl, rfl, fun _ _ => rfl, rfl⟩
          by_cases hr : ({ s2 with propQ := [] } : Sat T).root = true
          · rw [if_pos hr] at h
            injection h with h; injection h with h1 h2; subst h1
            exact m2.trans (.still ⟨rfl, rfl, rfl, fun _ _ => rfl, rfl⟩)
          · rw [if_neg hr] at h
            match h3 : analyzeAndBackjump E O { s2 with propQ := [] } cl with
            | .error _ => simp [h3] at h
            | .ok s3 =>
              simp only [h3] at h
              have h3' := analyzeAndBackjump_eq h3
              have hw3 := (resolve_spec C hst2.wf.clearQ rfl (not_root (s := s2) hr) False False.elim False.elim False.elim h3').1.wf
              exact m2.trans (m3.trans ((resolve_mic C hst2.wf.clearQ rfl (not_root (s := s2) hr) h3').trans (ih s3 s' b hw3 h)))
        | .ok (s2, none) =>
          simp only [h1] at h
          have hst2 := (runBinds_spec C p _ s1 s2 _ hst.wf hpv h1).stepd
          have m2 := m1.trans (runBinds_mic p _ h1)
          have m3 : Mic s2 (if s2.root then { s2 with bounds := upd s2.bounds p.var [] } else s2) ∧
              (if s2.root then { s2 with bounds := upd s2.bounds p.var [] } else s2).WF noEx := by
            by_cases hr : s2.root = true
            · rw [if_pos hr]
              exact ⟨.still ⟨rfl, rfl, rfl, fun _ _ => rfl, rfl⟩, hst2.wf.congr rfl rfl rfl rfl rfl rfl rfl rfl rfl rfl rfl rfl⟩
            · rw [if_neg hr]; exact ⟨.refl _, hst2.wf⟩
          exact m2.trans (m3.1.trans (ih _ s' b m3.2 h))
    | [] =>
      simp only [hq] at h
      match h1 : runChecks O O.ids s with
      | .error _ => simp [h1] at h
      | .ok (s1, none) =>
        simp only [h1] at h
        injection h with h; injection h with h2 h3; subst h2
        exact runChecks_mic _ h1
      | .ok (s1, some cl) =>
        simp only [h1] at h
        obtain ⟨hA, e1, -⟩ := runChecks_spec C _ s s1 _ hw h1
        have hst := hA.stepd
        have hq1 : s1.propQ = [] := by rw [e1, hq]
        have m1 := runChecks_mic _ h1
        by_cases hr : s1.root = true
        · rw [if_pos hr] at h
          injection h with h; injection h with h1 h2; subst h1
          exact m1.trans (.still ⟨rfl, rfl, rfl, fun _ _ => rfl, rfl⟩)
        · rw [if_neg hr] at h
          match h3 : analyzeAndBackjump E O s1 cl with
          | .error _ => simp [h3] at h
          | .ok s3 =>
            simp only [h3] at h
            have h3' := analyzeAndBackjump_eq h3
            have hR := (resolve_spec C hst.wf hq1 (not_root hr) False False.elim False.elim False.elim h3').1
            exact m1.trans ((resolve_mic C hst.wf hq1 (not_root hr) h3').trans (ih s3 s' b hR.wf h))

theorem propagate_mic {E : Env} {O : TheoryOps T} {C : Contract O} {s s' : Sat T} {b} (h : s.Inv C) (hp : s.propagate E O = .ok (s', b)) : Mic s s' :=
  propLoop_mic C _ _ _ _ h.wf hp

theorem newVar_mic {s : Sat T} {ex} (h : s.WF ex) : Mic s s.newVar.1 := by
  have ha : s.assigns s.nvars = none := by
    apply Classical.byContradiction
    intro hne
    exact absurd (h.rng _ hne) (Nat.lt_irrefl _)
  refine .still ⟨?_, rfl, rfl, ?_, rfl⟩
  · funext v
    simp only [newVar, upd]
    split
    · rename_i e; rw [e, ha]
    · rfl
  · intro v hv
    simp only [newVar, upd]
    split
    · rename_i e; rw [e] at hv; exact absurd ha hv
    · rfl

theorem newClause_mic {E : Env} {s s' : Sat T} {ls b} (h : s.newClause E ls = .ok (s', b)) : Mic s s' := by
  unfold newClause at h
  split at h
  · cases h
  split at h
  · cases h
  simp only at h
  have m0 : Mic s { s with posted := ls :: s.posted } := .still ⟨rfl, rfl, rfl, fun _ _ => rfl, rfl⟩
  split at h
  · injection h with h; injection h with h _; subst h; exact m0
  · injection h with h; injection h with h _; subst h; exact .still ⟨rfl, rfl, rfl, fun _ _ => rfl, rfl⟩
  · rename_i l _
    injection h with h
    have := enqueue_mic { s with posted := ls :: s.posted } l none
    rw [h] at this
    exact m0.trans this
  · rename_i l _ _ _
    split at h
    · cases h
    · rename_i s1 c hc
      injection h with h; injection h with h _; subst h
      exact m0.trans ((newClauseObj_mic hc).trans (.still ⟨rfl, rfl, rfl, fun _ _ => rfl, rfl⟩))

theorem postAll_mic {E : Env} (cs : List (List Lit)) : ∀ {s s' : Sat T} {b}, postAll E cs s = .ok (s', b) → Mic s s' := by
  induction cs with
  | nil => intro s s' b h; injection h with h; injection h with h _; subst h; exact .refl _
  | cons c cs ih =>
    intro s s' b h
    simp only [postAll] at h
    match hc : s.newClause E c with
    | .error _ => simp [hc] at h
    | .ok (s1, false) => simp only [hc] at h; injection h with h; injection h with h _; subst h; exact newClause_mic hc
    | .ok (s1, true) => simp only [hc] at h; exact (newClause_mic hc).trans (ih h)

theorem define_mic {E : Env} {s s' : Sat T} {k ctr cls r} (h : define E s k ctr cls = .ok (s', r)) : Mic s s' := by
  unfold define at h
  split at h
  · cases h
  · rename_i hp; injection h with h; injection h with h _; subst h; exact postAll_mic _ hp
  · rename_i hp; injection h with h; injection h with h _; subst h; exact (postAll_mic _ hp).trans (.still ⟨rfl, rfl, rfl, fun _ _ => rfl, rfl⟩)

end Sat
end Semitone
