import Verif.Sat.Notify2
import Verif.Sat.Demo

/-!
# The stack of cores
-/
namespace Semitone
namespace Sat

/-- Calls on one core (no copies). -/
inductive Steps (E : Env) (s : PSat) : PSat → Prop
  | refl : Steps E s s
  | step {s' s'' : PSat} {op out} : Steps E s s' → s'.Legal op → s'.step E noTheory op = .ok (s'', out) → Steps E s s''

theorem Steps.reach {E : Env} {s s' : PSat} (h : Steps E s s') (hs : LReach E s) : LReach E s' := by
  induction h with
  | refl => exact hs
  | step _ hf hst ih => exact .step ih hf hst

/-- How a core `c` relates to the core `d` it was copied from: what `d` had assigned is not on the trail of `c` and is unchanged, and the
listeners of `d` have been told about everything. -/
structure Rel (d c : PSat) : Prop where
  tv : c.TV
  fixed : ∀ v, (∀ q ∈ c.trail, q.var ≠ v) → c.assigns v = d.assigns v
  tr : ∀ q ∈ c.trail, d.assigns q.var = none
  lis : ∀ l v, l ∈ d.listening v → l ∈ c.listening v ∨ c.log l v ≠ []

theorem Rel.mic {d c c' : PSat} (m : Mic c c') (hnd : ∀ v, (c.listening v).Nodup) (h : Rel d c) : Rel d c' := by
  induction m with
  | @still s s' e =>
    obtain ⟨e1, e2, e3, e4, e5⟩ := e
    refine ⟨⟨by rw [e5]; exact h.tv.1, by rw [e5, e1]; exact h.tv.2⟩, by rw [e5, e1]; exact h.fixed, by rw [e5]; exact h.tr, ?_⟩
    intro l v hl
    rw [e2]
    have : s'.log l v = s.log l v := by unfold log; rw [e3]
    rw [this]; exact h.lis l v hl
  | @enq s p k hp =>
    rw [value_none] at hp
    have hpt : ∀ q ∈ s.trail, q.var ≠ p.var := fun q hq e => h.tv.2 q hq (by rw [e]; exact hp)
    refine ⟨⟨?_, ?_⟩, ?_, ?_, ?_⟩
    · show ((p :: s.trail).map Lit.var).Nodup
      rw [List.map_cons, List.nodup_cons]
      refine ⟨?_, h.tv.1⟩
      intro hm
      obtain ⟨q, hq, e⟩ := List.mem_map.1 hm
      exact hpt q hq e
    · intro q hq
      have hq : q ∈ p :: s.trail := hq
      simp only [Sat.enq]
      rcases List.mem_cons.1 hq with hq | hq
      · simp [upd, hq]
      · rw [upd_ne _ _ (hpt q hq)]; exact h.tv.2 q hq
    · intro v hv
      have hv : ∀ q ∈ p :: s.trail, q.var ≠ v := hv
      have h1 : v ≠ p.var := fun e => hv p (by simp) e.symm
      simp only [Sat.enq]
      rw [upd_ne _ _ h1]
      exact h.fixed v (fun q hq => hv q (by simp [hq]))
    · intro q hq
      have hq : q ∈ p :: s.trail := hq
      rcases List.mem_cons.1 hq with hq | hq
      · rw [hq, ← h.fixed p.var hpt]; exact hp
      · exact h.tr q hq
    · intro l v hl
      have e : (s.enq p k).log l v = if p.var = v ∧ l ∈ s.listening p.var then some p.sign :: s.log l v else s.log l v :=
        log_append (hnd p.var) p.var (some p.sign) s.notes l v
      rw [e]
      rcases h.lis l v hl with h1 | h1
      · by_cases hv : p.var = v
        · right; rw [if_pos ⟨hv, hv ▸ h1⟩]; simp
        · left
          simp only [Sat.enq]
          split
          · rw [upd_ne _ _ (Ne.symm hv)]; exact h1
          · exact h1
      · right; split
        · simp
        · exact h1
  | @pop s p tr htr hp ha =>
    have hs := popOne_eq htr
    have htv := h.tv
    have hnp : ∀ q ∈ tr, q.var ≠ p.var := by
      intro q hq e
      have := htv.1
      rw [htr, List.map_cons, List.nodup_cons] at this
      exact this.1 (List.mem_map.2 ⟨q, hq, e⟩)
    have et : s.popOne.trail = tr := by rw [hs]
    refine ⟨h.tv.popOne htr, ?_, ?_, ?_⟩
    · intro v hv
      rw [et] at hv
      by_cases e : v = p.var
      · subst e
        rw [hs]
        simp only [upd, if_true]
        exact (h.tr p (by rw [htr]; simp)).symm
      · rw [hs]
        simp only [upd_ne _ _ e]
        apply h.fixed
        intro q hq
        rw [htr] at hq
        rcases List.mem_cons.1 hq with hq | hq
        · rw [hq]; exact Ne.symm e
        · exact hv q hq
    · intro q hq
      rw [et] at hq
      exact h.tr q (by rw [htr]; simp [hq])
    · intro l v hl
      have e : s.popOne.log l v = if p.var = v ∧ l ∈ s.listening p.var then none :: s.log l v else s.log l v := by
        rw [hs]; exact log_append (hnd p.var) p.var none s.notes l v
      have e2 : s.popOne.listening = s.listening := by rw [hs]
      rw [e, e2]
      rcases h.lis l v hl with h1 | h1
      · exact Or.inl h1
      · right; split
        · simp
        · exact h1
  | trans m1 m2 ih1 ih2 => exact ih2 (m1.quiet hnd).1 (ih1 hnd h)

theorem Rel.listen {d c : PSat} (h : Rel d c) (v l : Nat) : Rel d (c.listen v l) := by
  unfold Sat.listen
  split
  · refine ⟨h.tv, h.fixed, h.tr, ?_⟩
    intro m w hm
    rcases h.lis m w hm with h1 | h1
    · left
      simp only [upd]
      split
      · rename_i e
        by_cases hml : m = l
        · simp [hml]
        · exact List.mem_cons_of_mem _ ((List.mem_erase_of_ne hml).2 (e ▸ h1))
      · exact h1
    · exact Or.inr h1
  · exact h

theorem Copied.rel {d c : PSat} (h : Copied d c) : Rel d c :=
  ⟨⟨by rw [h.trail]; simp, by rw [h.trail]; simp⟩, fun v _ => by rw [h.assigns], by rw [h.trail]; simp, fun l v hl => Or.inl (by rw [h.listening]; exact hl)⟩

theorem Rel.steps {E : Env} {d c c' : PSat} (h : Rel d c) (hs : Steps E c c') (hr : LReach E c) : Rel d c' := by
  induction hs with
  | refl => exact h
  | @step s s' op out hst hl he ih =>
    by_cases hli : ∃ v l, op = .listen v l
    · obtain ⟨v, l, rfl⟩ := hli
      injection he with he; injection he with e1 e2; subst e1
      exact ih.listen v l
    · have hr' := hst.reach hr
      exact ih.mic (step_mic hr'.linv.rinv.inv (fun v l e => hli ⟨v, l, e⟩) he) hr'.ninv.nd

theorem log_flatMap (tr : List Lit) : ∀ (L : Nat → List Nat) (f : Nat → Option Bool) (N : List (Nat × Nat × Option Bool)) (l w : Nat),
    (∀ v, (L v).Nodup) → (tr.map Lit.var).Nodup →
    (((tr.flatMap (fun p => (L p.var).map (fun l => (l, p.var, f p.var))) ++ N).filter (fun n => n.1 == l && n.2.1 == w)).map (fun n => n.2.2)) =
      if (∃ p ∈ tr, p.var = w) ∧ l ∈ L w then f w :: ((N.filter (fun n => n.1 == l && n.2.1 == w)).map (fun n => n.2.2))
      else (N.filter (fun n => n.1 == l && n.2.1 == w)).map (fun n => n.2.2) := by
  induction tr with
  | nil => intro L f N l w _ _; simp
  | cons p tr ih =>
    intro L f N l w hL hnd
    rw [List.map_cons, List.nodup_cons] at hnd
    rw [List.flatMap_cons, List.append_assoc, log_append (hL p.var), ih L f N l w hL hnd.2]
    by_cases hp : p.var = w
    · subst hp
      have hno : ¬ ∃ q ∈ tr, q.var = p.var := by
        rintro ⟨q, hq, e⟩; exact hnd.1 (List.mem_map.2 ⟨q, hq, e⟩)
      simp [hno]
    · simp [hp]

end Sat
end Semitone
