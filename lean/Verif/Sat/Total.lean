import Verif.Sat.PropLoop

/-!
# The propositional core alone: propagation terminates, never fails, and reaches a fixpoint
-/
namespace Semitone
namespace Sat

abbrev PSat := Sat Unit

theorem noTheory_popTh (n : Nat) (t : Unit) : popTh noTheory n t = .ok t := by
  induction n with
  | zero => rfl
  | succ n ih => exact ih

theorem runBinds_no {E : Env} (p : Lit) (is : List Nat) : ∀ (s : PSat), runBinds E noTheory p is s = .ok (s, none) := by
  induction is with
  | nil => intro s; rfl
  | cons i is ih => intro s; simp only [runBinds, noTheory, runAct]; exact ih s

theorem WF.trail_le {T : Type} {s : Sat T} {ex} (h : s.WF ex) : s.trail.length ≤ s.nvars := by
  have h1 : (s.trail.map Lit.var) ⊆ List.range s.nvars := by
    intro v hv
    obtain ⟨q, hq, rfl⟩ := List.mem_map.1 hv
    rw [List.mem_range]
    exact h.rng _ (by rw [h.tval q hq]; simp)
  have := (List.subperm_of_subset h.tnd h1).length_le
  simpa using this

/-- Termination measure of the propagation loop. -/
def measure {T : Type} (s : Sat T) : Nat := s.dl * (2 * s.nvars + 2) + 2 * (s.nvars - s.trail.length) + s.propQ.length

theorem measure_conflict {T : Type} {s s' : Sat T} (hd : s'.dl < s.dl) (hn : s'.nvars = s.nvars) (hq : s'.propQ.length = 1) (n : Nat)
    (hm : s.dl * (2 * s.nvars + 2) ≤ n) : s'.measure < n := by
  unfold measure
  rw [hn, hq]
  have h1 : (s'.dl + 1) * (2 * s.nvars + 2) ≤ s.dl * (2 * s.nvars + 2) := Nat.mul_le_mul_right _ hd
  rw [Nat.add_mul] at h1
  omega

theorem propLoop_total {E : Env} (n : Nat) : ∀ (s : PSat), s.WF noEx → s.Fix s.okQ → s.measure < n →
    ∃ s' b, propLoop E noTheory n s = .ok (s', b) ∧ (b = true → s'.Fix s'.okQ) := by
  induction n with
  | zero => intro s _ _ h; omega
  | succ n ih =>
    intro s hw hF hm
    unfold propLoop
    match hq : s.propQ with
    | p :: q =>
      simp only
      obtain ⟨s1, r, he, hst, hdl, hpv, hpl, hFx, hC, ⟨new, hnew, htr, -⟩, -, -⟩ := visit_stepd noContract hw hq
      rw [he]
      have hnv : s1.nvars = s.nvars := hst.evo.nv
      match r, hFx, hC with
      | some c, hFx, hC =>
        simp only
        obtain ⟨hcm, hcf, hcp⟩ := hC c rfl
        have hFC := (hFx hF).2 (by simp)
        by_cases hr : ({ s1 with propQ := [] } : PSat).root = true
        · rw [if_pos hr]
          exact ⟨_, _, rfl, by simp⟩
        · rw [if_neg hr]
          have hpos : 0 < ({ s1 with propQ := [] } : PSat).dl := not_root hr
          obtain ⟨s2, h2⟩ := resolve_ok (E := E) noContract hst.wf.clearQ rfl hpos (cl := s1.db c) hcf ⟨p.neg, hcp, hpl⟩ (fun k _ => ⟨_, noTheory_popTh k _⟩)
          rw [h2]
          have hR := (resolve_spec noContract hst.wf.clearQ rfl hpos False False.elim False.elim False.elim h2).1
          obtain ⟨l0, hq0, -⟩ := hR.learnt
          simp only
          have hF2 : s2.Fix s2.okQ := hR.fix ⟨hFC.nd, hFC.fx⟩
          apply ih s2 hR.wf hF2
          refine measure_conflict (s := { s1 with propQ := [] }) hR.dl hR.evo.nv (by rw [hq0]; rfl) n ?_
          have e1 : ({ s1 with propQ := [] } : PSat).dl = s.dl := hdl
          have e2 : ({ s1 with propQ := [] } : PSat).nvars = s.nvars := hnv
          rw [e1, e2]
          unfold measure at hm; rw [hq] at hm; simp at hm; omega
      | none, hFx, hC =>
        simp only
        rw [runBinds_no]
        simp only
        have hFQ := (hFx hF).1 rfl
        have hmeas : s1.measure < n := by
          unfold measure at hm ⊢
          have := hst.wf.trail_le
          rw [hdl, hnv, hnew, htr]
          rw [hnv, htr] at this
          rw [hq] at hm
          simp only [List.length_append, List.length_reverse, List.length_cons] at *
          omega
        by_cases hr : s1.root = true
        · rw [if_pos hr]
          exact ih _ (hst.wf.congr rfl rfl rfl rfl rfl rfl rfl rfl rfl rfl rfl rfl) ⟨hFQ.nd, hFQ.fx⟩ hmeas
        · rw [if_neg hr]
          exact ih _ hst.wf hFQ hmeas
    | [] =>
      simp only [noTheory, runChecks]
      exact ⟨s, true, rfl, fun _ => hF⟩

theorem propFuel_ok {T : Type} (s : Sat T) : s.measure < s.propFuel := by
  unfold measure propFuel
  rw [Nat.add_mul]
  have : s.dl * (2 * s.nvars + 2) ≤ s.dl * (2 * s.nvars + s.propQ.length + 3) := Nat.mul_le_mul_left _ (by omega)
  omega

/-- `propagate` on the propositional core never fails. -/
theorem propagate_total {E : Env} {s : PSat} (hw : s.WF noEx) (hF : s.Fix s.okQ) :
    ∃ s' b, s.propagate E noTheory = .ok (s', b) ∧ Propd noContract s s' b ∧ (b = true → s'.Fix s'.okQ) := by
  obtain ⟨s', b, h, hf⟩ := propLoop_total (E := E) s.propFuel s hw hF (propFuel_ok s)
  exact ⟨s', b, h, propLoop_spec noContract _ _ _ _ hw h, hf⟩

end Sat
end Semitone
