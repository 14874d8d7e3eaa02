import Verif.Sat.LiveOps

/-!
# Calls that retract nothing
-/
namespace Semitone
namespace Sat
variable {T : Type}

/-- Nothing is retracted, the decision level does not change, and everything that became true is still to be propagated. -/
structure Mild (s s' : Sat T) : Prop where
  dl : s'.dl = s.dl
  nv : s.nvars ≤ s'.nvars
  up : ∀ i q, s.tru i q → s'.tru i q
  low : ∀ i q, i < s.dl → s'.tru i q → s.tru i q
  new : ∀ q, s'.tru s.dl q → s.tru s.dl q ∨ q ∈ s'.propQ
  pen : ∀ q ∈ s.propQ, q ∈ s'.propQ

theorem Mild.refl (s : Sat T) : Mild s s := ⟨rfl, Nat.le_refl _, fun _ _ h => h, fun _ _ _ h => h, fun _ h => Or.inl h, fun _ h => h⟩

theorem Mild.trans {s1 s2 s3 : Sat T} (h1 : Mild s1 s2) (h2 : Mild s2 s3) : Mild s1 s3 := by
  refine ⟨h2.dl.trans h1.dl, h1.nv.trans h2.nv, fun i q h => h2.up i q (h1.up i q h), fun i q hi h => h1.low i q hi (h2.low i q (by rw [h1.dl]; exact hi) h), fun q h => ?_,
    fun q h => h2.pen q (h1.pen q h)⟩
  rcases h2.new q (by rw [h1.dl]; exact h) with h | h
  · rw [h1.dl] at h
    rcases h1.new q h with h | h
    · exact Or.inl h
    · exact Or.inr (h2.pen q h)
  · exact Or.inr h

/-- Only what the core does not look at changes. -/
theorem Mild.of_eq {s s' : Sat T} (h1 : s'.trailLim = s.trailLim) (h2 : s.nvars ≤ s'.nvars) (h3 : s'.assigns = s.assigns) (h4 : s'.level = s.level) (h5 : s'.propQ = s.propQ) : Mild s s' := by
  have ht : ∀ i q, s'.tru i q ↔ s.tru i q := by
    intro i q
    unfold tru value
    rw [h3, h4]
  exact ⟨by simp only [Sat.dl, h1], h2, fun i q => (ht i q).mpr, fun i q _ => (ht i q).mp, fun q h => Or.inl ((ht _ q).mp h), by rw [h5]; exact fun _ h => h⟩

theorem newVar_mild {s : Sat T} (hw : s.WF noEx) : Mild s s.newVar.1 := by
  rw [newVar_eq hw]
  exact Mild.of_eq rfl (Nat.le_succ _) rfl rfl rfl

theorem RStep.mild {s s' : Sat T} (R : RStep s s') (hq : Quiet s s') (hw : s.WF noEx) (hr : s.root = true) : Mild s s' := by
  have h0 : s.dl = 0 := (root_iff s).1 hr
  refine ⟨by simp only [Sat.dl, R.lim], R.nv, fun i q h => R.tru_keep h, fun i q hi _ => by omega, fun q h => ?_, hq.1⟩
  rcases hq.2 q h.1 with h | h
  · exact Or.inl ((hw.tru_iff q).2 h)
  · exact Or.inr h

theorem record_quiet {E : Env} {s s' : Sat T} {lits : List Lit} (h : s.record E lits = .ok s') : Quiet s s' := by
  unfold record at h
  split at h
  · cases h
  split at h
  · cases h
  split at h
  · split at h
    · split at h
      · injection h with h; subst h; exact enqueue_quiet _ _ _
      · cases h
    · split at h
      · cases h
      · rename_i hc
        injection h with h; subst h
        exact ((newClauseObj_quiet hc).trans (enqueue_quiet _ _ _)).of_eq rfl rfl
  · cases h

theorem runAct_quiet {E : Env} : ∀ {a : TAct T} {s s' : Sat T} {r}, runAct E a s = .ok (s', r) → Quiet s s'
  | .ok t, s, s', r, h => by
    injection h with h; injection h with e1 e2; subst e1; exact (Quiet.refl s).of_eq rfl rfl
  | .confl t cl, s, s', r, h => by
    injection h with h; injection h with e1 e2; subst e1; exact (Quiet.refl s).of_eq rfl rfl
  | .record cl k, s, s', r, h => by
    unfold runAct at h
    split at h
    · cases h
    · next hr => exact (record_quiet hr).trans (runAct_quiet h)
  | .fail e, s, s', r, h => by cases h

/-- The theory acts at root level. -/
theorem Asked.mild {O : TheoryOps T} {C : Contract O} {P : Prop} {s s' : Sat T} {r} (k : Asked C P s s' r) (hq : Quiet s s') (hw : s.WF noEx) (hr : s.root = true) : Mild s s' := by
  have h0 : s.dl = 0 := (root_iff s).1 hr
  have hd := k.dl
  refine ⟨hd, Nat.le_of_eq k.evo.nv.symm, fun i q h => ?_, fun i q hi _ => by omega, fun q h => ?_, hq.1⟩
  · have hl : s.level q.var = 0 := by have := hw.level_le q.var; omega
    have hv := (value_true _ _).1 h.1
    obtain ⟨a, b, -⟩ := k.evo.low q.var (by rw [hv]; simp) (by omega)
    exact ⟨by rw [value_true, a]; exact hv, by rw [b, hl]; exact Nat.zero_le _⟩
  · rcases hq.2 q h.1 with h | h
    · exact Or.inl ((hw.tru_iff q).2 h)
    · exact Or.inr h

end Sat
end Semitone
