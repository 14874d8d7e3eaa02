import Verif.Sat.Visit

/-!
# The loop over the watchers
-/
namespace Semitone
namespace Sat
variable {T : Type}

theorem exAt_nil (p : Lit) : exAt p [] = noEx := by funext m; simp [exAt, noEx]

theorem WF.putBack {s : Sat T} {p cs} (h : s.WF (exAt p cs)) :
    ({ s with watches := upd s.watches p (s.watches p ++ cs) } : Sat T).WF noEx := by
  constructor
  case nv => exact h.nv
  case fv => exact h.fv
  case fvt => exact h.fvt
  case rng => exact h.rng
  case tval => exact h.tval
  case tnd => exact h.tnd
  case off => exact h.off
  case rsn => exact h.rsn
  case trs => exact h.trs
  case tlv => exact h.tlv
  case tdc => exact h.tdc
  case lims => exact h.lims
  case limle => exact h.limle
  case dec => exact h.dec
  case que => exact h.que
  case cnd => exact h.cnd
  case clt => exact h.clt
  case cln => exact h.cln
  case crng => exact h.crng
  case cnc => exact h.cnc
  case wat =>
    intro c m
    have := h.wat c m
    by_cases e : m = p
    · subst e; simpa [exAt, noEx] using this
    · simpa [exAt, noEx, upd_ne _ _ e, e] using this

/-- Taking the watchers of `p` out of their list. -/
theorem WF.takeOut {s : Sat T} {p q} (h : s.WF noEx) (hq : s.propQ = p :: q) :
    ({ s with propQ := q, watches := upd s.watches p [] } : Sat T).WF (exAt p (s.watches p)) := by
  constructor
  case nv => exact h.nv
  case fv => exact h.fv
  case fvt => exact h.fvt
  case rng => exact h.rng
  case tval => exact h.tval
  case tnd => exact h.tnd
  case off => exact h.off
  case rsn => exact h.rsn
  case trs => exact h.trs
  case tlv => exact h.tlv
  case tdc => exact h.tdc
  case lims => exact h.lims
  case limle => exact h.limle
  case dec => exact h.dec
  case que => intro x hx; exact h.que x (by rw [hq]; simp only at hx; simp [hx])
  case cnd => exact h.cnd
  case clt => exact h.clt
  case cln => exact h.cln
  case crng => exact h.crng
  case cnc => exact h.cnc
  case wat =>
    intro c m
    have := h.wat c m
    by_cases e : m = p
    · subst e; simpa [exAt, noEx] using this
    · simpa [exAt, noEx, upd_ne _ _ e, e] using this

theorem Grow.watches {s s' : Sat T} (h : Grow s s') (w) : Grow s { s' with watches := w } :=
  ⟨h.suf, h.lim, h.dec, h.nv, h.posted, h.th, h.constrs, h.ncls, h.exprs, h.bounds, h.dead, h.db, h.same, h.que, h.new⟩

theorem visit_spec {O : TheoryOps T} (C : Contract O) (p : Lit) (cs : List Nat) : ∀ (s : Sat T), s.WF (exAt p cs) →
    s.value p = some true → s.level p.var = s.dl →
    ∃ s' r, visit p cs s = .ok (s', r) ∧ s'.WF noEx ∧ Grow s s' ∧
      (s.Sem C → s'.Sem C) ∧
      (s.Fix (s.okV p cs) → (r = none → s'.Fix s'.okQ) ∧ (r ≠ none → s'.Fix s'.okC)) ∧
      (∀ c, r = some c → c ∈ s'.constrs ∧ (∀ q ∈ s'.db c, s'.value q = some false) ∧ p.neg ∈ s'.db c) := by
  induction cs with
  | nil =>
    intro s h hp hl
    refine ⟨s, none, rfl, ?_, Grow.refl s, id, ?_, by simp⟩
    · rw [← exAt_nil p]; exact h
    · intro hF
      refine ⟨fun _ => ?_, fun h => absurd rfl h⟩
      exact hF.weaken (fun c _ w _ h => by
        rcases h with h | h
        · exact h
        · simp at h)
  | cons c cs ih =>
    intro s h hp hl
    obtain ⟨s1, b, he, hW, hG, hS, hF, hC⟩ := clausePropagate_spec C h hp hl
    cases b with
    | true =>
      obtain ⟨s2, r, he2, hW2, hG2, hS2, hF2, hC2⟩ := ih s1 hW (hG.value hp) (by rw [hG.level hp, hG.dl]; exact hl)
      refine ⟨s2, r, ?_, hW2, hG.trans hG2, fun h => hS2 (hS h), fun h => hF2 ((hF h).1 rfl), hC2⟩
      simp [visit, he, he2]
    | false =>
      refine ⟨_, some c, by simp only [visit, he], hW.putBack, hG.watches _, ?_, ?_, ?_⟩
      · intro h; have := hS h
        exact ⟨this.cls, this.val⟩
      · intro h
        refine ⟨(fun h => by cases h), fun _ => ?_⟩
        have := (hF h).2 rfl
        exact ⟨this.nd, this.fx⟩
      · intro c' hc'
        injection hc' with hc'; subst hc'
        exact hC rfl

end Sat
end Semitone
