import Verif.Sat.PropsB

/-!
# C71: clause objects

A clause is a heap object, owned by the core; the watch lists and the reasons hold plain pointers to it (`sat_core.h:166-175`). The destructor of a clause searches itself in the
watch lists of its first two literals and erases what it finds (`clause.cpp:15-23`).
-/
namespace Semitone
namespace Sat
variable {T : Type}

/-- `sat_core::~sat_core` (`sat_core.cpp:40`): the clauses are destroyed in order. -/
def destroy (s : Sat T) : Except Err (Sat T) := deleteAll s.constrs s

/-- No pointer to a destroyed clause: the watch lists and the reasons point to clauses of the core; a clause is in the watch lists of (the negations of) its first two literals, once, and in no other; the
clause that is the reason of a variable has the true literal of that variable first. -/
structure Tidy (s : Sat T) : Prop where
  watches : ∀ m, ∀ c ∈ s.watches m, c ∈ s.constrs
  watched : ∀ c ∈ s.constrs, ∃ l0 l1 r, s.db c = l0 :: l1 :: r ∧ l0 ≠ l1.neg ∧ ∀ m, (s.watches m).count c = (if l0 = m.neg then 1 else 0) + (if l1 = m.neg then 1 else 0)
  reasons : ∀ v c, s.reason v = some c → c ∈ s.constrs ∧ ∃ b r, s.assigns v = some b ∧ s.db c = ⟨v, b⟩ :: r

/-- Every clause finds itself where its destructor looks, and no pointer is left. -/
def DestroySafe (s : Sat T) : Prop := ∃ s', s.destroy = .ok s' ∧ (∀ m, s'.watches m = []) ∧ ∀ v, s'.reason v = none

variable {s : Sat T}

theorem WF.tidy (hw : s.WF noEx) : s.Tidy := by
  refine ⟨fun m c hc => ?_, fun c hc => ?_, fun v c hv => hw.rsn v c hv⟩
  · by_contra hn
    have := hw.wat c m
    rw [if_neg hn] at this
    have h0 : (s.watches m).count c = 0 := by omega
    exact List.count_eq_zero.mp h0 hc
  · obtain ⟨l0, l1, r, e⟩ := hw.cln c hc
    refine ⟨l0, l1, r, e, fun e2 => ?_, fun m => ?_⟩
    · refine hw.cnc c hc l0 (by rw [e]; simp) ?_
      rw [e, e2]; simp
    · have := hw.wat c m
      rw [if_pos hc, e] at this
      simpa [noEx, wc] using this

theorem WF.destroySafe (hw : s.WF noEx) : s.DestroySafe := by
  obtain ⟨w, rs, h1, h2, h3⟩ := deleteAll_spec s.constrs s hw.cnd hw.cln (fun c hc m => by
    have := hw.wat c m
    rw [if_pos hc] at this
    simpa [noEx] using this)
  refine ⟨_, h1, fun m => ?_, fun v => ?_⟩
  · show w m = []
    rw [List.eq_nil_iff_forall_not_mem]
    intro x hx
    have hc := h2 m x
    have hp : 0 < (w m).count x := List.count_pos_iff.mpr hx
    by_cases hxc : x ∈ s.constrs
    · rw [if_pos hxc] at hc; omega
    · rw [if_neg hxc] at hc
      have := hw.wat x m
      rw [if_neg hxc] at this
      omega
  · show rs v = none
    rcases h3 v with h4 | ⟨h4, h5⟩
    · exact h4
    · cases hr : s.reason v with
      | none => rw [h4, hr]
      | some c =>
        obtain ⟨hc, b, r, -, e⟩ := hw.rsn v c hr
        exact absurd (by rw [e]; simp) (h5 c hc hr)

end Sat
open Sat
variable {T : Type} {E : Env}

/-- C71: between two calls no watch list and no reason points to a destroyed clause, and destroying the core is safe whatever happened before; with any theories that honour the contract. -/
theorem C71_any {O : TheoryOps T} {C : Contract O} {s : Sat T} (h : Reach E C s) : s.Tidy ∧ s.DestroySafe := ⟨h.rinv.inv.wf.tidy, h.rinv.inv.wf.destroySafe⟩

/-- C71: every legal session of the propositional core. -/
theorem C71_core {s : PSat} (h : LReach E s) : s.Tidy ∧ s.DestroySafe := ⟨h.rinv.inv.wf.tidy, h.rinv.inv.wf.destroySafe⟩

/-- Non-vacuity: a learnt clause (6), which is the reason of a variable, next to posted ones; and a state in which `simplify_db` has destroyed clauses and later ones were created. -/
example : ((run stdEnv [.newVar, .newVar, .newVar, .newVar, .newClause [pl 1, pl 2], .newClause [nl 2, pl 3], .newClause [nl 2, nl 3, pl 4], .newConj [pl 1, pl 3], .assume (nl 4), .assume (nl 1)] (init ())).map
    (fun r => (r.1.constrs, (List.range r.1.nvars).map r.1.reason))) = some ([0, 1, 2, 3, 4, 5, 6], [none, some 0, some 6, none, none, none]) ∧
  ((run stdEnv [.newVar, .newVar, .newVar, .newVar, .newClause [pl 1, pl 2], .newClause [nl 2, pl 3], .newClause [nl 2, nl 3, pl 4], .newConj [pl 1, pl 3], .assume (nl 4), .assume (nl 1), .pop, .newClause [pl 3],
      .propagate, .simplify, .newClause [pl 2, nl 5], .assume (nl 4)] (init ())).map (fun r => (r.1.constrs, (List.range r.1.nvars).map r.1.reason))) =
    some ([0, 6, 2, 3, 5, 7], [none, none, none, none, some 2, none]) := by decide

end Semitone
