import Verif.LRA.PropsD
import Verif.Sat.Search

/-!
# Deciding networks: C57

`Sat.solve` (`Sat/Search.lean`) is a client that propagates and then assumes unassigned literals, chosen by any heuristic, until none is left.
-/
namespace Semitone
open Sat

/-- C57 (core): from every state of a legal history that is not known to be inconsistent, whatever the heuristic, the client stops within the given number of decisions, without failure,
and its answer is right: true with an assignment of all variables that satisfies every posted clause, false when there is none. -/
theorem C57_core_decides {E : Env} {s : PSat} (h : LReach E s) (hd : s.dead = false) {pick : PSat → Option Lit} (hh : Heuristic pick) {k : Nat} (hk : (s.nvars + 2) ^ (s.dl + s.nvars + 1) ≤ k) :
    ∃ s' b, solve E noTheory pick k s = .ok (s', b) ∧
      (b = true → (∀ v, v < s.nvars → s'.assigns v ≠ none) ∧ ∀ D ∈ s.posted, s'.asg.clause D) ∧
      (b = false → ¬ ∃ α : Asg, α 0 = false ∧ ∀ D ∈ s.posted, α.clause D) := by
  have hF := h.linv.fixq hd
  obtain ⟨s1, b, h1, -⟩ := propagate_total' (E := E) h.rinv.inv hF
  have D1 := propagate_spec h.rinv.inv h1
  unfold solve
  rw [h1]
  have hsol : ∀ α : Asg, α 0 = false → (∀ D ∈ s.posted, α.clause D) → s.Sol noContract.Th α := fun α a b => ⟨a, b, trivial⟩
  cases b with
  | false => exact ⟨s1, false, rfl, by simp, fun _ ⟨α, a, b⟩ => (D1.bad rfl).2.2 α (hsol α a b)⟩
  | true =>
    have R1 : LReach E s1 := .step (op := .propagate) (out := .bool true) h ⟨hd, trivial⟩ (by simp only [step, h1]; rfl)
    have hdl := D1.evo.dl
    have hnv := D1.evo.nv
    have hw := weight_bound s1 (s1.dl + s1.nvars)
    have hpow : (s1.nvars + 2) ^ (s1.dl + s1.nvars + 1) ≤ (s.nvars + 2) ^ (s.dl + s.nvars + 1) := by
      rw [hnv]; exact Nat.pow_le_pow_right (by omega) (by omega)
    obtain ⟨s2, b2, g1, g2, g3, g4, g5, g6⟩ := solveLoop_spec (E := E) (C := noContract) hh (P := fun u => LReach E u ∧ u.dead = false ∧ u.propQ = []) (fun u hu => hu.1.rinv.inv)
      (fun u p ⟨a1, a2, a3⟩ hp hv => by
        obtain ⟨u', b, e1, -⟩ := assume_total (E := E) a1.rinv.inv (a1.linv.fixq a2) a3 hp
        refine ⟨u', b, e1, fun hb => ?_⟩
        subst hb
        have F := (assume_spec a1.rinv.inv e1).facts a1.rinv.inv
        refine ⟨.step (op := .assume p) (out := .bool true) a1 ⟨a2, a3, hp⟩ (by simp only [step, e1]; rfl), ?_, F.queue⟩
        cases e : u'.dead with
        | false => rfl
        | true =>
          rcases F.bad e with e | ⟨e, -⟩
          · rw [a2] at e; cases e
          · cases e) k s1 s1.dl ⟨R1, by rw [D1.dead rfl]; exact hd, D1.queue⟩ (fun i a b => by omega) (by omega)
    refine ⟨s2, b2, g1, fun hb => ?_, fun hb ⟨α, a, b⟩ => ?_⟩
    · obtain ⟨⟨a1, a2, a3⟩, a4⟩ := g5 hb
      refine ⟨fun v hv => a4 v (by rw [g3, hnv]; exact hv), fun D hD => ?_⟩
      rw [← D1.evo.posted, ← g2] at hD
      rcases C06_every_quiet_state a1 a2 a3 D hD with ⟨l, hl, hv⟩ | ⟨x, hx, -, -, -, hv, -⟩
      · refine ⟨l, hl, ?_⟩
        rw [value_true] at hv
        simp [Asg.sat, asg, hv]
      · rw [value_none] at hv
        exact absurd hv (a4 _ (a1.rinv.inv.prng D hD x hx))
    · exact g6 hb α (D1.sol α |>.mpr (hsol α a b))

/-- A heuristic: the first unassigned variable, positively. -/
def firstFree {T : Type} (s : Sat T) : Option Lit := ((List.range s.nvars).find? (fun v => s.assigns v = none)).map (fun v => ⟨v, true⟩)

theorem firstFree_heuristic {T : Type} : Heuristic (firstFree (T := T)) := by
  refine ⟨fun s p h => ?_, fun s h v hv => ?_⟩
  · unfold firstFree at h
    obtain ⟨v, h1, h2⟩ := Option.map_eq_some_iff.mp h
    subst h2
    have a := List.find?_some h1
    have b := List.mem_of_find?_eq_some h1
    refine ⟨List.mem_range.mp b, ?_⟩
    rw [value_none]
    simpa using a
  · unfold firstFree at h
    rw [Option.map_eq_none_iff, List.find?_eq_none] at h
    have := h v (List.mem_range.mpr hv)
    simpa using this

/-- Run after a concrete list of calls. -/
def solved (ops : List Op) (k : Nat) : Option (Bool × List (Option Bool)) :=
  (solve stdEnv noTheory firstFree k (demo stdEnv ops)).toOption.map (fun r => (r.2, (List.range r.1.nvars).map r.1.assigns))

/-- Three variables, three clauses: solved. -/
example : solved [.newVar, .newVar, .newVar, .newClause [nl 1, nl 2], .newClause [nl 1, pl 2, nl 3], .newClause [nl 1, pl 2, pl 3]] 10 = some (true, [some false, some false, some true, some true]) := by decide +kernel

/-- All four clauses over two variables: refuted, after a decision and a learnt clause. -/
example : (solved [.newVar, .newVar, .newClause [nl 1, nl 2], .newClause [nl 1, pl 2], .newClause [pl 1, nl 2], .newClause [pl 1, pl 2]] 10).map (·.1) = some false := by decide +kernel

namespace LRA
open Lin
variable {E : Env} {L : LEnv} {s s' : Sat LRA} {U : List Fact} {d : Bool}

theorem model_sig (hsig : sig s'.th = sig s.th) (hpo : s'.posted = s.posted) (α : Asg) (x : Nat → ℚ) : Model s' U α x ↔ Model s U α x := by
  have hvas : s'.th.vas = s.th.vas := congrArg Sig.vas hsig
  have hdefs : s'.th.defs = s.th.defs := congrArg Sig.defs hsig
  exact ⟨fun hm => ⟨hm.zero, by rw [← hpo]; exact hm.posted, by rw [← hvas]; exact hm.lits, by rw [← hdefs]; exact hm.defs, hm.user, hm.rest⟩,
    fun hm => ⟨hm.zero, by rw [hpo]; exact hm.posted, by rw [hvas]; exact hm.lits, by rw [hdefs]; exact hm.defs, hm.user, hm.rest⟩⟩

/-- C57 (linear arithmetic): from every state of a session that is not known to be inconsistent, whatever the heuristic, the client stops within the given number of decisions,
without failure, and its answer is right: true with a truth assignment and rational values that are a solution of the network, false when there is none. -/
theorem C57_lra_decides (h : ZReach E L s U d) (hd : s.dead = false) {pick : Sat LRA → Option Lit} (hh : Heuristic pick) {k : Nat} (hk : (s.nvars + 2) ^ (s.dl + s.nvars + 1) ≤ k) :
    ∃ s' b, solve E (ops L) pick k s = .ok (s', b) ∧
      (b = true → (∀ v, v < s.nvars → s'.assigns v ≠ none) ∧
        ∃ δ0 : ℚ, 0 < δ0 ∧ ∀ δ, 0 < δ → δ ≤ δ0 → Model s U (fun v => s'.assigns v = some true) (withEps δ s'.th.vals)) ∧
      (b = false → ¬ ∃ α x, Model s U α x) := by
  have hz := h.zinv
  have hi := hz.reach.sinv
  obtain ⟨s1, b, h1, -⟩ := (Sat.propagate_live (E := E) hz.reach.rinv.inv (hz.alive hd).live).resolve_left (fun ⟨_, h, _⟩ => h)
  have D1 := propagate_spec hi.rinv.inv h1
  unfold solve
  rw [h1]
  cases b with
  | false => exact ⟨s1, false, rfl, by simp, fun _ ⟨α, x, hm⟩ => (D1.bad rfl).2.2 α (hi.sol hm)⟩
  | true =>
    have hst : s.step E (ops L) .propagate = .ok (s1, .bool true) := by simp only [step, h1]; rfl
    have hl : s.Legal .propagate := ⟨hd, trivial⟩
    have R1 : ZReach E L s1 U false := .step h hl trivial hst
    obtain ⟨q1, q2⟩ := hz.quiet hl trivial hst
    have i1 := hz.within hl trivial trivial hst
    have hsig1 : sig s1.th = sig s.th := (step_sinv hi (fun e => by cases e) hst).2.2
    have hdl := D1.evo.dl
    have hnv := D1.evo.nv
    have hw := weight_bound s1 (s1.dl + s1.nvars)
    have hpow : (s1.nvars + 2) ^ (s1.dl + s1.nvars + 1) ≤ (s.nvars + 2) ^ (s.dl + s.nvars + 1) := by
      rw [hnv]; exact Nat.pow_le_pow_right (by omega) (by omega)
    obtain ⟨s2, b2, g1, g2, g3, g4, g5, g6⟩ := solveLoop_spec (E := E) (C := lraContract L (sig s.th)) hh
      (P := fun u => ZReach E L u U false ∧ u.dead = false ∧ u.propQ = [] ∧ sig u.th = sig s.th ∧ ∀ v, InB (u.th.lo v) (u.th.hi v) (u.th.vals v))
      (fun u hu => by have := hu.1.zinv.reach.rinv.inv; rw [hu.2.2.2.1] at this; exact this)
      (fun u p ⟨a1, a2, a3, a4, a5⟩ hp hv => by
        have hlu : u.Legal (.assume p) := ⟨a2, a3, hp⟩
        obtain ⟨u', o, e1⟩ := C55_core_calls (op := .assume p) a1 hlu rfl
        have e0 := e1
        simp only [step] at e0
        match hp : u.assume E (ops L) p with
        | .error e => rw [hp] at e0; cases e0
        | .ok (w, b) =>
          rw [hp] at e0
          injection e0 with e0; injection e0 with e2 e3
          subst e2 e3
          refine ⟨w, b, rfl, fun hb => ?_⟩
          subst hb
          obtain ⟨r1, r2⟩ := a1.zinv.quiet hlu trivial e1
          exact ⟨.step a1 hlu rfl e1, r2, r1, ((step_sinv a1.zinv.reach.sinv (fun e => by cases e) e1).2.2).trans a4, a1.zinv.within hlu rfl trivial e1⟩) k s1 s1.dl
      ⟨R1, q2, q1, hsig1, i1⟩ (fun i a b => by omega) (by omega)
    refine ⟨s2, b2, g1, fun hb => ?_, fun hb ⟨α, x, hm⟩ => ?_⟩
    · obtain ⟨⟨a1, a2, a3, a4, a5⟩, a6⟩ := g5 hb
      refine ⟨fun v hv => a6 v (by rw [g3, hnv]; exact hv), ?_⟩
      obtain ⟨δ0, h0, f⟩ := a1.zinv.solution a3 a2 a5 a6
      exact ⟨δ0, h0, fun δ x y => (model_sig a4 (g2.trans D1.evo.posted) _ _).mp (f δ x y)⟩
    · obtain ⟨w1, w2, w3⟩ := D1.sol α |>.mpr (hi.sol hm)
      exact g6 hb α ⟨w1, w2, w3.1⟩

/-- The client run after a concrete session. -/
def lsolved (as : List DAct) (k : Nat) : Option (Bool × List (Option Bool) × List IQ) :=
  match session as with
  | some r => (solve stdEnv (ops stdL) firstFree k r.1.1).toOption.map (fun r => (r.2, (List.range r.1.nvars).map r.1.assigns, (List.range r.1.th.n).map r.1.th.vals))
  | none => none

/-- `x + y ≤ 5`, `x ≥ 3`, `y ≥ 3`, one of the first two, `x ≥ 1`: solved, with `x = 3`, `y = 2`. -/
example : lsolved (hist3 ++ [.op (.newClause [⟨1, true⟩, ⟨2, true⟩]), .lb 0 (IQ.ofQ 1)]) 10 =
    some (true, [some false, some true, some true, some false], [IQ.ofQ 3, IQ.ofQ 2, IQ.ofQ 5]) := by decide +kernel

/-- `x + y ≤ 5`, `x ≥ 3` and `y ≥ 4`: refuted. -/
example : (lsolved (hist3 ++ [.op (.newClause [⟨1, true⟩]), .op (.newClause [⟨2, true⟩]), .lb 1 (IQ.ofQ 4)]) 10).map (·.1) = some false := by decide +kernel

end LRA
end Semitone
