import Verif.OV.Listen
import Verif.OV.Demo

/-!
# Object variables: a listener registered above root level
-/
namespace Semitone
namespace OV

/-- `x` in `{10, 11, 12}` (literals 1, 2, 3). -/
def histL : List OAct := [.var [10, 11, 12] true, .op .propagate]

/-- The values of `x` in a state in which listener 7 was registered on `x` (the core's reports are shown too). -/
def obs (r : (Sat Unit × OV Nat) × List Sat.Out) : List Nat × List (Nat × Nat × Option Bool) := (OV.value r.1.1 r.1.2 0, r.1.1.notes)

/-- Registration of listener 7 in the state reached by `as`, then the calls `bs`. -/
def withL (as bs : List OAct) : Option ((Sat Unit × OV Nat) × List Sat.Out) :=
  match demo as with
  | some (r, _) => runs stdEnv bs (OV.listen r.1 r.2 0 7, r.2)
  | none => none

/-- A listener registered at root level is told that `11` leaves the domain and that it comes back (C52). -/
example : (withL histL []).map obs = some ([10, 11, 12], []) ∧
    (withL histL [.op (.assume ⟨2, false⟩)]).map obs = some ([10, 12], [(7, 2, some false)]) ∧
    (withL histL [.op (.assume ⟨2, false⟩), .op .pop]).map obs = some ([10, 11, 12], [(7, 2, none), (7, 2, some false)]) := by
  refine ⟨?_, ?_, ?_⟩ <;> decide +kernel

/-- The state in which `11` has been excluded by a decision. -/
theorem late_exists : ∃ s o outs, demo (histL ++ [.op (.assume ⟨2, false⟩)]) = some ((s, o), outs) ∧ OV.value s o 0 = [10, 12] ∧
    ∃ s2, (OV.listen s o 0 7).pop noTheory = .ok s2 ∧ OV.value s2 o 0 = [10, 11, 12] ∧ s2.notes = (OV.listen s o 0 7).notes := by
  have : ((demo (histL ++ [.op (.assume ⟨2, false⟩)])).map (fun r => (OV.value r.1.1 r.1.2 0,
      ((OV.listen r.1.1 r.1.2 0 7).pop noTheory).toOption.map (fun s2 => (OV.value s2 r.1.2 0, decide (s2.notes = (OV.listen r.1.1 r.1.2 0 7).notes)))))) =
      some ([10, 12], some ([10, 11, 12], true)) := by decide +kernel
  match hd : demo (histL ++ [.op (.assume ⟨2, false⟩)]) with
  | none => rw [hd] at this; cases this
  | some ((s, o), outs) =>
    rw [hd] at this
    simp only [Option.map_some, Option.some.injEq, Prod.mk.injEq] at this
    refine ⟨s, o, outs, hd, this.1, ?_⟩
    match hp : (OV.listen s o 0 7).pop noTheory with
    | .error e => rw [hp] at this; simp [Except.toOption] at this
    | .ok s2 =>
      rw [hp] at this
      simp only [Except.toOption, Option.map_some, Option.some.injEq, Prod.mk.injEq, decide_eq_true_eq] at this
      exact ⟨s2, rfl, this.2.1, this.2.2⟩

/-- The restriction of C52 is needed: a listener registered while `11` is excluded by a decision is not told that `11` comes back when the decision is retracted. -/
theorem C52_late_listener_misses_value : ∃ s o s2 o2, OReach stdEnv noContract 0 idO (s, o) ∧ OV.value s o 0 = [10, 12] ∧
    OCall stdEnv noContract 0 idO (OV.listen s o 0 7, o) (s2, o2) ∧ OV.value s2 o2 0 = [10, 11, 12] ∧ s2.notes = (OV.listen s o 0 7).notes := by
  obtain ⟨s, o, outs, h1, h2, s2, h3, h4, h5⟩ := late_exists
  refine ⟨s, o, s2, o, demo_reach h1, h2, ?_, h4, h5⟩
  refine .step (op := .pop) (out := .unit) (fun e => by cases e) ?_
  show ((OV.listen s o 0 7).pop noTheory).map (fun r => (r, Sat.Out.unit)) = _
  rw [h3]
  rfl

end OV
end Semitone
