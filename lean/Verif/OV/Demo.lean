import Verif.OV.Props
import Verif.Sat.Demo

/-!
# Object variables: concrete histories

An evaluator for concrete call sequences of a core without other theories; used to show that the hypotheses of the theorems are met.
-/
namespace Semitone
namespace OV

/-- The maps are traversed as they are stored. -/
def idO : OEnv Nat := ⟨id, fun _ => List.Perm.refl _⟩

/-- One call of a concrete history. -/
inductive OAct where
  | op (o : Sat.Op)
  | var (items : List Nat) (enf : Bool)
  | varL (lits : List Lit) (vals : List Nat)
  | eq (x y : Nat)

/-- The call returns, and what it returns. `simplify_db` is left out. -/
def OAct.run (E : Env) (a : OAct) (s : Sat Unit × OV Nat) : Option ((Sat Unit × OV Nat) × Sat.Out) :=
  match a with
  | .op .simplify => none
  | .op q =>
    match s.1.step E noTheory q with
    | .ok (s', out) => some ((s', s.2), out)
    | .error _ => none
  | .var items enf =>
    match OV.newVar E 0 s.1 s.2 items enf with
    | .ok (s', o', x) => some ((s', o'), .var x)
    | .error _ => none
  | .varL lits vals =>
    if lits.all (fun l => decide (l.var < s.1.nvars)) then
      match s.2.newVarLits lits vals with
      | .ok (o', x) => some ((s.1, o'), .var x)
      | .error _ => none
    else none
  | .eq x y =>
    match OV.newEq E idO s.1 s.2 x y with
    | .ok (s', o', q) => some ((s', o'), .lit q)
    | .error _ => none

theorem OAct.run_call {E : Env} {a : OAct} {s s' : Sat Unit × OV Nat} {out : Sat.Out} (hr : a.run E s = some (s', out)) : OCall E noContract 0 idO s s' := by
  obtain ⟨s, o⟩ := s
  cases a with
  | op q =>
    have key : q ≠ .simplify → (match s.step E noTheory q with
        | .ok (s', out) => some ((s', o), out)
        | .error _ => none) = some (s', out) → OCall E noContract 0 idO (s, o) s' := by
      intro hne hr
      split at hr
      · next s1 o1 hs =>
        injection hr with hr; injection hr with e1 e2; subst e1
        exact .step (fun e => absurd e hne) hs
      · cases hr
    cases q <;> first | exact key (by simp) hr | cases hr
  | var items enf =>
    simp only [OAct.run] at hr
    split at hr
    · next s1 o1 x hs =>
      injection hr with hr; injection hr with e1 e2; subst e1
      exact .newVar hs
    · cases hr
  | varL lits vals =>
    simp only [OAct.run] at hr
    split at hr
    · next hc =>
      split at hr
      · next o1 x hs =>
        injection hr with hr; injection hr with e1 e2; subst e1
        rw [List.all_eq_true] at hc
        exact .newVarLits (fun l hl => of_decide_eq_true (hc l hl)) hs
      · cases hr
    · cases hr
  | eq x y =>
    simp only [OAct.run] at hr
    split at hr
    · next s1 o1 q hs =>
      injection hr with hr; injection hr with e1 e2; subst e1
      exact .newEq hs
    · cases hr

/-- Runs a list of calls. -/
def runs (E : Env) : List OAct → Sat Unit × OV Nat → Option ((Sat Unit × OV Nat) × List Sat.Out)
  | [], s => some (s, [])
  | a :: as, s =>
    match a.run E s with
    | none => none
    | some (s', out) =>
      match runs E as s' with
      | none => none
      | some (s'', outs) => some (s'', out :: outs)

theorem runs_calls {E : Env} : ∀ (as : List OAct) (s s' : Sat Unit × OV Nat) (outs : List Sat.Out), runs E as s = some (s', outs) →
    ∀ r, OCalls E noContract 0 idO r s → OCalls E noContract 0 idO r s'
  | [], s, s', outs, hr, r, h => by
    injection hr with hr; injection hr with e1 e2; subst e1; exact h
  | a :: as, s, s', outs, hr, r, h => by
    unfold runs at hr
    split at hr
    · cases hr
    · next s1 o1 h1 =>
      split at hr
      · cases hr
      · next s2 o2 h2 =>
        injection hr with hr; injection hr with e1 e2; subst e1
        exact runs_calls as s1 s2 o2 h2 r (.tail h (OAct.run_call h1))

/-- A concrete history from an empty core. -/
def demo (as : List OAct) : Option ((Sat Unit × OV Nat) × List Sat.Out) := runs stdEnv as (Sat.init (), OV.init)

theorem demo_reach {as : List OAct} {s : Sat Unit × OV Nat} {outs : List Sat.Out} (h : demo as = some (s, outs)) : OReach stdEnv noContract 0 idO s :=
  (OReach.init trivial).calls (runs_calls as _ _ _ h _ .refl)

/-- `x` in `{10, 11, 12, 13, 14}` (product encoding), `y` in `{13, 14, 15}`, `z` the constant `10`, `w` with a repeated item. -/
def hist : List OAct := [.var [10, 11, 12, 13, 14] true, .var [13, 14, 15] true, .var [10] true, .var [14, 10, 14] true, .eq 0 1, .eq 1 0, .eq 1 2, .eq 2 2, .eq 0 3]

/-- The history is accepted. `y = x` gets the same literal as `x = y`; `y = z` is false: the domains are disjoint (C49, C50). -/
example : (demo hist).map (·.2) = some [.var 0, .var 1, .var 2, .var 3, .lit ⟨22, true⟩, .lit ⟨22, true⟩, .lit FALSE_lit, .lit TRUE_lit, .lit ⟨23, true⟩] := by decide +kernel

/-- The domains and their literals (C51). -/
example : (demo hist).map (fun r => (OV.value r.1.1 r.1.2 0, OV.value r.1.1 r.1.2 1, OV.value r.1.1 r.1.2 2, OV.value r.1.1 r.1.2 3)) =
    some ([10, 11, 12, 13, 14], [13, 14, 15], [10], [14, 10]) ∧
    (demo hist).map (fun r => (r.1.2.allows 0 10, r.1.2.allows 0 15, r.1.2.allows 2 10, r.1.2.allows 3 14)) = some (⟨1, true⟩, FALSE_lit, TRUE_lit, ⟨18, true⟩) := by
  constructor <;> decide +kernel

/-- Deciding `x = y` leaves the common values, then deciding `x = w` leaves the value `14` in the three domains. -/
example : (demo (hist ++ [.op .propagate, .op (.assume ⟨22, true⟩)])).map (fun r => (OV.value r.1.1 r.1.2 0, OV.value r.1.1 r.1.2 1, OV.value r.1.1 r.1.2 3)) = some ([13, 14], [13, 14], [14, 10]) ∧
    (demo (hist ++ [.op .propagate, .op (.assume ⟨22, true⟩), .op (.assume ⟨23, true⟩)])).map (fun r => (OV.value r.1.1 r.1.2 0, OV.value r.1.1 r.1.2 1, OV.value r.1.1 r.1.2 3, r.1.1.decisions.length)) =
    some ([14], [14], [14], 2) := by constructor <;> decide +kernel

/-- A variable over given literals. -/
example : (demo [.op .newVar, .op .newVar, .varL [⟨1, true⟩, ⟨1, false⟩, ⟨2, true⟩] [7, 8, 9], .op (.assume ⟨1, true⟩)]).map
    (fun r => (OV.value r.1.1 r.1.2 0, r.1.2.allows 0 8, r.1.2.allows 0 5)) = some ([7, 9], ⟨1, false⟩, FALSE_lit) := by decide +kernel

end OV
end Semitone
