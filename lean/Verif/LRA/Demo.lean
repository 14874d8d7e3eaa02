import Verif.LRA.Witness

/-!
# Linear arithmetic: concrete histories

An evaluator for concrete call sequences; used to show that the hypotheses of the theorems are met.
-/
namespace Semitone
namespace LRA
open Lin

/-- Executable form of `Canon`. -/
def canonB (l : Lin) : Bool := decide ((l.vars.map Prod.fst).Pairwise (· < ·)) && l.vars.all (fun t => decide (t.2 ≠ 0))

theorem canonB_canon {l : Lin} (h : canonB l = true) : l.Canon := by
  unfold canonB at h
  rw [Bool.and_eq_true, List.all_eq_true] at h
  have h1 : (l.vars.map Prod.fst).Pairwise (· < ·) := of_decide_eq_true h.1
  exact ⟨h1, fun t ht => of_decide_eq_true (h.2 t ht)⟩

/-- The variables of the expression exist. -/
def varsB (t : LRA) (l : Lin) : Bool := l.vars.all (fun y => decide (y.1 < t.n))

theorem varsB_vars {t : LRA} {l : Lin} (h : varsB t l = true) : ∀ w ∈ keys l.vars, w < t.n := by
  intro w hw
  obtain ⟨y, hy, rfl⟩ := List.mem_map.mp hw
  unfold varsB at h
  rw [List.all_eq_true] at h
  exact of_decide_eq_true (h y hy)

/-- One call of a concrete history. -/
inductive DAct where
  | op (o : Sat.Op)
  | var
  | rel (R : Rel4) (l r : Lin)
  | eq (l r : Lin)
  | lb (x : Nat) (v : IQ)
  | ub (x : Nat) (v : IQ)
  | listen (v l : Nat)

/-- The call returns, and what it returns. `simplify_db` is left out. -/
def DAct.run (E : Env) (L : LEnv) (a : DAct) (s : Sat LRA × List Fact) : Option ((Sat LRA × List Fact) × Sat.Out) :=
  match a with
  | .op .simplify => none
  | .op o =>
    match s.1.step E (ops L) o with
    | .ok (s', out) => some ((s', s.2), out)
    | .error _ => none
  | .var => some (({ s.1 with th := s.1.th.newVar.1 }, s.2), .var s.1.th.newVar.2)
  | .rel R l r =>
    if canonB l && canonB r && varsB s.1.th l && varsB s.1.th r then
      match newRel R s.1 l r with
      | .ok (s', p) => some ((s', s.2), .lit p)
      | .error _ => none
    else none
  | .eq l r =>
    if canonB l && canonB r && varsB s.1.th l && varsB s.1.th r then
      match newEqL E s.1 l r with
      | .ok (s', p) => some ((s', s.2), .lit p)
      | .error _ => none
    else none
  | .lb x v =>
    if s.1.root && decide (x < s.1.th.n) && s.1.value TRUE_lit == some true then
      match setLbC E L s.1 x v TRUE_lit with
      | .ok (s', none) => some ((s', .lo TRUE_lit x v :: s.2), .bool true)
      | _ => none
    else none
  | .ub x v =>
    if s.1.root && decide (x < s.1.th.n) && s.1.value TRUE_lit == some true then
      match setUbC E L s.1 x v TRUE_lit with
      | .ok (s', none) => some ((s', .hi TRUE_lit x v :: s.2), .bool true)
      | _ => none
    else none
  | .listen v l =>
    match s.1.th.listen v l with
    | .ok t => some (({ s.1 with th := t }, s.2), .unit)
    | .error _ => none

theorem DAct.run_reach {E : Env} {L : LEnv} {a : DAct} {s s' : Sat LRA × List Fact} {out : Sat.Out} (h : AReach E L s.1 s.2) (hr : a.run E L s = some (s', out)) :
    AReach E L s'.1 s'.2 := by
  cases a with
  | op o =>
    have key : o ≠ .simplify → (match s.1.step E (ops L) o with
        | .ok (s', out) => some ((s', s.2), out)
        | .error _ => none) = some (s', out) → AReach E L s'.1 s'.2 := by
      intro hne hr
      split at hr
      · next s1 o1 hs =>
        injection hr with hr; injection hr with e1 e2; subst e1
        exact .step h (fun e => absurd e hne) hs
      · cases hr
    cases o <;> first | exact key (by simp) hr | cases hr
  | var =>
    injection hr with hr; injection hr with e1 e2; subst e1
    exact .newVar h
  | listen v l =>
    simp only [DAct.run] at hr
    split at hr
    · next t ht =>
      injection hr with hr; injection hr with e1 e2; subst e1
      exact .listen h ht
    · cases hr
  | rel R l r =>
    simp only [DAct.run] at hr
    split at hr
    · next hc =>
      simp only [Bool.and_eq_true] at hc
      obtain ⟨⟨⟨c1, c2⟩, c3⟩, c4⟩ := hc
      split at hr
      · next s1 p hs =>
        injection hr with hr; injection hr with e1 e2; subst e1
        exact .newRel h (canonB_canon c1) (canonB_canon c2) (varsB_vars c3) (varsB_vars c4) hs
      · cases hr
    · cases hr
  | eq l r =>
    simp only [DAct.run] at hr
    split at hr
    · next hc =>
      simp only [Bool.and_eq_true] at hc
      obtain ⟨⟨⟨c1, c2⟩, c3⟩, c4⟩ := hc
      split at hr
      · next s1 p hs =>
        injection hr with hr; injection hr with e1 e2; subst e1
        exact .newEq h (canonB_canon c1) (canonB_canon c2) (varsB_vars c3) (varsB_vars c4) hs
      · cases hr
    · cases hr
  | lb x v =>
    simp only [DAct.run] at hr
    split at hr
    · next hc =>
      simp only [Bool.and_eq_true, decide_eq_true_eq, beq_iff_eq] at hc
      obtain ⟨⟨c1, c2⟩, c3⟩ := hc
      split at hr
      · next s1 hs =>
        injection hr with hr; injection hr with e1 e2; subst e1
        exact .setLb h c1 c2 c3 hs
      · cases hr
    · cases hr
  | ub x v =>
    simp only [DAct.run] at hr
    split at hr
    · next hc =>
      simp only [Bool.and_eq_true, decide_eq_true_eq, beq_iff_eq] at hc
      obtain ⟨⟨c1, c2⟩, c3⟩ := hc
      split at hr
      · next s1 hs =>
        injection hr with hr; injection hr with e1 e2; subst e1
        exact .setUb h c1 c2 c3 hs
      · cases hr
    · cases hr

/-- Runs a list of calls. -/
def runs (E : Env) (L : LEnv) : List DAct → Sat LRA × List Fact → Option ((Sat LRA × List Fact) × List Sat.Out)
  | [], s => some (s, [])
  | a :: as, s =>
    match a.run E L s with
    | none => none
    | some (s', out) =>
      match runs E L as s' with
      | none => none
      | some (s'', outs) => some (s'', out :: outs)

theorem runs_reach {E : Env} {L : LEnv} : ∀ (as : List DAct) (s s' : Sat LRA × List Fact) (outs : List Sat.Out), AReach E L s.1 s.2 → runs E L as s = some (s', outs) →
    AReach E L s'.1 s'.2
  | [], s, s', outs, h, hr => by
    injection hr with hr; injection hr with e1 e2; subst e1; exact h
  | a :: as, s, s', outs, h, hr => by
    unfold runs at hr
    split at hr
    · cases hr
    · next s1 o1 h1 =>
      split at hr
      · cases hr
      · next s2 o2 h2 =>
        injection hr with hr; injection hr with e1 e2; subst e1
        exact runs_reach as s1 s2 o2 (DAct.run_reach h h1) h2

/-- A concrete history from an empty core. -/
def demo (as : List DAct) : Option ((Sat LRA × List Fact) × List Sat.Out) := runs stdEnv stdL as (Sat.init LRA.init, [])

theorem demo_reach {as : List DAct} {s : Sat LRA × List Fact} {outs : List Sat.Out} (h : demo as = some (s, outs)) : AReach stdEnv stdL s.1 s.2 :=
  runs_reach as _ _ _ .init h

/-- A variable. -/
def vx (v : Nat) : Lin := ⟨[(v, 1)], 0⟩
/-- A number. -/
def num (k : ℚ) : Lin := ⟨[], k⟩

/-- Two variables, `b1: x + y <= 5`, `b2: x >= 3`, `b3: y >= 3`. -/
def hist3 : List DAct := [.var, .var, .rel .leq l01 (num 5), .rel .geq (vx 0) (num 3), .rel .geq (vx 1) (num 3)]

/-- The history is accepted; the literals are new; `x + y` gets the variable `2`. -/
example : (demo hist3).map (·.2) = some [.var 0, .var 1, .lit ⟨1, true⟩, .lit ⟨2, true⟩, .lit ⟨3, true⟩] := by decide +kernel

/-- Assuming `x >= 3` and `y >= 3`, bound propagation decides `x + y <= 5` (C42, C48): it is false, and a conflict is found when it was assumed before. -/
example : (demo (hist3 ++ [.op (.assume ⟨2, true⟩), .op (.assume ⟨3, true⟩)])).map (fun r => (r.1.1.value ⟨1, true⟩, r.1.1.th.vals 2, r.1.1.decisions)) =
    some (some false, IQ.ofQ 6, [⟨3, true⟩, ⟨2, true⟩]) := by decide +kernel

/-- With `x + y <= 5` and `x >= 3` decided, assuming `y >= 3` fails in `check`; the lemma learnt makes it false after backjumping (C40, C48). -/
example : (demo (hist3 ++ [.op (.assume ⟨1, true⟩), .op (.assume ⟨2, true⟩)])).map (fun r => (r.1.1.value ⟨3, true⟩, r.1.1.th.hi 2, r.1.1.th.lo 0)) =
    some (none, ((IQ.ofQ 5 : IQ) : WithTop IQ), ((IQ.ofQ 3 : IQ) : WithBot IQ)) ∧
    (demo (hist3 ++ [.op (.assume ⟨1, true⟩), .op (.assume ⟨2, true⟩), .op (.assume ⟨3, true⟩)])).map (fun r => (r.1.1.value ⟨3, true⟩, r.1.1.decisions)) =
    some (some false, [⟨2, true⟩, ⟨1, true⟩]) := by constructor <;> decide +kernel

/-- Bounds imposed at root level: `x + y <= 5` is false, the network is still consistent (C48). -/
example : (demo (hist3 ++ [.lb 0 (IQ.ofQ 3), .lb 1 (IQ.ofQ 3), .op .propagate])).map (fun r => (r.1.1.value ⟨1, true⟩, r.1.2.length, r.1.1.dead)) =
    some (some false, 2, false) := by decide +kernel

/-- A bound imposed at root level that is refused (C48). -/
example : (demo (hist3 ++ [.lb 0 (IQ.ofQ 3)])).map (fun r => (setUbC stdEnv stdL r.1.1 0 (IQ.ofQ 2) TRUE_lit).toOption.map (fun q => q.2)) =
    some (some (some [FALSE_lit, FALSE_lit])) := by decide +kernel

/-- The constants (C44): with `x >= 3`, `x + 1 > 3` is true, `x < 2` is false; `x = y` gets a new literal, a conjunction. -/
example : (demo (hist3 ++ [.lb 0 (IQ.ofQ 3), .rel .gt ⟨[(0, 1)], 1⟩ (num 3), .rel .lt (vx 0) (num 2), .eq (vx 0) (vx 1)])).map (fun r => r.2.drop 6) =
    some [.lit TRUE_lit, .lit FALSE_lit, .lit ⟨6, true⟩] := by decide +kernel

/-- Bounds of an expression and matching (C45). -/
example : (demo (hist3 ++ [.lb 0 (IQ.ofQ 3), .ub 1 (IQ.ofQ 2)])).map (fun r => (r.1.1.th.boundsL ⟨[(0, 2), (1, -1)], 1⟩, r.1.1.th.matchesL (vx 0) (vx 1), r.1.1.th.matchesL (vx 0) l01)) =
    some ((((IQ.ofQ 5 : IQ) : WithBot IQ), ⊤), false, true) := by decide +kernel

end LRA
end Semitone
