import Verif.Mix.Props
import Verif.DL.Demo

/-!
# Concrete sessions of a core with linear arithmetic and integer difference logic
-/
namespace Semitone
namespace Mix
open Lin
open LRA (stdL canonB canonB_canon varsB varsB_vars mayB mayB_may)
open DL (notExcluded map_ok)

/-- A call. -/
inductive MAct where
  | op (o : Sat.Op)
  | var
  | rel (R : LRA.Rel4) (l r : Lin)
  | eq (l r : Lin)
  | lb (x : Nat) (v : IQ) (p : Lit)
  | ub (x : Nat) (v : IQ) (p : Lit)
  | point
  | dist (i j : Nat) (w : ℤ)
  | diff (R : DL.Rel) (l r : Lin)

abbrev St := Sat (LRA × DL ℤ)

/-- The call is allowed in a session. `free`: unsafe propagations are allowed too. -/
def MAct.okB (free : Bool) (a : MAct) (S : St) (d : Bool) : Bool :=
  match a with
  | .op o => S.legalB o && mayB o d && (free || notExcluded (S.step stdEnv (safeOps stdL) o))
  | .rel _ l r => !S.dead && canonB l && canonB r && varsB S.th.1 l && varsB S.th.1 r
  | .eq l r => !S.dead && canonB l && canonB r && varsB S.th.1 l && varsB S.th.1 r
  | .lb x v p => !S.dead && S.root && decide (x < S.th.1.n) && (S.value p == some true) && decide (0 ≤ (ofLex v).2)
  | .ub x v p => !S.dead && S.root && decide (x < S.th.1.n) && (S.value p == some true) && decide ((ofLex v).2 ≤ 0)
  | .dist i j _ => !S.dead && decide (i < S.th.2.nv) && decide (j < S.th.2.nv)
  | .diff _ l r => !S.dead && canonB l && canonB r && l.vars.all (fun t => decide (t.1 < S.th.2.nv)) && r.vars.all (fun t => decide (t.1 < S.th.2.nv))
  | _ => !S.dead

/-- The bound is imposed. -/
def bounded (S : St) (f : Fact) (U : List Fact) : Except Err (Sat LRA × Option (List Lit)) → Except Err ((St × List Fact) × Sat.Out)
  | .ok (s, none) => .ok ((S.putL 1 s, f :: U), .bool true)
  | _ => .error .excluded

/-- The call; the bounds imposed so far. -/
def MAct.run (a : MAct) (S : St) (U : List Fact) : Except Err ((St × List Fact) × Sat.Out) :=
  match a with
  | .op o => (S.step stdEnv (ops stdL) o).map (fun r => ((r.1, U), r.2))
  | .var => .ok ((S.putL 1 { S.left 1 with th := S.th.1.newVar.1 }, U), .var S.th.1.newVar.2)
  | .rel R l r => (LRA.newRel R (S.left 1) l r).map (fun r => ((S.putL 1 r.1, U), .lit r.2))
  | .eq l r => (LRA.newEqL stdEnv (S.left 1) l r).map (fun r => ((S.putL 1 r.1, U), .lit r.2))
  | .lb x v p => bounded S (.lo p x v) U (LRA.setLbC stdEnv stdL (S.left 1) x v p)
  | .ub x v p => bounded S (.hi p x v) U (LRA.setUbC stdEnv stdL (S.left 1) x v p)
  | .point => .ok ((S.putR 1 { S.right 1 with th := S.th.2.newVar.1 }, U), .var S.th.2.nv)
  | .dist i j w => (DL.newDistance (S.right 1) i j w).map (fun r => ((S.putR 1 r.1, U), .lit r.2))
  | .diff R l r => (DL.newRel stdEnv R (S.right 1) l r).map (fun r => ((S.putR 1 r.1, U), .lit r.2))

/-- Whether bounds are pending after the call. -/
def MAct.pend (a : MAct) (d : Bool) : Bool :=
  match a with
  | .op o => LRA.pendingAfter o d
  | .lb _ _ _ => true
  | .ub _ _ _ => true
  | _ => d

/-- Runs the calls as long as they are allowed. -/
def runs (free : Bool) : List MAct → St → List Fact → Bool → Option ((St × List Fact) × List Sat.Out)
  | [], S, U, _ => some ((S, U), [])
  | a :: as, S, U, d =>
    if a.okB free S d then
      match a.run S U with
      | .error _ => none
      | .ok (r, out) => (runs free as r.1 r.2 (a.pend d)).map (fun q => (q.1, out :: q.2))
    else none

theorem bounded_ok {S S' : St} {f : Fact} {U U' : List Fact} {r : Except Err (Sat LRA × Option (List Lit))} {out : Sat.Out} (h : bounded S f U r = .ok ((S', U'), out)) :
    ∃ s, r = .ok (s, none) ∧ S' = S.putL 1 s ∧ U' = f :: U := by
  unfold bounded at h
  split at h
  · injection h with h; injection h with e1 e2; injection e1 with e1 e3
    exact ⟨_, rfl, e1.symm, e3.symm⟩
  · cases h

theorem MAct.run_sess {a : MAct} {S S' : St} {U U' : List Fact} {d : Bool} {out : Sat.Out} (h : Sess stdEnv stdL S U d) (hok : a.okB false S d = true) (hr : a.run S U = .ok ((S', U'), out)) :
    Sess stdEnv stdL S' U' (a.pend d) := by
  have vars : ∀ {l : Lin}, l.vars.all (fun t => decide (t.1 < S.th.2.nv)) = true → ∀ t ∈ l.vars, t.1 < S.th.2.nv := fun h t ht => by
    simpa using List.all_eq_true.mp h t ht
  cases a with
  | op o =>
    simp only [MAct.okB, Bool.and_eq_true, Bool.false_or] at hok
    obtain ⟨⟨a, b⟩, h1, h2⟩ := map_ok hr
    injection h2 with e1 e2; injection e1 with e1 e3; subst e1 e3
    refine .step h (Sat.legalB_legal hok.1.1) (mayB_may hok.1.2) (fun e => ?_) h1
    rw [e] at hok
    simp [notExcluded] at hok
  | var =>
    simp only [MAct.okB, Bool.not_eq_true'] at hok
    injection hr with hr; injection hr with e1 e2; injection e1 with e1 e3; subst e1 e3
    exact .newVar h hok
  | rel R l r =>
    simp only [MAct.okB, Bool.and_eq_true, Bool.not_eq_true'] at hok
    obtain ⟨⟨⟨⟨h0, c1⟩, c2⟩, c3⟩, c4⟩ := hok
    obtain ⟨⟨a, b⟩, h1, h2⟩ := map_ok hr
    injection h2 with e1 e2; injection e1 with e1 e3; subst e1 e3
    exact .newRel h h0 (canonB_canon c1) (canonB_canon c2) (varsB_vars c3) (varsB_vars c4) h1
  | eq l r =>
    simp only [MAct.okB, Bool.and_eq_true, Bool.not_eq_true'] at hok
    obtain ⟨⟨⟨⟨h0, c1⟩, c2⟩, c3⟩, c4⟩ := hok
    obtain ⟨⟨a, b⟩, h1, h2⟩ := map_ok hr
    injection h2 with e1 e2; injection e1 with e1 e3; subst e1 e3
    exact .newEq h h0 (canonB_canon c1) (canonB_canon c2) (varsB_vars c3) (varsB_vars c4) h1
  | lb x v p =>
    simp only [MAct.okB, Bool.and_eq_true, Bool.not_eq_true', decide_eq_true_eq, beq_iff_eq] at hok
    obtain ⟨⟨⟨⟨h0, c1⟩, c2⟩, c3⟩, c4⟩ := hok
    obtain ⟨s, h1, rfl, rfl⟩ := bounded_ok hr
    exact .setLb h h0 c1 c2 c3 c4 h1
  | ub x v p =>
    simp only [MAct.okB, Bool.and_eq_true, Bool.not_eq_true', decide_eq_true_eq, beq_iff_eq] at hok
    obtain ⟨⟨⟨⟨h0, c1⟩, c2⟩, c3⟩, c4⟩ := hok
    obtain ⟨s, h1, rfl, rfl⟩ := bounded_ok hr
    exact .setUb h h0 c1 c2 c3 c4 h1
  | point =>
    simp only [MAct.okB, Bool.not_eq_true'] at hok
    injection hr with hr; injection hr with e1 e2; injection e1 with e1 e3; subst e1 e3
    exact .newPoint h hok
  | dist i j w =>
    simp only [MAct.okB, Bool.and_eq_true, Bool.not_eq_true', decide_eq_true_eq] at hok
    obtain ⟨⟨a, b⟩, h1, h2⟩ := map_ok hr
    injection h2 with e1 e2; injection e1 with e1 e3; subst e1 e3
    exact .newDistance h hok.1.1 hok.1.2 hok.2 h1
  | diff R l r =>
    simp only [MAct.okB, Bool.and_eq_true, Bool.not_eq_true'] at hok
    obtain ⟨⟨⟨⟨h0, c1⟩, c2⟩, c3⟩, c4⟩ := hok
    obtain ⟨⟨a, b⟩, h1, h2⟩ := map_ok hr
    injection h2 with e1 e2; injection e1 with e1 e3; subst e1 e3
    exact .newDiff h h0 (canonB_canon c1) (canonB_canon c2) (vars c3) (vars c4) h1

theorem runs_sess : ∀ (as : List MAct) (S : St) (U : List Fact) (d : Bool) (r : St × List Fact) (outs : List Sat.Out), Sess stdEnv stdL S U d → runs false as S U d = some (r, outs) →
    ∃ d', Sess stdEnv stdL r.1 r.2 d'
  | [], S, U, d, r, outs, h, hr => by injection hr with hr; injection hr with e1 e2; subst e1; exact ⟨d, h⟩
  | a :: as, S, U, d, r, outs, h, hr => by
    unfold runs at hr
    split at hr
    · next hok =>
      split at hr
      · cases hr
      · next r1 o1 h1 =>
        obtain ⟨⟨x, y⟩, h2, h3⟩ := Option.map_eq_some_iff.mp hr
        injection h3 with e1 e2; subst e1
        exact runs_sess as _ _ _ _ _ (MAct.run_sess (U' := r1.2) h hok h1) h2
    · cases hr

/-- A concrete session from an empty core. -/
def session (as : List MAct) : Option ((St × List Fact) × List Sat.Out) := runs false as (new 4) [] false

theorem session_reach {as : List MAct} {r : St × List Fact} {outs : List Sat.Out} (h : session as = some (r, outs)) : ∃ d, Sess stdEnv stdL r.1 r.2 d :=
  runs_sess as _ _ _ _ _ (.init (by decide)) h

/-! ### Sessions -/

/-- `x0`, `x1` rational, `tp1`, `tp2` time points. `b1`: `x0 ≤ 3`; `b2`: `x0 + x1 ≥ 10`; `b3`: `tp1 - tp0 ≤ 5`; `b4`: `tp2 - tp1 ≤ 2`; `b5`: `tp0 - tp2 ≤ -8`. The clauses link the theories:
`b1 → b3`, `b2 → b4`, and `b5` is imposed. The distances then exclude `b3` and `b4` together, hence `b1` and `b2` together. -/
def sess1 : List MAct := [.var, .var, .point, .point, .rel .leq ⟨[(0, 1)], 0⟩ ⟨[], 3⟩, .rel .geq ⟨[(0, 1), (1, 1)], 0⟩ ⟨[], 10⟩, .dist 0 1 5, .dist 1 2 2, .dist 2 0 (-8),
  .op (.newClause [nl 1, pl 3]), .op (.newClause [nl 2, pl 4]), .op (.newClause [pl 5]), .op .propagate]

/-- Every call is executed and none is excluded. -/
example : (session sess1).map (·.2) = some [.var 0, .var 1, .var 1, .var 2, .lit (pl 1), .lit (pl 2), .lit (pl 3), .lit (pl 4), .lit (pl 5), .bool true, .bool true, .bool true, .bool true] := by
  decide +kernel

/-- One decision, `b1`: the clause gives `b3`, the difference logic `¬b4`, the clause `¬b2`, the arithmetic theory is told that `x0 + x1 < 10`: both theories have worked. -/
example : (session (sess1 ++ [.op (.assume (pl 1))])).map (fun r => (r.2.drop 13, (List.range 6).map r.1.1.assigns, decide ((r.1.1.th.2.distance 0 2).2 = (⊤ : WithTop ℤ)),
    decide (r.1.1.th.1.hi 2 = (((toLex (10, -1) : IQ)) : WithTop IQ)))) =
    some ([.bool true], [some false, some true, some false, some true, some false, some true], true, true) := by decide +kernel

/-- A bound under a distance literal that is true at root level, then a call that propagates: pending bounds, `C68_backed_partial`. -/
example : (session (sess1 ++ [.ub 0 (IQ.ofQ 2) (pl 5), .op .propagate])).map (fun r => (r.2.drop 13, r.1.1.value (pl 1), r.1.1.value (pl 2), r.1.1.root)) =
    some ([.bool true, .bool true], some true, some false, true) := by decide +kernel

/-- The client run after a concrete session; the flag tells that no unsafe propagation was reached. -/
def msolved (as : List MAct) (k : Nat) : Option (Bool × Bool × List (Option Bool)) :=
  match session as with
  | some r => (Sat.solve stdEnv (ops stdL) firstFree k r.1.1).toOption.map
      (fun y => (notExcluded (Sat.solve stdEnv (safeOps stdL) firstFree k r.1.1), y.2, (List.range y.1.nvars).map y.1.assigns))
  | none => none

/-- Solved. -/
example : msolved sess1 10 = some (true, true, [some false, some true, some false, some true, some false, some true]) := by decide +kernel

/-- Refuted: `b1` or `x0 ≤ 2`, and `b2`: the arithmetic gives `b1`, the clauses `b3` and `b4`, the distances a conflict with `b5`. -/
example : (msolved (sess1 ++ [.rel .leq ⟨[(0, 1)], 0⟩ ⟨[], 2⟩, .op (.newClause [pl 1, pl 6]), .op (.newClause [pl 2])]) 10).map (fun r => (r.1, r.2.1)) = some (true, false) := by decide +kernel

/-! ### Unsafe propagations -/

/-- The state after a list of legal calls, whether or not they reach unsafe propagations. -/
def made (as : List MAct) : St × List Fact := ((runs true as (new 4) [] false).map (·.1)).getD (new 4, [])

/-- `b1`: `tp1 - tp0 ≤ 10`, `b2`: `tp1 - tp0 ≤ 5`, `b3`: `tp0 - tp1 ≤ -7`; an arithmetic variable and `b4`: `x0 ≤ 3`. -/
def hist66 : List MAct := [.var, .point, .dist 0 1 10, .dist 0 1 5, .dist 1 0 (-7), .rel .leq ⟨[(0, 1)], 0⟩ ⟨[], 3⟩, .op (.assume (pl 1)), .op (.assume (pl 2)), .op .pop, .op .pop,
  .op (.newClause [pl 1]), .op (.newClause [pl 3])]

theorem hist66_runs : (runs true hist66 (new 4) [] false).isSome = true := by decide +kernel

theorem hist66_vd : ∀ b, (made hist66).1.th.2.vd b =
    if b = 3 then some ⟨3, 1, 0, -7⟩ else if b = 2 then some ⟨2, 0, 1, 5⟩ else if b = 1 then some ⟨1, 0, 1, 10⟩ else none := by
  intro b
  kernel_rfl

theorem hist66_vas : ∀ b, (made hist66).1.th.1.vas b = if b = 4 then some ⟨true, 4, 0, toLex (3, 0)⟩ else none := by
  intro b
  kernel_rfl

/-- C66 is false of the code: after `hist66` (all calls legal), `propagate()` answers false, although `tp0 = 0`, `tp1 = 8`, `x0 = 0` satisfies everything that was imposed. -/
theorem C66_witness : (runs true hist66 (new 4) [] false).isSome = true ∧ (∃ S', (made hist66).1.propagate stdEnv (ops stdL) = .ok (S', false)) ∧
    ∃ α x X, Model (made hist66).1 (made hist66).2 α x X := by
  refine ⟨hist66_runs, ?_, ?_⟩
  · have h : ((made hist66).1.propagate stdEnv (ops stdL)).toOption.map (·.2) = some false := by decide +kernel
    obtain ⟨⟨s', r⟩, h1, h2⟩ := Option.map_eq_some_iff.mp h
    simp only at h2
    subst h2
    exact ⟨s', LRA.toOption_ok h1⟩
  · refine ⟨fun v => decide (v = 1 ∨ v = 3 ∨ v = 4), fun _ => 0, fun v => if v = 1 then 8 else 0, rfl, fun C hC => ?_, fun b a hb => ?_, fun d hd => ?_, fun f hf => ?_, fun b dd hb => ?_⟩
    · have h : (made hist66).1.posted = [[pl 3], [pl 1]] := by decide +kernel
      rw [h] at hC
      simp only [List.mem_cons, List.not_mem_nil, or_false] at hC
      rcases hC with rfl | rfl
      · exact ⟨pl 3, List.mem_cons_self, rfl⟩
      · exact ⟨pl 1, List.mem_cons_self, rfl⟩
    · rw [hist66_vas b] at hb
      split at hb
      · injection hb with hb; subst hb; subst b
        simp [Asrt.says, IQ.ofQ]; decide
      · cases hb
    · have h : (made hist66).1.th.1.defs = [] := by kernel_rfl
      rw [h] at hd; cases hd
    · have h : (made hist66).2 = [] := by kernel_rfl
      rw [h] at hf; cases hf
    · rw [hist66_vd b] at hb
      split at hb
      · injection hb with hb; subst hb; subst b; decide
      · split at hb
        · injection hb with hb; subst hb; subst b; decide
        · split at hb
          · injection hb with hb; subst hb; subst b; decide
          · cases hb

/-- `b1` is imposed and propagated, then `b2` is assumed and taken back; then `simplify_db`. -/
def hist67 : List MAct := [.var, .point, .dist 0 1 10, .dist 0 1 5, .dist 1 0 (-7), .rel .leq ⟨[(0, 1)], 0⟩ ⟨[], 3⟩, .op (.newClause [pl 1]), .op .propagate, .op (.assume (pl 2)), .op .pop, .op .simplify]

/-- C67 is false of the code: after `hist67` (all calls legal, all executed) the legal call `assume(b3)` has undefined behaviour: a clause with one literal is watched and is visited, and the code
reads its second literal. -/
theorem C67_witness : (runs true hist67 (new 4) [] false).isSome = true ∧ (made hist67).1.legalB (.assume (pl 3)) = true ∧
    (made hist67).1.constrs.map (made hist67).1.db = [[nl 3]] ∧ ((made hist67).1.step stdEnv (ops stdL) (.assume (pl 3))).map (·.2) = .error .ub := by decide +kernel

end Mix
end Semitone
