import Verif.Mix.Vow
import Verif.Mix.PlayDemo

/-!
# A concrete session for C74
-/
namespace Semitone
namespace Mix
open Lin
open LRA (stdL canonB canonB_canon varsB varsB_vars mayB mayB_may)
open DL (notExcluded map_ok)

theorem MAct.run_turn {a : MAct} {S S' : St} {U U' : List Fact} {d : Bool} {out : Sat.Out} (hok : a.okB true S d = true) (hr : a.run S U = .ok ((S', U'), out)) :
    Turn stdEnv stdL S U S' U' := by
  have vars : ∀ {l : Lin}, l.vars.all (fun t => decide (t.1 < S.th.2.nv)) = true → ∀ t ∈ l.vars, t.1 < S.th.2.nv := fun h t ht => by
    simpa using List.all_eq_true.mp h t ht
  cases a with
  | op o =>
    simp only [MAct.okB, Bool.and_eq_true] at hok
    obtain ⟨⟨a, b⟩, h1, h2⟩ := map_ok hr
    injection h2 with e1 e2; injection e1 with e1 e3; subst e1 e3
    exact .step (Sat.legalB_legal hok.1.1) (by cases o <;> simp_all [mayB, DL.MayCall]) h1
  | var =>
    simp only [MAct.okB, Bool.not_eq_true'] at hok
    injection hr with hr; injection hr with e1 e2; injection e1 with e1 e3; subst e1 e3
    exact .newVar hok
  | rel R l r =>
    simp only [MAct.okB, Bool.and_eq_true, Bool.not_eq_true'] at hok
    obtain ⟨⟨⟨⟨h0, c1⟩, c2⟩, c3⟩, c4⟩ := hok
    obtain ⟨⟨a, b⟩, h1, h2⟩ := map_ok hr
    injection h2 with e1 e2; injection e1 with e1 e3; subst e1 e3
    exact .newRel h0 (canonB_canon c1) (canonB_canon c2) (varsB_vars c3) (varsB_vars c4) h1
  | eq l r =>
    simp only [MAct.okB, Bool.and_eq_true, Bool.not_eq_true'] at hok
    obtain ⟨⟨⟨⟨h0, c1⟩, c2⟩, c3⟩, c4⟩ := hok
    obtain ⟨⟨a, b⟩, h1, h2⟩ := map_ok hr
    injection h2 with e1 e2; injection e1 with e1 e3; subst e1 e3
    exact .newEq h0 (canonB_canon c1) (canonB_canon c2) (varsB_vars c3) (varsB_vars c4) h1
  | lb x v p =>
    simp only [MAct.okB, Bool.and_eq_true, Bool.not_eq_true', decide_eq_true_eq, beq_iff_eq] at hok
    obtain ⟨⟨⟨⟨h0, c1⟩, c2⟩, c3⟩, c4⟩ := hok
    obtain ⟨s, h1, rfl, rfl⟩ := bounded_ok hr
    exact .setLb h0 c1 c2 c3 c4 h1
  | ub x v p =>
    simp only [MAct.okB, Bool.and_eq_true, Bool.not_eq_true', decide_eq_true_eq, beq_iff_eq] at hok
    obtain ⟨⟨⟨⟨h0, c1⟩, c2⟩, c3⟩, c4⟩ := hok
    obtain ⟨s, h1, rfl, rfl⟩ := bounded_ok hr
    exact .setUb h0 c1 c2 c3 c4 h1
  | point =>
    simp only [MAct.okB, Bool.not_eq_true'] at hok
    injection hr with hr; injection hr with e1 e2; injection e1 with e1 e3; subst e1 e3
    exact .newPoint hok
  | dist i j w =>
    simp only [MAct.okB, Bool.and_eq_true, Bool.not_eq_true', decide_eq_true_eq] at hok
    obtain ⟨⟨a, b⟩, h1, h2⟩ := map_ok hr
    injection h2 with e1 e2; injection e1 with e1 e3; subst e1 e3
    exact .newDistance hok.1.1 hok.1.2 hok.2 h1
  | diff R l r =>
    simp only [MAct.okB, Bool.and_eq_true, Bool.not_eq_true'] at hok
    obtain ⟨⟨⟨⟨h0, c1⟩, c2⟩, c3⟩, c4⟩ := hok
    obtain ⟨⟨a, b⟩, h1, h2⟩ := map_ok hr
    injection h2 with e1 e2; injection e1 with e1 e3; subst e1 e3
    exact .newDiff h0 (canonB_canon c1) (canonB_canon c2) (vars c3) (vars c4) h1

theorem runs_later {S0 : St} {U0 : List Fact} : ∀ (as : List MAct) (S : St) (U : List Fact) (d : Bool) (r : St × List Fact) (outs : List Sat.Out), Later stdEnv stdL S0 U0 S U →
    runs true as S U d = some (r, outs) → Later stdEnv stdL S0 U0 r.1 r.2
  | [], S, U, d, r, outs, h, hr => by injection hr with hr; injection hr with e1 e2; subst e1; exact h
  | a :: as, S, U, d, r, outs, h, hr => by
    unfold runs at hr
    split at hr
    · next hok =>
      split at hr
      · cases hr
      · next r1 o1 h1 =>
        obtain ⟨⟨x, y⟩, h2, h3⟩ := Option.map_eq_some_iff.mp hr
        injection h3 with e1 e2; subst e1
        exact runs_later as _ _ _ _ _ (.call h (MAct.run_turn (U' := r1.2) hok h1)) h2
    · cases hr

/-- The state after a list of calls. -/
def goOn (as : List MAct) (r : St × List Fact) : St × List Fact := ((runs true as r.1 r.2 false).map (·.1)).getD r

theorem goOn_later {as : List MAct} {r : St × List Fact} : Later stdEnv stdL r.1 r.2 (goOn as r).1 (goOn as r).2 := by
  unfold goOn
  match hr : runs true as r.1 r.2 false with
  | none => exact .refl
  | some q => exact runs_later as _ _ _ _ _ .refl hr

/-- `b1`: `tp1 - tp0 ≤ 10`, then the call `new_distance(0, 1, 5)` (`b2`), then `tp0 - tp1 ≤ -7` (`b3`), `x0 ≤ 3` (`b4`), `b5`: `b2 ∧ b4`; `b1` is imposed, an unsafe propagation follows and a wrong clause is recorded; the last
call is `assume(b2)`. -/
def pre74 : List MAct := [.var, .point, .dist 0 1 10]
def mid74 : List MAct := [.dist 1 0 (-7), .rel .leq ⟨[(0, 1)], 0⟩ ⟨[], 3⟩]
def post74 : List MAct := [.op (.newClause [pl 1]), .op .propagate, .op (.assume (pl 2)), .op .pop, .op .simplify, .op (.assume (pl 4))]

/-- The hypotheses of `C74_distance` and, for the arithmetic relation and the conjunction, of `C74_arith` and `C74_core`. -/
example : Play stdEnv stdL (made pre74).1 (made pre74).2 := made_play (by decide +kernel)

example : (made pre74).1.root = true ∧ (made pre74).1.dead = false ∧ (runs false (pre74 ++ [.dist 0 1 5] ++ mid74 ++ [.op (.newConj [pl 2, pl 4])] ++ post74) (new 4) [] false).isSome = false ∧
    (runs true (pre74 ++ [.dist 0 1 5] ++ mid74 ++ [.op (.newConj [pl 2, pl 4])] ++ post74) (new 4) [] false).map (·.2) =
      some [.var 0, .var 1, .lit (pl 1), .lit (pl 2), .lit (pl 3), .lit (pl 4), .lit (pl 5), .bool true, .bool true, .bool true, .unit, .bool true, .bool true] ∧
    ((made (pre74 ++ [.dist 0 1 5] ++ mid74 ++ [.op (.newConj [pl 2, pl 4])] ++ post74)).1.step stdEnv (ops stdL) (.assume (pl 2))).toOption.map (fun r => (r.2, (List.range r.1.nvars).map r.1.assigns)) =
      some (.bool true, [some false, some true, some true, some false, some true, some true]) := by decide +kernel

example : Later stdEnv stdL (made (pre74 ++ [.dist 0 1 5])).1 (made (pre74 ++ [.dist 0 1 5])).2 (goOn (mid74 ++ [.op (.newConj [pl 2, pl 4])] ++ post74) (made (pre74 ++ [.dist 0 1 5]))).1
    (goOn (mid74 ++ [.op (.newConj [pl 2, pl 4])] ++ post74) (made (pre74 ++ [.dist 0 1 5]))).2 ∧
    (runs true (mid74 ++ [.op (.newConj [pl 2, pl 4])] ++ post74) (made (pre74 ++ [.dist 0 1 5])).1 (made (pre74 ++ [.dist 0 1 5])).2 false).isSome = true := ⟨goOn_later, by decide +kernel⟩

end Mix
end Semitone
