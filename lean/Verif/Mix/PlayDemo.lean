import Verif.Mix.Play
import Verif.Mix.Demo

/-!
# Concrete sessions with both theories and unsafe propagations
-/
namespace Semitone
namespace Mix
open Lin
open LRA (stdL canonB canonB_canon varsB varsB_vars mayB mayB_may)
open DL (notExcluded map_ok)

theorem MAct.run_play {a : MAct} {S S' : St} {U U' : List Fact} {d : Bool} {out : Sat.Out} (h : Play stdEnv stdL S U) (hok : a.okB true S d = true) (hr : a.run S U = .ok ((S', U'), out)) :
    Play stdEnv stdL S' U' := by
  have vars : ∀ {l : Lin}, l.vars.all (fun t => decide (t.1 < S.th.2.nv)) = true → ∀ t ∈ l.vars, t.1 < S.th.2.nv := fun h t ht => by
    simpa using List.all_eq_true.mp h t ht
  cases a with
  | op o =>
    simp only [MAct.okB, Bool.and_eq_true] at hok
    obtain ⟨⟨a, b⟩, h1, h2⟩ := map_ok hr
    injection h2 with e1 e2; injection e1 with e1 e3; subst e1 e3
    exact .step h (Sat.legalB_legal hok.1.1) (by cases o <;> simp_all [mayB, DL.MayCall]) h1
  | var =>
    simp only [MAct.okB, Bool.not_eq_true'] at hok
    injection hr with hr; injection hr with e1 e2; injection e1 with e1 e3; subst e1 e3
    exact .newVar h hok
  | rel R l r =>
    simp only [MAct.okB, Bool.and_eq_true, Bool.not_eq_true'] at hok
    obtain ⟨⟨⟨⟨h0, c1⟩, c2⟩, c3⟩, c4⟩ := hok
    obtain ⟨⟨a, b⟩, h1, h2⟩ := map_ok hr
    injection h2 with e1 e2; injection e1 with e1 e3; subst e1 e3
    exact .newRel h h0 (canonB_canon c1) (canonB_canon c2) (varsB_vars c3) (varsB_vars c4) h1
  | eq l r =>
    simp only [MAct.okB, Bool.and_eq_true, Bool.not_eq_true'] at hok
    obtain ⟨⟨⟨⟨h0, c1⟩, c2⟩, c3⟩, c4⟩ := hok
    obtain ⟨⟨a, b⟩, h1, h2⟩ := map_ok hr
    injection h2 with e1 e2; injection e1 with e1 e3; subst e1 e3
    exact .newEq h h0 (canonB_canon c1) (canonB_canon c2) (varsB_vars c3) (varsB_vars c4) h1
  | lb x v p =>
    simp only [MAct.okB, Bool.and_eq_true, Bool.not_eq_true', decide_eq_true_eq, beq_iff_eq] at hok
    obtain ⟨⟨⟨⟨h0, c1⟩, c2⟩, c3⟩, c4⟩ := hok
    obtain ⟨s, h1, rfl, rfl⟩ := bounded_ok hr
    exact .setLb h h0 c1 c2 c3 c4 h1
  | ub x v p =>
    simp only [MAct.okB, Bool.and_eq_true, Bool.not_eq_true', decide_eq_true_eq, beq_iff_eq] at hok
    obtain ⟨⟨⟨⟨h0, c1⟩, c2⟩, c3⟩, c4⟩ := hok
    obtain ⟨s, h1, rfl, rfl⟩ := bounded_ok hr
    exact .setUb h h0 c1 c2 c3 c4 h1
  | point =>
    simp only [MAct.okB, Bool.not_eq_true'] at hok
    injection hr with hr; injection hr with e1 e2; injection e1 with e1 e3; subst e1 e3
    exact .newPoint h hok
  | dist i j w =>
    simp only [MAct.okB, Bool.and_eq_true, Bool.not_eq_true', decide_eq_true_eq] at hok
    obtain ⟨⟨a, b⟩, h1, h2⟩ := map_ok hr
    injection h2 with e1 e2; injection e1 with e1 e3; subst e1 e3
    exact .newDistance h hok.1.1 hok.1.2 hok.2 h1
  | diff R l r =>
    simp only [MAct.okB, Bool.and_eq_true, Bool.not_eq_true'] at hok
    obtain ⟨⟨⟨⟨h0, c1⟩, c2⟩, c3⟩, c4⟩ := hok
    obtain ⟨⟨a, b⟩, h1, h2⟩ := map_ok hr
    injection h2 with e1 e2; injection e1 with e1 e3; subst e1 e3
    exact .newDiff h h0 (canonB_canon c1) (canonB_canon c2) (vars c3) (vars c4) h1

theorem runs_play : ∀ (as : List MAct) (S : St) (U : List Fact) (d : Bool) (r : St × List Fact) (outs : List Sat.Out), Play stdEnv stdL S U → runs true as S U d = some (r, outs) →
    Play stdEnv stdL r.1 r.2
  | [], S, U, d, r, outs, h, hr => by injection hr with hr; injection hr with e1 e2; subst e1; exact h
  | a :: as, S, U, d, r, outs, h, hr => by
    unfold runs at hr
    split at hr
    · next hok =>
      split at hr
      · cases hr
      · next r1 o1 h1 =>
        obtain ⟨⟨x, y⟩, h2, h3⟩ := Option.map_eq_some_iff.mp hr
        injection h3 with e1 e2; subst e1
        exact runs_play as _ _ _ _ _ (MAct.run_play (U' := r1.2) h hok h1) h2
    · cases hr

theorem made_play {as : List MAct} (h : (runs true as (new 4) [] false).isSome = true) : Play stdEnv stdL (made as).1 (made as).2 := by
  unfold made
  match hr : runs true as (new 4) [] false with
  | none => rw [hr] at h; cases h
  | some r => exact runs_play as _ _ _ _ _ (.init (by decide)) hr

/-- A session that `Sess` excludes (a propagation is unsafe), with a wrong clause recorded; its last call is `simplify_db`, which answers true: the hypotheses of `C68_backed` and `C68_clauses`
are met. Then `b4` and `b2` are assumed. All the variables are assigned: those of `C68_solution` are met. -/
def hist68 : List MAct := hist67.dropLast

example : (runs false hist68 (new 4) [] false).isSome = false ∧ (runs true hist68 (new 4) [] false).isSome = true ∧ (made hist68).1.legalB .simplify = true ∧
    ((made hist68).1.step stdEnv (ops stdL) .simplify).toOption.map (·.2) = some (.bool true) := by decide +kernel

example : (runs true (hist68 ++ [.op (.assume (pl 4))]) (new 4) [] false).isSome = true ∧ (made (hist68 ++ [.op (.assume (pl 4))])).1.legalB (.assume (pl 2)) = true ∧
    ((made (hist68 ++ [.op (.assume (pl 4))])).1.step stdEnv (ops stdL) (.assume (pl 2))).toOption.map (fun r => (r.2, (List.range r.1.nvars).map r.1.assigns)) =
      some (.bool true, [some false, some true, some true, some false, some true]) := by decide +kernel

example : Play stdEnv stdL (made hist68).1 (made hist68).2 := made_play (by decide +kernel)

/-- C69 is false of the code: from the state after `hist66`, which is not known to be inconsistent, the client answers false, although the network has a solution. -/
theorem C69_witness : Play stdEnv stdL (made hist66).1 (made hist66).2 ∧ (made hist66).1.dead = false ∧ (∃ S', ∀ pick k, Sat.solve stdEnv (ops stdL) pick k (made hist66).1 = .ok (S', false)) ∧
    ∃ α x X, Model (made hist66).1 (made hist66).2 α x X := by
  obtain ⟨-, ⟨S', h⟩, hm⟩ := C66_witness
  exact ⟨made_play hist66_runs, by decide +kernel, ⟨S', fun pick k => by unfold Sat.solve; rw [h]⟩, hm⟩

end Mix
end Semitone
