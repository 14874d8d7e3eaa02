import Verif.DL.Play
import Verif.DL.Demo

/-!
# Concrete sessions with unsafe propagations
-/
namespace Semitone
namespace DL
open LRA (canonB canonB_canon)

theorem DAct.run_play {a : DAct} {s s' : Sat (DL ℤ)} {out : Sat.Out} (h : Play stdEnv s) (hok : a.okB true s = true) (hr : a.run s = .ok (s', out)) : Play stdEnv s' := by
  have vars : ∀ {l : Lin}, l.vars.all (fun t => decide (t.1 < s.th.nv)) = true → ∀ t ∈ l.vars, t.1 < s.th.nv := fun h t ht => by
    simpa using List.all_eq_true.mp h t ht
  cases a with
  | op o =>
    simp only [DAct.okB, Bool.and_eq_true] at hok
    exact .step h (Sat.legalB_legal hok.1.1) (by cases o <;> simp_all [mayB, MayCall]) hr
  | point =>
    simp only [DAct.okB, Bool.not_eq_true'] at hok
    injection hr with hr; injection hr with e1 e2; subst e1
    exact .newPoint h hok
  | dist i j w =>
    simp only [DAct.okB, Bool.and_eq_true, Bool.not_eq_true', decide_eq_true_eq] at hok
    obtain ⟨⟨a, b⟩, h1, h2⟩ := map_ok hr
    injection h2 with e1 e2; subst e1
    exact .newDistance h hok.1.1 hok.1.2 hok.2 h1
  | rel R l r =>
    simp only [DAct.okB, Bool.and_eq_true, Bool.not_eq_true'] at hok
    obtain ⟨⟨⟨⟨h0, c1⟩, c2⟩, c3⟩, c4⟩ := hok
    obtain ⟨⟨a, b⟩, h1, h2⟩ := map_ok hr
    injection h2 with e1 e2; subst e1
    exact .newRel h h0 (canonB_canon c1) (canonB_canon c2) (vars c3) (vars c4) h1
  | listen v l =>
    simp only [DAct.okB, Bool.not_eq_true'] at hok
    simp only [DAct.run] at hr
    obtain ⟨t, h1, h2⟩ := map_ok hr
    injection h2 with e1 e2; subst e1
    exact .listen h hok h1

theorem runs_play : ∀ (as : List DAct) (s s' : Sat (DL ℤ)) (outs : List Sat.Out), Play stdEnv s → runs true as s = some (s', outs) → Play stdEnv s'
  | [], s, s', outs, h, hr => by injection hr with hr; injection hr with e1 e2; subst e1; exact h
  | a :: as, s, s', outs, h, hr => by
    unfold runs at hr
    split at hr
    · next hok =>
      split at hr
      · cases hr
      · next s1 o1 h1 =>
        obtain ⟨⟨x, y⟩, h2, h3⟩ := Option.map_eq_some_iff.mp hr
        injection h3 with e1 e2; subst e1
        exact runs_play as s1 _ _ (DAct.run_play h hok h1) h2
    · cases hr

theorem made_play {as : List DAct} (h : (runs true as (Sat.init (DL.init 4))).isSome = true) : Play stdEnv (made as).1 := by
  unfold made
  match hr : runs true as (Sat.init (DL.init 4)) with
  | none => rw [hr] at h; cases h
  | some r => exact runs_play as _ _ _ (.init (by decide)) hr

/-- A session that `DSess` excludes (a propagation is unsafe), with a wrong clause recorded (`b3` is false whenever `b1` is true); its last call is `simplify_db`, which answers true: the hypotheses of
`C62_positions`, `C62_clauses` are met. Then `b2` is assumed. All the variables are assigned: those of `C62_solution` are met. -/
def hist62 : List DAct := hist61.dropLast

example : runs false hist62 (Sat.init (DL.init 4)) = none ∧ (runs true hist62 (Sat.init (DL.init 4))).isSome = true ∧ (made hist62).1.legalB .simplify = true ∧
    ((made hist62).1.step stdEnv ops .simplify).toOption.map (·.2) = some (.bool true) ∧ (made hist62).1.legalB (.assume (pl 2)) = true ∧
    ((made hist62).1.step stdEnv ops (.assume (pl 2))).toOption.map (fun r => (r.2, (List.range r.1.nvars).map r.1.assigns)) = some (.bool true, [some false, some true, some true, some false]) := by
  refine ⟨Option.isNone_iff_eq_none.mp ?_, ?_⟩ <;> decide +kernel

example : Play stdEnv (made hist62).1 := made_play (by decide +kernel)

/-- C63 is false of the code: from the state after `hist60`, which is not known to be inconsistent, the client answers false (already its first call, `propagate()`, does), although the network has a
solution. -/
theorem C63_witness : Play stdEnv (made hist60).1 ∧ (made hist60).1.dead = false ∧ (∃ s', ∀ pick k, Sat.solve stdEnv ops pick k (made hist60).1 = .ok (s', false)) ∧
    ∃ α X, Model (made hist60).1 α X := by
  obtain ⟨⟨s', h⟩, hm⟩ := C60_witness
  exact ⟨made_play hist60_runs.1, by decide +kernel, ⟨s', fun pick k => by unfold Sat.solve; rw [h]⟩, hm⟩

end DL
end Semitone
