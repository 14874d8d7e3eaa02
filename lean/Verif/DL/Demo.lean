import Verif.DL.PropsD
import Verif.LRA.Free

/-!
# Concrete sessions of the core with the integer difference logic
-/
namespace Semitone
namespace DL
open LRA (canonB canonB_canon)

/-- A call. -/
inductive DAct where
  | op (o : Sat.Op)
  | point
  | dist (i j : Nat) (w : ℤ)
  | rel (R : Rel) (l r : Lin)
  | listen (v l : Nat)

/-- Executable form of `MayCall`. -/
def mayB : Sat.Op → Bool
  | .bind _ _ => false
  | _ => true

/-- The outcome is not an exclusion. -/
def notExcluded {A : Type} (r : Except Err A) : Bool :=
  match r with
  | .error .excluded => false
  | _ => true

/-- The call is allowed in a session. `free`: unsafe propagations are allowed too. -/
def DAct.okB (free : Bool) (a : DAct) (s : Sat (DL ℤ)) : Bool :=
  match a with
  | .op o => s.legalB o && mayB o && (free || notExcluded (s.step stdEnv safeOps o))
  | .dist i j _ => !s.dead && decide (i < s.th.nv) && decide (j < s.th.nv)
  | .rel _ l r => !s.dead && canonB l && canonB r && l.vars.all (fun t => decide (t.1 < s.th.nv)) && r.vars.all (fun t => decide (t.1 < s.th.nv))
  | _ => !s.dead

/-- The call. -/
def DAct.run (a : DAct) (s : Sat (DL ℤ)) : Except Err (Sat (DL ℤ) × Sat.Out) :=
  match a with
  | .op o => s.step stdEnv ops o
  | .point => .ok ({ s with th := s.th.newVar.1 }, .var s.th.nv)
  | .dist i j w => (newDistance s i j w).map (fun r => (r.1, .lit r.2))
  | .rel R l r => (newRel stdEnv R s l r).map (fun r => (r.1, .lit r.2))
  | .listen v l => (s.th.listen v l).map (fun t => ({ s with th := t }, .unit))

/-- Runs the calls as long as they are allowed. -/
def runs (free : Bool) : List DAct → Sat (DL ℤ) → Option (Sat (DL ℤ) × List Sat.Out)
  | [], s => some (s, [])
  | a :: as, s =>
    if a.okB free s then
      match a.run s with
      | .error _ => none
      | .ok (s', out) => (runs free as s').map (fun r => (r.1, out :: r.2))
    else none

theorem map_ok {A B : Type} {f : A → B} {r : Except Err A} {b : B} (h : r.map f = .ok b) : ∃ a, r = .ok a ∧ f a = b := by
  cases r with
  | error e => cases h
  | ok a => injection h with h; exact ⟨a, rfl, h⟩

theorem DAct.run_sess {a : DAct} {s s' : Sat (DL ℤ)} {out : Sat.Out} (h : DSess stdEnv s) (hok : a.okB false s = true) (hr : a.run s = .ok (s', out)) : DSess stdEnv s' := by
  have vars : ∀ {l : Lin}, l.vars.all (fun t => decide (t.1 < s.th.nv)) = true → ∀ t ∈ l.vars, t.1 < s.th.nv := fun h t ht => by
    simpa using List.all_eq_true.mp h t ht
  cases a with
  | op o =>
    simp only [DAct.okB, Bool.and_eq_true, Bool.false_or] at hok
    refine .step h (Sat.legalB_legal hok.1.1) (by cases o <;> simp_all [mayB, MayCall]) (fun e => ?_) hr
    rw [e] at hok
    simp [notExcluded] at hok
  | point =>
    simp only [DAct.okB, Bool.not_eq_true'] at hok
    injection hr with hr; injection hr with e1 e2; subst e1
    exact .newPoint h hok
  | dist i j w =>
    simp only [DAct.okB, Bool.and_eq_true, Bool.not_eq_true', decide_eq_true_eq] at hok
    obtain ⟨⟨a, b⟩, h1, h2⟩ := map_ok hr
    injection h2 with e1 e2; subst e1
    exact .newDistance h hok.1.1 hok.1.2 hok.2 h1
  | rel R l r =>
    simp only [DAct.okB, Bool.and_eq_true, Bool.not_eq_true'] at hok
    obtain ⟨⟨⟨⟨h0, c1⟩, c2⟩, c3⟩, c4⟩ := hok
    obtain ⟨⟨a, b⟩, h1, h2⟩ := map_ok hr
    injection h2 with e1 e2; subst e1
    exact .newRel h h0 (canonB_canon c1) (canonB_canon c2) (vars c3) (vars c4) h1
  | listen v l =>
    simp only [DAct.okB, Bool.not_eq_true'] at hok
    simp only [DAct.run] at hr
    obtain ⟨t, h1, h2⟩ := map_ok hr
    injection h2 with e1 e2; subst e1
    exact .listen h hok h1

theorem runs_sess : ∀ (as : List DAct) (s s' : Sat (DL ℤ)) (outs : List Sat.Out), DSess stdEnv s → runs false as s = some (s', outs) → DSess stdEnv s'
  | [], s, s', outs, h, hr => by injection hr with hr; injection hr with e1 e2; subst e1; exact h
  | a :: as, s, s', outs, h, hr => by
    unfold runs at hr
    split at hr
    · next hok =>
      split at hr
      · cases hr
      · next s1 o1 h1 =>
        obtain ⟨⟨x, y⟩, h2, h3⟩ := Option.map_eq_some_iff.mp hr
        injection h3 with e1 e2; subst e1
        exact runs_sess as s1 _ _ (DAct.run_sess h hok h1) h2
    · cases hr

/-- A concrete session from an empty core. -/
def session (as : List DAct) : Option (Sat (DL ℤ) × List Sat.Out) := runs false as (Sat.init (DL.init 4))

theorem session_reach {as : List DAct} {s : Sat (DL ℤ)} {outs : List Sat.Out} (h : session as = some (s, outs)) : DSess stdEnv s :=
  runs_sess as _ _ _ (.init (by decide)) h

/-! ### Sessions -/

/-- `tp1 - tp0 ≤ 10`, `tp2 - tp1 ≤ -3`, `tp0 - tp2 ≤ -8` (so `tp2 ≥ 8`), `tp2 - tp0 ≤ 6`; one of the last two. -/
def sess1 : List DAct := [.point, .point, .dist 0 1 10, .dist 1 2 (-3), .dist 2 0 (-8), .dist 0 2 6, .op (.newClause [pl 3, pl 4]), .op .propagate]

/-- Every call is executed and none is excluded. -/
example : (session sess1).map (·.2) = some [.var 1, .var 2, .lit (pl 1), .lit (pl 2), .lit (pl 3), .lit (pl 4), .bool true, .bool true] := by decide +kernel

/-- Two decisions: the theory derives that `b3` is false and that the reported distance from `tp0` to `tp2` is 7; the clause then makes `b4` true, which makes it 6: the hypotheses of
`C62_positions` and, all variables being assigned, of `C62_solution` are met. -/
example : (session (sess1 ++ [.op (.assume (pl 1)), .op (.assume (pl 2))])).map (fun r => (r.2.drop 8, r.1.value (pl 3), r.1.value (pl 4), decide ((r.1.th.distance 0 2).2 = ((6 : ℤ) : WithTop ℤ)))) =
    some ([.bool true, .bool true], some false, some true, true) := by decide +kernel

/-- The relational constructors, `simplify_db` and `next`. -/
example : (session (sess1 ++ [.rel .leq ⟨[(1, 1)], 0⟩ ⟨[(2, 1)], 4⟩, .op .simplify, .op (.assume (pl 5)), .op .next])).map (fun r => (r.2.drop 8, r.1.value (pl 5), r.1.root)) =
    some ([.lit (pl 5), .bool true, .bool true, .bool true], some false, true) := by decide +kernel

/-- The client run after a concrete session; the flag tells that no unsafe propagation was reached. -/
def dsolved (as : List DAct) (k : Nat) : Option (Bool × Bool × List (Option Bool)) :=
  match session as with
  | some r => (Sat.solve stdEnv ops firstFree k r.1).toOption.map (fun x => (notExcluded (Sat.solve stdEnv safeOps firstFree k r.1), x.2, (List.range x.1.nvars).map x.1.assigns))
  | none => none

/-- Solved. -/
example : dsolved sess1 10 = some (true, true, [some false, some true, some true, some false, some true]) := by decide +kernel

/-- Refuted: with `tp1 - tp0 ≤ 10` and `tp2 - tp1 ≤ -3` imposed, `tp2 ≥ 8` and `tp2 ≥ 9` (one of them) have no solution. -/
example : (dsolved [.point, .point, .dist 0 1 10, .dist 1 2 (-3), .dist 2 0 (-8), .dist 2 0 (-9), .op (.newClause [pl 1]), .op (.newClause [pl 2]), .op (.newClause [pl 3, pl 4])] 10).map
    (fun r => (r.1, r.2.1)) = some (true, false) := by decide +kernel

/-! ### Unsafe propagations -/

/-- `b1`: `tp1 - tp0 ≤ 10`, `b2`: `tp1 - tp0 ≤ 5`, `b3`: `tp0 - tp1 ≤ -7`. Both decisions `b1`, `b2` are taken, then taken back; then `b1` and `b3` are imposed. -/
def hist60 : List DAct := [.point, .dist 0 1 10, .dist 0 1 5, .dist 1 0 (-7), .op (.assume (pl 1)), .op (.assume (pl 2)), .op .pop, .op .pop, .op (.newClause [pl 1]), .op (.newClause [pl 3])]

/-- The state and the answers after a list of legal calls, whether or not they reach unsafe propagations. -/
def made (as : List DAct) : Sat (DL ℤ) × List Sat.Out := (runs true as (Sat.init (DL.init 4))).getD (Sat.init (DL.init 4), [])

theorem hist60_runs : (runs true hist60 (Sat.init (DL.init 4))).isSome = true ∧
    (made hist60).2 = [.var 1, .lit (pl 1), .lit (pl 2), .lit (pl 3), .bool true, .bool true, .unit, .unit, .bool true, .bool true] := by decide +kernel

theorem hist60_vd : ∀ b, (made hist60).1.th.vd b =
    if b = 3 then some ⟨3, 1, 0, -7⟩ else if b = 2 then some ⟨2, 0, 1, 5⟩ else if b = 1 then some ⟨1, 0, 1, 10⟩ else none := by
  intro b
  kernel_rfl

/-- C60 is false of the code: after `hist60` (all calls legal), `propagate()` answers false, although `tp0 = 0`, `tp1 = 8` satisfies everything that was imposed. (The second decision,
`tp1 - tp0 ≤ 5`, is propagated with the explanation of the first one.) -/
theorem C60_witness : (∃ s', (made hist60).1.propagate stdEnv ops = .ok (s', false)) ∧ ∃ α X, Model (made hist60).1 α X := by
  constructor
  · have h : ((made hist60).1.propagate stdEnv ops).toOption.map (·.2) = some false := by decide +kernel
    obtain ⟨⟨s', r⟩, h1, h2⟩ := Option.map_eq_some_iff.mp h
    simp only at h2
    subst h2
    exact ⟨s', LRA.toOption_ok h1⟩
  · refine ⟨fun v => decide (v = 1 ∨ v = 3), fun v => if v = 1 then 8 else 0, rfl, fun C hC => ?_, fun b dd hb => ?_⟩
    · have h : (made hist60).1.posted = [[pl 3], [pl 1]] := by decide +kernel
      rw [h] at hC
      simp only [List.mem_cons, List.not_mem_nil, or_false] at hC
      rcases hC with rfl | rfl
      · exact ⟨pl 3, List.mem_cons_self, rfl⟩
      · exact ⟨pl 1, List.mem_cons_self, rfl⟩
    · rw [hist60_vd b] at hb
      split at hb
      · injection hb with hb; subst hb; subst b; decide
      · split at hb
        · injection hb with hb; subst hb; subst b; decide
        · split at hb
          · injection hb with hb; subst hb; subst b; decide
          · cases hb

/-- `b1` is imposed and propagated, then `b2` is assumed and taken back; then `simplify_db`. -/
def hist61 : List DAct := [.point, .dist 0 1 10, .dist 0 1 5, .dist 1 0 (-7), .op (.newClause [pl 1]), .op .propagate, .op (.assume (pl 2)), .op .pop, .op .simplify]

/-- C61 is false of the code: after `hist61` (all calls legal, all executed) the legal call `assume(b3)` has undefined behaviour: a clause with one literal is watched and is visited, and the code
reads its second literal. -/
theorem C61_witness : (runs true hist61 (Sat.init (DL.init 4))).isSome = true ∧ (made hist61).1.legalB (.assume (pl 3)) = true ∧
    (made hist61).1.constrs.map (made hist61).1.db = [[nl 3]] ∧ ((made hist61).1.step stdEnv ops (.assume (pl 3))).map (·.2) = .error .ub := by decide +kernel

end DL
end Semitone
