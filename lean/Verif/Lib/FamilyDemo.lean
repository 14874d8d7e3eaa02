import Verif.Lib.Families
import Verif.Lib.Demo

/-!
# Concrete families for C77, C78, C79: two theories of linear arithmetic and object variables on one core
-/
namespace Semitone
namespace Lib2
open Lin Comp
open LRA (stdL canonB canonB_canon varsB varsB_vars)
open Lib (toOption_some said said_ok)

/-- The three theories. -/
def lib : Comp (LRA × LRA × OV Nat) := (LRA.comp stdEnv stdL).prod ((LRA.comp stdEnv stdL).prod (OV.comp stdEnv OV.idO))
def fam : Family stdEnv lib := .both (.arith stdL) (.both (.arith stdL) (.object OV.idO))

theorem plain : fam.Plain := ⟨trivial, trivial, trivial⟩

def wA : (Family.arith stdL).Has fam := .left .here
def wB : (Family.arith stdL).Has fam := .right (.left .here)
def wO : (Family.object (E := stdEnv) OV.idO).Has fam := .right (.right .here)

/-- One of the two theories of linear arithmetic. -/
def pickA : Bool → (Family.arith stdL).Has fam
  | true => wA
  | false => wB

abbrev St := Sat (LRA × LRA × OV Nat)

/-- One call of a concrete history; `b`: which theory of linear arithmetic. -/
inductive Act where
  | op (o : Sat.Op)
  | var (b : Bool)
  | rel (b : Bool) (R : LRA.Rel4) (l r : Lin)
  | ub (b : Bool) (x : Nat) (v : IQ)
  | obj (items : List Nat)
  | objL (lits : List Lit) (vals : List Nat)
  | same (x y : Nat)

/-- State, what was imposed, and whether it waits for a propagation. -/
abbrev Sn := St × lib.Dat × Bool

/-- The call returns, and what it returns. -/
def Act.run (a : Act) (q : Sn) : Option (Sn × Sat.Out) :=
  if q.1.dead then none else
  match a with
  | .op o => if q.1.legalB o && LRA.mayB o q.2.2 then (q.1.step stdEnv lib.ops o).toOption.map (fun r => ((r.1, q.2.1, LRA.pendingAfter o q.2.2), r.2)) else none
  | .var b => some (((pickA b).within.put q.1 { (pickA b).within.view q.1 with th := ((pickA b).within.view q.1).th.newVar.1 }, (pickA b).within.setDat q.2.1 ((pickA b).within.dat q.2.1), q.2.2), .var ((pickA b).within.view q.1).th.newVar.2)
  | .rel b R l r =>
    if canonB l && canonB r && varsB ((pickA b).within.view q.1).th l && varsB ((pickA b).within.view q.1).th r then
      (LRA.newRel R ((pickA b).within.view q.1) l r).toOption.map (fun p => (((pickA b).within.put q.1 p.1, (pickA b).within.setDat q.2.1 ((pickA b).within.dat q.2.1), q.2.2), .lit p.2)) else none
  | .ub b x v =>
    if ((pickA b).within.view q.1).root && decide (x < ((pickA b).within.view q.1).th.n) && decide (((pickA b).within.view q.1).value TRUE_lit = some true) && decide ((ofLex v).2 ≤ 0) then
      match LRA.setUbC stdEnv stdL ((pickA b).within.view q.1) x v TRUE_lit with
      | .ok (s, none) => some (((pickA b).within.put q.1 s, (pickA b).within.setDat q.2.1 (Fact.hi TRUE_lit x v :: (pickA b).within.dat q.2.1 : List Fact), true), .bool true)
      | _ => none
    else none
  | .obj items => (OV.newVar stdEnv 0 (wO.within.view q.1) (wO.within.view q.1).th items true).toOption.map (fun p => ((wO.within.put q.1 { p.1 with th := p.2.1 }, wO.within.setDat q.2.1 (wO.within.dat q.2.1), q.2.2), .var p.2.2))
  | .objL lits vals =>
    if lits.all (fun l => decide (l.var < (wO.within.view q.1).nvars)) then
      ((wO.within.view q.1).th.newVarLits lits vals).toOption.map (fun p => ((wO.within.put q.1 { wO.within.view q.1 with th := p.1 }, wO.within.setDat q.2.1 (wO.within.dat q.2.1), q.2.2), .var p.2)) else none
  | .same x y => (OV.newEq stdEnv OV.idO (wO.within.view q.1) (wO.within.view q.1).th x y).toOption.map (fun p => ((wO.within.put q.1 { p.1 with th := p.2.1 }, wO.within.setDat q.2.1 (wO.within.dat q.2.1), q.2.2), .lit p.2.2))

theorem Act.run_closed {P : St → lib.Dat → Bool → Prop} (hst : ∀ {S U d op S' out}, P S U d → S.Legal op → LRA.MayCall op d → S.step stdEnv lib.ops op = .ok (S', out) → P S' U (LRA.pendingAfter op d))
    (hth : ∀ {S U d S' U' d'}, P S U d → S.dead = false → lib.Call S U S' U' → (d' = true ∨ U' = U ∧ d' = d) → P S' U' d') {a : Act} {q q' : Sn} {out : Sat.Out} (h : P q.1 q.2.1 q.2.2) (hr : a.run q = some (q', out)) : P q'.1 q'.2.1 q'.2.2 := by
  unfold Act.run at hr
  split at hr
  · cases hr
  next hd =>
  have hd : q.1.dead = false := by simpa using hd
  cases a with
  | op o =>
    simp only at hr
    split at hr
    · next hc =>
      rw [Bool.and_eq_true] at hc
      obtain ⟨⟨q1, q2⟩, h1, h2⟩ := Option.map_eq_some_iff.mp hr
      injection h2 with h2 h3; subst h2
      exact hst h (Sat.legalB_legal hc.1) (LRA.mayB_may hc.2) (toOption_some h1)
    · cases hr
  | var b =>
    injection hr with hr; injection hr with h2 h3; subst h2
    refine hth h hd ((pickA b).within.call (u := (pickA b).within.dat q.2.1) LRA.Act.newVar) (.inr ⟨?_, rfl⟩)
    exact (pickA b).within.setDat_dat _
  | rel b R l r =>
    simp only at hr
    split at hr
    · next hc =>
      simp only [Bool.and_eq_true] at hc
      obtain ⟨⟨q1, q2⟩, h1, h2⟩ := Option.map_eq_some_iff.mp hr
      injection h2 with h2 h3; subst h2
      refine hth h hd ((pickA b).within.call (u := (pickA b).within.dat q.2.1) (LRA.Act.newRel (canonB_canon hc.1.1.1) (canonB_canon hc.1.1.2) (varsB_vars hc.1.2) (varsB_vars hc.2) (toOption_some h1))) (.inr ⟨?_, rfl⟩)
      exact (pickA b).within.setDat_dat _
    · cases hr
  | ub b x v =>
    simp only at hr
    split at hr
    · next hc =>
      simp only [Bool.and_eq_true, decide_eq_true_eq] at hc
      split at hr
      · next s h1 =>
        injection hr with hr; injection hr with h2 h3; subst h2
        exact hth h hd ((pickA b).within.call (u := (Fact.hi TRUE_lit x v :: (pickA b).within.dat q.2.1 : List Fact)) (LRA.Act.setUb hc.1.1.1 hc.1.1.2 hc.1.2 hc.2 h1)) (.inl rfl)
      · cases hr
    · cases hr
  | obj items =>
    obtain ⟨⟨q1, q2, q3⟩, h1, h2⟩ := Option.map_eq_some_iff.mp hr
    injection h2 with h2 h3; subst h2
    exact hth h hd (wO.within.call (u := ()) (OV.Act.newVar (toOption_some h1))) (.inr ⟨rfl, rfl⟩)
  | objL lits vals =>
    simp only at hr
    split at hr
    · next hc =>
      obtain ⟨⟨q1, q2⟩, h1, h2⟩ := Option.map_eq_some_iff.mp hr
      injection h2 with h2 h3; subst h2
      exact hth h hd (wO.within.call (u := ()) (OV.Act.newVarLits (fun l hl => by simpa using List.all_eq_true.mp hc l hl) (toOption_some h1))) (.inr ⟨rfl, rfl⟩)
    · cases hr
  | same x y =>
    obtain ⟨⟨q1, q2, q3⟩, h1, h2⟩ := Option.map_eq_some_iff.mp hr
    injection h2 with h2 h3; subst h2
    exact hth h hd (wO.within.call (u := ()) (OV.Act.newEq (toOption_some h1))) (.inr ⟨rfl, rfl⟩)

theorem Act.run_session {a : Act} {q q' : Sn} {out : Sat.Out} (h : Session stdEnv lib q.1 q.2.1 q.2.2) (hr : a.run q = some (q', out)) : Session stdEnv lib q'.1 q'.2.1 q'.2.2 :=
  Act.run_closed (P := Session stdEnv lib) .step .theory h hr

/-- A list of calls. -/
def runs : List Act → Sn → Option (Sn × List Sat.Out)
  | [], q => some (q, [])
  | a :: as, q =>
    match a.run q with
    | none => none
    | some (q', out) => (runs as q').map (fun r => (r.1, out :: r.2))

theorem runs_session : ∀ (as : List Act) (q r : Sn) (outs : List Sat.Out), Session stdEnv lib q.1 q.2.1 q.2.2 → runs as q = some (r, outs) → Session stdEnv lib r.1 r.2.1 r.2.2
  | [], q, r, outs, h, hr => by injection hr with hr; injection hr with e1 e2; subst e1; exact h
  | a :: as, q, r, outs, h, hr => by
    unfold runs at hr
    split at hr
    · cases hr
    · next q1 out h1 =>
      obtain ⟨⟨x, y⟩, h2, h3⟩ := Option.map_eq_some_iff.mp hr
      injection h3 with e1 e2; subst e1
      exact runs_session as _ _ _ (a.run_session h h1) h2

/-- A new core with the three theories. -/
def new : Sn := (Sat.init (LRA.init, LRA.init, OV.init), lib.d0, false)

/-- The state after a list of calls. -/
def made (as : List Act) : Sn := ((runs as new).map (·.1)).getD new

theorem made_session (as : List Act) : Session stdEnv lib (made as).1 (made as).2.1 (made as).2.2 := by
  have h0 : Session stdEnv lib new.1 new.2.1 new.2.2 := .init (show lib.Start (LRA.init, LRA.init, OV.init) from ⟨rfl, rfl, rfl⟩)
  unfold made
  match hr : runs as new with
  | none => exact h0
  | some q => exact runs_session as _ _ _ h0 hr

/-- A variable `x0` of the first arithmetic theory and one of the second; `b1`: `x0 ≤ 3` in the first, `b2`: `x0 ≥ 1` in the second; an object variable with values 10, 11, 12 (`b3`, `b4`, `b5`, and `b6` of the exactly-one constraint),
another whose values 10, 20 depend on `b1`, `b2`; `x0 ≤ 0` is imposed in the second theory; their equality `b7`; `propagate()`. -/
def pre77 : List Act := [.var true, .var false, .rel true .leq ⟨[(0, 1)], 0⟩ ⟨[], 3⟩, .rel false .geq ⟨[(0, 1)], 0⟩ ⟨[], 1⟩, .obj [10, 11, 12], .objL [pl 1, pl 2] [10, 20], .ub false 0 (toLex (0, 0))]
def post77 : List Act := [.same 0 1, .op .propagate]

/-- Their answers. -/
example : (runs (pre77 ++ post77) new).map (·.2) = some [.var 0, .var 0, .lit (pl 1), .lit (pl 2), .var 0, .var 1, .bool true, .lit (pl 7), .bool true] := by decide +kernel

/-- A session in which the search answers true has a solution. -/
theorem solved_model {as : List Act} (hd : (made as).1.dead = false) {k : Nat} (hk : ((made as).1.nvars + 2) ^ ((made as).1.dl + (made as).1.nvars + 1) ≤ k)
    (hs : (Sat.solve stdEnv lib.ops firstFree k (made as).1).toOption.map (·.2) = some true) : ∃ α x, fam.Model (made as).1 (made as).2.1 α x := by
  obtain ⟨S', b, h1, h2, -⟩ := Family.C79_decides plain (made_session as) hd firstFree_heuristic hk
  rw [h1] at hs
  injection hs with hs
  obtain ⟨-, δ, h0, h3⟩ := h2 hs
  obtain ⟨⟨x, hx⟩, h4⟩ := h3 δ h0 le_rfl
  exact ⟨_, x, h4 x hx⟩

/-- C79: the session `pre77 ++ post77` has a solution. -/
theorem model77 : ∃ α x, fam.Model (made (pre77 ++ post77)).1 (made (pre77 ++ post77)).2.1 α x :=
  solved_model (k := 10 ^ 9) (by decide +kernel) (by decide +kernel) (by decide +kernel)

/-- C77: in all of them `b2` is false (in the second theory `x0 ≤ 0`), as the core says. -/
example : ∀ α x, fam.Model (made (pre77 ++ post77)).1 (made (pre77 ++ post77)).2.1 α x → α.sat (pl 2).neg := fun α x hm =>
  (Family.C77_sound plain (made_session _)).2.1 (pl 2).neg (by decide +kernel) α x hm (fun l hl => by
    have e : (made (pre77 ++ post77)).1.decUpTo ((made (pre77 ++ post77)).1.level (pl 2).neg.var) = [] := by decide +kernel
    rw [e] at hl; cases hl)

/-- The bound reported for `x0` by the second theory. -/
example : ∀ α x, fam.Model (made (pre77 ++ post77)).1 (made (pre77 ++ post77)).2.1 α x → α.all (made (pre77 ++ post77)).1.decisions →
    ((IQ.ofQ ((wB.val x : Nat → ℚ) 0) : IQ) : WithTop IQ) ≤ (wB.within.th (made (pre77 ++ post77)).1.th).hi 0 := fun α x hm hd => (Family.C77_arith_bounds wB plain (made_session _) 0 α x hm hd).2

example : (wB.within.th (made (pre77 ++ post77)).1.th).hi 0 = ((toLex (0, 0) : IQ) : WithTop IQ) := by decide +kernel

/-- A relation asked to the first theory after `as`, and its literal. -/
def relCall (as : List Act) (R : LRA.Rel4) (l r : Lin) : Sat LRA × Lit := said (LRA.newRel R (wA.within.view (made as).1) l r) (wA.within.view (made as).1, TRUE_lit)

theorem rel_meets {as : List Act} {R : LRA.Rel4} {l r : Lin} (hl : canonB l = true) (hr : canonB r = true) (hlv : varsB (wA.within.th (made as).1.th) l = true) (hrv : varsB (wA.within.th (made as).1.th) r = true)
    (h2 : (LRA.newRel R (wA.within.view (made as).1) l r).toOption.isSome = true) :
    (∀ α x, fam.Model (wA.within.put (made as).1 (relCall as R l r).1) (made as).2.1 α x → α.all (made as).1.decisions → (α.sat (relCall as R l r).2 ↔ R.holds (l.eval 1 (wA.val x : Nat → ℚ)) (r.eval 1 (wA.val x : Nat → ℚ)))) ∧
    ∀ α x, fam.Model (made as).1 (made as).2.1 α x → ∃ (β : Asg) (y : Nat → ℚ), Asg.agree (made as).1.nvars α β ∧ (∀ v, v < (wA.within.th (made as).1.th).n → y v = (wA.val x : Nat → ℚ) v) ∧
      fam.Model (wA.within.put (made as).1 (relCall as R l r).1) (made as).2.1 β (wA.setVal x y) := by
  have h := (Family.C77_arith wA plain (made_session as) (s := (relCall as R l r).1) (p := (relCall as R l r).2) (canonB_canon hl) (canonB_canon hr) (varsB_vars hlv) (varsB_vars hrv)).1 R (said_ok h2)
  exact ⟨h.1, h.2.2⟩

/-- C77_arith: `x0 < 7` asked after the session: the solutions of `model77` extend to the new literal, which says what it should. -/
example : ∃ α x, fam.Model (wA.within.put (made (pre77 ++ post77)).1 (relCall (pre77 ++ post77) .lt ⟨[(0, 1)], 0⟩ ⟨[], 7⟩).1) (made (pre77 ++ post77)).2.1 α x ∧
    (α.sat (relCall (pre77 ++ post77) .lt ⟨[(0, 1)], 0⟩ ⟨[], 7⟩).2 ↔ LRA.Rel4.lt.holds ((⟨[(0, 1)], 0⟩ : Lin).eval 1 (wA.val x : Nat → ℚ)) ((⟨[], 7⟩ : Lin).eval 1 (wA.val x : Nat → ℚ))) := by
  obtain ⟨α, x, hm⟩ := model77
  have k := rel_meets (as := pre77 ++ post77) (R := .lt) (l := ⟨[(0, 1)], 0⟩) (r := ⟨[], 7⟩) (by decide +kernel) (by decide +kernel) (by decide +kernel) (by decide +kernel) (by decide +kernel)
  obtain ⟨β, y, -, -, k3⟩ := k.2 α x hm
  refine ⟨β, _, k3, k.1 _ _ k3 (fun l hl => ?_)⟩
  have e : (made (pre77 ++ post77)).1.decisions = [] := by decide +kernel
  rw [e] at hl; cases hl

def objCall (as : List Act) (items : List Nat) : Sat (OV Nat) × OV Nat × Nat :=
  said (OV.newVar stdEnv 0 (wO.within.view (made as).1) (wO.within.th (made as).1.th) items true) (wO.within.view (made as).1, wO.within.th (made as).1.th, 0)

theorem obj_meets {as : List Act} {items : List Nat} (h2 : (OV.newVar stdEnv 0 (wO.within.view (made as).1) (wO.within.th (made as).1.th) items true).toOption.isSome = true) :
    ∀ α x, fam.Model (made as).1 (made as).2.1 α x → ∀ a ∈ items, ∃ β y, fam.Model (wO.within.put (made as).1 { (objCall as items).1 with th := (objCall as items).2.1 }) (made as).2.1 β y ∧ (wO.val y : Nat → List Nat) (objCall as items).2.2 = [a] := by
  have h := Family.C77_object wO plain (made_session as) (enf := true) (s := (objCall as items).1) (o := (objCall as items).2.1) (n := (objCall as items).2.2) (said_ok h2)
  intro α x hm a ha
  obtain ⟨β, y, -, -, k1, k2⟩ := h.2.2 α x hm a ha
  obtain ⟨c, -, k3⟩ := (h.1 _ _ k2).2 rfl
  have k3 : y (objCall as items).2.2 = [c] := k3
  rw [k3, List.mem_singleton] at k1
  subst k1
  exact ⟨β, _, k2, k3⟩

/-- C77_object: another object variable after the session can take each of its values. -/
example : ∀ a ∈ [5, 6], ∃ β y, fam.Model (wO.within.put (made (pre77 ++ post77)).1 { (objCall (pre77 ++ post77) [5, 6]).1 with th := (objCall (pre77 ++ post77) [5, 6]).2.1 }) (made (pre77 ++ post77)).2.1 β y ∧
    (wO.val y : Nat → List Nat) (objCall (pre77 ++ post77) [5, 6]).2.2 = [a] := by
  obtain ⟨α, x, hm⟩ := model77
  exact obj_meets (by decide +kernel) α x hm

def eqCall (as : List Act) : Sat (OV Nat) × OV Nat × Lit := said (OV.newEq stdEnv OV.idO (wO.within.view (made as).1) (wO.within.th (made as).1.th) 0 1) (wO.within.view (made as).1, wO.within.th (made as).1.th, TRUE_lit)

theorem eq_meets {as : List Act} (hv : 1 < (wO.within.th (made as).1.th).doms.length) (h2 : (OV.newEq stdEnv OV.idO (wO.within.view (made as).1) (wO.within.th (made as).1.th) 0 1).toOption.isSome = true) :
    ∀ α x, fam.Model (wO.within.put (made as).1 { (eqCall as).1 with th := (eqCall as).2.1 }) (made as).2.1 α x → α.sat (eqCall as).2.2 → ∀ a, a ∈ (wO.val x : Nat → List Nat) 0 ↔ a ∈ (wO.val x : Nat → List Nat) 1 := fun α x hm =>
  ((Family.C77_object_eq wO plain (made_session as) (Nat.zero_lt_of_lt hv) hv (s := (eqCall as).1) (o := (eqCall as).2.1) (q := (eqCall as).2.2) (said_ok h2)).1 α x hm).1

/-- C77_object_eq: the equality of the two object variables. -/
example : ∀ α x, fam.Model (wO.within.put (made pre77).1 { (eqCall pre77).1 with th := (eqCall pre77).2.1 }) (made pre77).2.1 α x → α.sat (eqCall pre77).2.2 →
    ∀ a, a ∈ (wO.val x : Nat → List Nat) 0 ↔ a ∈ (wO.val x : Nat → List Nat) 1 := eq_meets (by decide +kernel) (by decide +kernel)

/-- C78: `assume(b7)` is a legal call of the session, and returns. -/
example : ∃ S' out, (made (pre77 ++ post77)).1.step stdEnv lib.ops (.assume (pl 7)) = .ok (S', out) :=
  Family.C78_total plain (made_session _) (Sat.legalB_legal (by decide +kernel)) (LRA.mayB_may (by decide +kernel))

/-- C78 for the theories: at root level, with a solution. -/
example : ∃ s o n, OV.newVar stdEnv 0 (wO.within.view (made (pre77 ++ post77)).1) (wO.within.th (made (pre77 ++ post77)).1.th) [5, 6] true = .ok (s, o, n) := by
  obtain ⟨α, x, hm⟩ := model77
  exact (Family.C78_object_calls wO plain (made_session _) (by decide +kernel) hm).1 [5, 6] true (by simp)

/-- A session in which the search answers false has no solution. -/
theorem failed_none {as : List Act} (hd : (made as).1.dead = false) {k : Nat} (hk : ((made as).1.nvars + 2) ^ ((made as).1.dl + (made as).1.nvars + 1) ≤ k)
    (hs : (Sat.solve stdEnv lib.ops firstFree k (made as).1).toOption.map (·.2) = some false) : ¬ ∃ α x, fam.Model (made as).1 (made as).2.1 α x := by
  obtain ⟨S', b, h1, -, h3⟩ := Family.C79_decides plain (made_session as) hd firstFree_heuristic hk
  rw [h1] at hs
  injection hs with hs
  exact h3 hs

/-- `b2`, or both values of `b3`: with `x0 ≤ 0` imposed, no solution. -/
def none77 : List Act := pre77.take 4 ++ [.op .newVar, .op (.newClause [pl 2, pl 3]), .op (.newClause [pl 2, (pl 3).neg]), .ub false 0 (toLex (0, 0))]

/-- C79: the search says so. -/
example : ¬ ∃ α x, fam.Model (made none77).1 (made none77).2.1 α x := failed_none (k := 10 ^ 9) (by decide +kernel) (by decide +kernel) (by decide +kernel)

example : (runs none77 new).map (·.2) = some [.var 0, .var 0, .lit (pl 1), .lit (pl 2), .var 3, .bool true, .bool true, .bool true] := by decide +kernel

end Lib2
end Semitone

/-! ### With difference logic: the family of `Lib/Demo.lean` -/
namespace Semitone
namespace Lib
open Lin Comp
open LRA (stdL)

/-- The family of `Lib.lib`: linear arithmetic, integer and real difference logic, object variables. -/
def fam : Family stdEnv lib := .both (.arith stdL) (.both (.diff ℤ) (.both (.diff (ℚ ×ₗ ℤ)) (.object OV.idO)))

def hR : (Family.diff (E := stdEnv) (ℚ ×ₗ ℤ)).Has fam := .right (.right (.left .here))

/-- The call failed with `excluded`. -/
def excludedB {α : Type} : Except Err α → Bool
  | .error .excluded => true
  | _ => false

theorem excludedB_ne {α : Type} {x : Except Err α} (h : excludedB x = false) : x ≠ .error .excluded := by
  rintro rfl
  cases h

/-- The call is allowed, and tells no theory of difference logic a literal in an unsafe situation. -/
def Act.safeB (a : Act) (S : St) (d : Bool) : Bool :=
  match a with
  | .op o => LRA.mayB o d && S.legalB o && !excludedB (S.step stdEnv fam.safe o)
  | _ => true

/-- Whether something waits for a propagation. -/
def Act.after (a : Act) (d : Bool) : Bool :=
  match a with
  | .op o => LRA.pendingAfter o d
  | _ => true

theorem Act.run_sess {a : Act} {S S' : St} {U U' : List Fact} {d : Bool} {out : Sat.Out} (h : fam.Sess S (dat U) d) (hb : a.safeB S d = true) (hr : a.run S U = some ((S', U'), out)) : fam.Sess S' (dat U') (a.after d) := by
  rcases Act.run_split hr with ⟨o, e, eU, -, -, h3⟩ | ⟨h1, h2⟩
  · subst e eU
    unfold Act.safeB at hb
    simp only [Bool.and_eq_true, Bool.not_eq_true'] at hb
    exact .step h (Sat.legalB_legal hb.1.2) (LRA.mayB_may hb.1.1) (excludedB_ne hb.2) h3
  · cases a with
    | op o =>
      unfold Act.safeB at hb
      simp only [Bool.and_eq_true, Bool.not_eq_true'] at hb
      unfold Act.run at hr
      rw [if_neg (by rw [h1]; simp)] at hr
      simp only at hr
      split at hr
      · obtain ⟨⟨q1, q2⟩, k1, k2⟩ := Option.map_eq_some_iff.mp hr
        injection k2 with k2 k3; injection k2 with k2 k4; subst k2 k4
        exact .step h (Sat.legalB_legal hb.1.2) (LRA.mayB_may hb.1.1) (excludedB_ne hb.2) (toOption_some k1)
      · cases hr
    | _ => exact .theory h h1 h2 (.inl rfl)

/-- A list of calls, all safe. -/
def safeRuns : List Act → (St × List Fact) × Bool → Option ((St × List Fact) × Bool)
  | [], q => some q
  | a :: as, q =>
    if a.safeB q.1.1 q.2 then
      match a.run q.1.1 q.1.2 with
      | none => none
      | some (r, _) => safeRuns as (r, a.after q.2)
    else none

theorem safeRuns_sess : ∀ (as : List Act) (q r : (St × List Fact) × Bool), fam.Sess q.1.1 (dat q.1.2) q.2 → safeRuns as q = some r → fam.Sess r.1.1 (dat r.1.2) r.2
  | [], q, r, h, hr => by injection hr with e1; subst e1; exact h
  | a :: as, q, r, h, hr => by
    unfold safeRuns at hr
    split at hr
    · next hb =>
      split at hr
      · cases hr
      · next q1 out h1 => exact safeRuns_sess as _ _ (a.run_sess h hb h1) hr
    · cases hr

/-- The state after a list of safe calls. -/
def safeMade (as : List Act) : (St × List Fact) × Bool := (safeRuns as ((new, []), false)).getD ((new, []), false)

theorem safeMade_sess (as : List Act) : fam.Sess (safeMade as).1.1 (dat (safeMade as).1.2) (safeMade as).2 := by
  have h0 : fam.Sess new (dat []) false := .init (show lib.Start (LRA.init, DL.init 4, DL.init 4, OV.init) from ⟨rfl, ⟨4, by decide, rfl⟩, ⟨4, by decide, rfl⟩, rfl⟩)
  unfold safeMade
  match hr : safeRuns as ((new, []), false) with
  | none => exact h0
  | some q => exact safeRuns_sess as _ _ h0 hr

/-- All the calls of `pre75 ++ post75` are safe. -/
example : (safeRuns (pre75 ++ post75) ((new, []), false)).isSome = true := by decide +kernel

/-- A session in which the search is safe and answers true has a solution. -/
theorem safe_model {as : List Act} (hd : (safeMade as).1.1.dead = false) {k : Nat} (hk : ((safeMade as).1.1.nvars + 2) ^ ((safeMade as).1.1.dl + (safeMade as).1.1.nvars + 1) ≤ k)
    (ha : excludedB (Sat.solve stdEnv fam.safe firstFree k (safeMade as).1.1) = false) (hs : (Sat.solve stdEnv lib.ops firstFree k (safeMade as).1.1).toOption.map (·.2) = some true) :
    ∃ α x, fam.Model (safeMade as).1.1 (dat (safeMade as).1.2) α x := by
  obtain ⟨S', b, h1, h2, -⟩ := Family.C79_decides_partial (safeMade_sess as) hd firstFree_heuristic hk (excludedB_ne ha)
  rw [h1] at hs
  injection hs with hs
  obtain ⟨-, δ, h0, h3⟩ := h2 hs
  obtain ⟨⟨x, hx⟩, h4⟩ := h3 δ h0 le_rfl
  exact ⟨_, x, h4 x hx⟩

/-- C79_decides_partial: the session of `Lib/Demo.lean` has a solution over the four theories. -/
theorem model75 : ∃ α x, fam.Model (safeMade (pre75 ++ post75)).1.1 (dat (safeMade (pre75 ++ post75)).1.2) α x :=
  safe_model (k := 12 ^ 11) (by decide +kernel) (by decide +kernel) (by decide +kernel) (by decide +kernel)

def rdistCall (as : List Act) (w : ℚ ×ₗ ℤ) : Sat (DL (ℚ ×ₗ ℤ)) × Lit := said (DL.newDistance (hR.within.view (safeMade as).1.1) 0 1 w) (hR.within.view (safeMade as).1.1, TRUE_lit)

theorem rdist_meets {as : List Act} {w : ℚ ×ₗ ℤ} (hv : 1 < (hR.within.th (safeMade as).1.1.th).nv) (h2 : (DL.newDistance (hR.within.view (safeMade as).1.1) 0 1 w).toOption.isSome = true) (hd : (safeMade as).1.1.decisions = []) :
    ∀ α x, fam.Model (safeMade as).1.1 (dat (safeMade as).1.2) α x → ∃ β, fam.Model (hR.within.put (safeMade as).1.1 (rdistCall as w).1) (dat (safeMade as).1.2) β x ∧
      (β.sat (rdistCall as w).2 ↔ (hR.val x : Nat → ℚ ×ₗ ℤ) 1 - (hR.val x : Nat → ℚ ×ₗ ℤ) 0 ≤ w) := fun α x hm => by
  have h := Family.C77_distance_partial hR (safeMade_sess as) (s := (rdistCall as w).1) (p := (rdistCall as w).2) (Nat.zero_lt_of_lt hv) hv (said_ok h2)
  obtain ⟨β, -, k⟩ := h.2.2 α x hm
  exact ⟨β, k, h.1 β x k (fun l hl => by rw [hd] at hl; cases hl)⟩

/-- C77_distance_partial: a distance of the real difference-logic theory asked after the session. -/
example : ∃ β x, fam.Model (hR.within.put (safeMade (pre75 ++ post75)).1.1 (rdistCall (pre75 ++ post75) (toLex (9, 0))).1) (dat (safeMade (pre75 ++ post75)).1.2) β x ∧
      (β.sat (rdistCall (pre75 ++ post75) (toLex (9, 0))).2 ↔ (hR.val x : Nat → ℚ ×ₗ ℤ) 1 - (hR.val x : Nat → ℚ ×ₗ ℤ) 0 ≤ toLex (9, 0)) := by
  obtain ⟨α, x, hm⟩ := model75
  obtain ⟨β, k⟩ := rdist_meets (as := pre75 ++ post75) (w := toLex (9, 0)) (by decide +kernel) (by decide +kernel) (by decide +kernel) α x hm
  exact ⟨β, x, k⟩

end Lib
end Semitone
