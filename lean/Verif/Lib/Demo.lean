import Verif.Lib.Halt
import Verif.OV.Demo
import Verif.Mix.PlayDemo

/-!
# A concrete library for C75 and C76: linear arithmetic, integer and real difference logic and object variables on one core
-/
namespace Semitone
namespace Lib
open Lin Comp
open LRA (stdL canonB canonB_canon varsB varsB_vars)

/-- The four theories. -/
def lib : Comp (LRA × DL ℤ × DL (ℚ ×ₗ ℤ) × OV Nat) := (LRA.comp stdEnv stdL).prod ((DL.comp (W := ℤ) stdEnv).prod ((DL.comp (W := ℚ ×ₗ ℤ) stdEnv).prod (OV.comp stdEnv OV.idO)))

def wA : Within (LRA.comp stdEnv stdL) lib := .left .here
def wI : Within (DL.comp (W := ℤ) stdEnv) lib := .right (.left .here)
def wR : Within (DL.comp (W := ℚ ×ₗ ℤ) stdEnv) lib := .right (.right (.left .here))
def wO : Within (OV.comp stdEnv OV.idO) lib := .right (.right (.right .here))

abbrev St := Sat (LRA × DL ℤ × DL (ℚ ×ₗ ℤ) × OV Nat)

/-- One call of a concrete history. -/
inductive Act where
  | op (o : Sat.Op)
  | var
  | rel (R : LRA.Rel4) (l r : Lin)
  | ub (x : Nat) (v : IQ)
  | point
  | dist (i j : Nat) (w : ℤ)
  | rpoint
  | rdist (i j : Nat) (w : ℚ ×ₗ ℤ)
  | obj (items : List Nat)
  | objL (lits : List Lit) (vals : List Nat)
  | same (x y : Nat)

/-- `bind` is the call of the theories only. -/
def mayB : Sat.Op → Bool
  | .bind _ _ => false
  | _ => true

/-- The call returns, and what it returns. -/
def Act.run (a : Act) (S : St) (U : List Fact) : Option ((St × List Fact) × Sat.Out) :=
  if S.dead then none else
  match a with
  | .op o => if S.legalB o && mayB o then (S.step stdEnv lib.ops o).toOption.map (fun r => ((r.1, U), r.2)) else none
  | .var => some ((wA.put S { wA.view S with th := (wA.view S).th.newVar.1 }, U), .var (wA.view S).th.newVar.2)
  | .rel R l r =>
    if canonB l && canonB r && varsB (wA.view S).th l && varsB (wA.view S).th r then (LRA.newRel R (wA.view S) l r).toOption.map (fun q => ((wA.put S q.1, U), .lit q.2)) else none
  | .ub x v =>
    if (wA.view S).root && decide (x < (wA.view S).th.n) && decide ((wA.view S).value TRUE_lit = some true) && decide ((ofLex v).2 ≤ 0) then
      match LRA.setUbC stdEnv stdL (wA.view S) x v TRUE_lit with
      | .ok (s, none) => some ((wA.put S s, .hi TRUE_lit x v :: U), .bool true)
      | _ => none
    else none
  | .point => some ((wI.put S { wI.view S with th := (wI.view S).th.newVar.1 }, U), .var (wI.view S).th.newVar.2)
  | .dist i j w => if decide (i < (wI.view S).th.nv) && decide (j < (wI.view S).th.nv) then (DL.newDistance (wI.view S) i j w).toOption.map (fun q => ((wI.put S q.1, U), .lit q.2)) else none
  | .rpoint => some ((wR.put S { wR.view S with th := (wR.view S).th.newVar.1 }, U), .var (wR.view S).th.newVar.2)
  | .rdist i j w => if decide (i < (wR.view S).th.nv) && decide (j < (wR.view S).th.nv) then (DL.newDistance (wR.view S) i j w).toOption.map (fun q => ((wR.put S q.1, U), .lit q.2)) else none
  | .obj items => (OV.newVar stdEnv 0 (wO.view S) (wO.view S).th items true).toOption.map (fun q => ((wO.put S { q.1 with th := q.2.1 }, U), .var q.2.2))
  | .objL lits vals =>
    if lits.all (fun l => decide (l.var < (wO.view S).nvars)) then ((wO.view S).th.newVarLits lits vals).toOption.map (fun q => ((wO.put S { wO.view S with th := q.1 }, U), .var q.2)) else none
  | .same x y => (OV.newEq stdEnv OV.idO (wO.view S) (wO.view S).th x y).toOption.map (fun q => ((wO.put S { q.1 with th := q.2.1 }, U), .lit q.2.2))

/-- What was imposed on the theory of linear arithmetic. -/
abbrev dat (U : List Fact) : lib.Dat := (U, (), (), ())

theorem toOption_some {α : Type} {x : Except Err α} {a : α} (h : x.toOption = some a) : x = .ok a := by
  cases x with
  | error _ => cases h
  | ok b => injection h with h; rw [h]

theorem Act.run_split {a : Act} {S S' : St} {U U' : List Fact} {out : Sat.Out} (hr : a.run S U = some ((S', U'), out)) :
    (∃ o, a = .op o ∧ U' = U ∧ S.Legal o ∧ DL.MayCall o ∧ S.step stdEnv lib.ops o = .ok (S', out)) ∨ (S.dead = false ∧ lib.Call S (dat U) S' (dat U')) := by
  unfold Act.run at hr
  split at hr
  · cases hr
  next hd =>
  have hd : S.dead = false := by simpa using hd
  cases a with
  | op o =>
    simp only at hr
    split at hr
    · next hc =>
      rw [Bool.and_eq_true] at hc
      obtain ⟨⟨q1, q2⟩, h1, h2⟩ := Option.map_eq_some_iff.mp hr
      injection h2 with h2 h3; injection h2 with h2 h4; subst h2 h3 h4
      exact .inl ⟨o, rfl, rfl, Sat.legalB_legal hc.1, by cases o <;> simp_all [mayB, DL.MayCall], toOption_some h1⟩
    · cases hr
  | var =>
    injection hr with hr; injection hr with h2 h3; injection h2 with h2 h4; subst h2 h4
    exact .inr ⟨hd, wA.call (U := dat U) (u := U) LRA.Act.newVar⟩
  | rel R l r =>
    simp only at hr
    split at hr
    · next hc =>
      simp only [Bool.and_eq_true] at hc
      obtain ⟨⟨q1, q2⟩, h1, h2⟩ := Option.map_eq_some_iff.mp hr
      injection h2 with h2 h3; injection h2 with h2 h4; subst h2 h4
      exact .inr ⟨hd, wA.call (U := dat U) (u := U) (LRA.Act.newRel (canonB_canon hc.1.1.1) (canonB_canon hc.1.1.2) (varsB_vars hc.1.2) (varsB_vars hc.2) (toOption_some h1))⟩
    · cases hr
  | ub x v =>
    simp only at hr
    split at hr
    · next hc =>
      simp only [Bool.and_eq_true, decide_eq_true_eq] at hc
      split at hr
      · next s h1 =>
        injection hr with hr; injection hr with h2 h3; injection h2 with h2 h4; subst h2 h4
        exact .inr ⟨hd, wA.call (U := dat U) (u := _ :: U) (LRA.Act.setUb hc.1.1.1 hc.1.1.2 hc.1.2 hc.2 h1)⟩
      · cases hr
    · cases hr
  | point =>
    injection hr with hr; injection hr with h2 h3; injection h2 with h2 h4; subst h2 h4
    exact .inr ⟨hd, wI.call (U := dat U) (u := ()) DL.Act.newPoint⟩
  | dist i j w =>
    simp only at hr
    split at hr
    · next hc =>
      simp only [Bool.and_eq_true, decide_eq_true_eq] at hc
      obtain ⟨⟨q1, q2⟩, h1, h2⟩ := Option.map_eq_some_iff.mp hr
      injection h2 with h2 h3; injection h2 with h2 h4; subst h2 h4
      exact .inr ⟨hd, wI.call (U := dat U) (u := ()) (DL.Act.newDistance hc.1 hc.2 (toOption_some h1))⟩
    · cases hr
  | rpoint =>
    injection hr with hr; injection hr with h2 h3; injection h2 with h2 h4; subst h2 h4
    exact .inr ⟨hd, wR.call (U := dat U) (u := ()) DL.Act.newPoint⟩
  | rdist i j w =>
    simp only at hr
    split at hr
    · next hc =>
      simp only [Bool.and_eq_true, decide_eq_true_eq] at hc
      obtain ⟨⟨q1, q2⟩, h1, h2⟩ := Option.map_eq_some_iff.mp hr
      injection h2 with h2 h3; injection h2 with h2 h4; subst h2 h4
      exact .inr ⟨hd, wR.call (U := dat U) (u := ()) (DL.Act.newDistance hc.1 hc.2 (toOption_some h1))⟩
    · cases hr
  | obj items =>
    obtain ⟨⟨q1, q2, q3⟩, h1, h2⟩ := Option.map_eq_some_iff.mp hr
    injection h2 with h2 h3; injection h2 with h2 h4; subst h2 h4
    exact .inr ⟨hd, wO.call (U := dat U) (u := ()) (OV.Act.newVar (toOption_some h1))⟩
  | objL lits vals =>
    simp only at hr
    split at hr
    · next hc =>
      obtain ⟨⟨q1, q2⟩, h1, h2⟩ := Option.map_eq_some_iff.mp hr
      injection h2 with h2 h3; injection h2 with h2 h4; subst h2 h4
      exact .inr ⟨hd, wO.call (U := dat U) (u := ()) (OV.Act.newVarLits (fun l hl => by simpa using List.all_eq_true.mp hc l hl) (toOption_some h1))⟩
    · cases hr
  | same x y =>
    obtain ⟨⟨q1, q2, q3⟩, h1, h2⟩ := Option.map_eq_some_iff.mp hr
    injection h2 with h2 h3; injection h2 with h2 h4; subst h2 h4
    exact .inr ⟨hd, wO.call (U := dat U) (u := ()) (OV.Act.newEq (toOption_some h1))⟩

theorem Act.run_turn {a : Act} {S S' : St} {U U' : List Fact} {out : Sat.Out} (hr : a.run S U = some ((S', U'), out)) : Turn stdEnv lib S (dat U) S' (dat U') := by
  rcases Act.run_split hr with ⟨o, -, e, h1, h2, h3⟩ | ⟨h1, h2⟩
  · subst e; exact .step h1 h2 h3
  · exact .theory h1 h2

/-- A list of calls. -/
def runs : List Act → St → List Fact → Option ((St × List Fact) × List Sat.Out)
  | [], S, U => some ((S, U), [])
  | a :: as, S, U =>
    match a.run S U with
    | none => none
    | some ((S', U'), out) => (runs as S' U').map (fun r => (r.1, out :: r.2))

theorem runs_later {S0 : St} {U0 : List Fact} : ∀ (as : List Act) (S : St) (U : List Fact) (r : St × List Fact) (outs : List Sat.Out), Later stdEnv lib S0 (dat U0) S (dat U) →
    runs as S U = some (r, outs) → Later stdEnv lib S0 (dat U0) r.1 (dat r.2)
  | [], S, U, r, outs, h, hr => by injection hr with hr; injection hr with e1 e2; subst e1; exact h
  | a :: as, S, U, r, outs, h, hr => by
    unfold runs at hr
    split at hr
    · cases hr
    · next S1 U1 out h1 =>
      obtain ⟨⟨x, y⟩, h2, h3⟩ := Option.map_eq_some_iff.mp hr
      injection h3 with e1 e2; subst e1
      exact runs_later as _ _ _ _ (.call h (Act.run_turn h1)) h2

/-- A new core with the four theories. -/
def new : St := Sat.init (LRA.init, DL.init 4, DL.init 4, OV.init)

/-- The state after a list of calls. -/
def goOn (as : List Act) (r : St × List Fact) : St × List Fact := ((runs as r.1 r.2).map (·.1)).getD r

theorem goOn_later {as : List Act} {r : St × List Fact} : Later stdEnv lib r.1 (dat r.2) (goOn as r).1 (dat (goOn as r).2) := by
  unfold goOn
  match hr : runs as r.1 r.2 with
  | none => exact .refl
  | some q => exact runs_later as _ _ _ _ .refl hr

theorem made_play (as : List Act) : Play stdEnv lib (goOn as (new, [])).1 (dat (goOn as (new, [])).2) :=
  ⟨(LRA.init, DL.init 4, DL.init 4, OV.init), ⟨rfl, ⟨4, by decide, rfl⟩, ⟨4, by decide, rfl⟩, rfl⟩, goOn_later (r := (new, []))⟩

/-- An arithmetic variable `x0`; `b1`: `x0 ≤ 3`; a time point `tp1` and `b2`: `tp1 - tp0 ≤ 5`; a real time point and `b3`: `tp1 - tp0 ≤ 7/2`; an object variable with values 10, 11, 12 (`b4`, `b5`, `b6` and the literal
of the exactly-one constraint); another, whose values 10, 20, 21 depend on `b1`, `b2`, `b3`; `x0 ≤ 5` is imposed. -/
def pre75 : List Act := [.var, .rel .leq ⟨[(0, 1)], 0⟩ ⟨[], 3⟩, .point, .dist 0 1 5, .rpoint, .rdist 0 1 (toLex (7 / 2, 0)), .obj [10, 11, 12], .objL [pl 1, pl 2, pl 3] [10, 20, 21], .ub 0 (toLex (5, 0))]

/-- Their equality, a conjunction over three theories, propagation, decisions. -/
def post75 : List Act := [.same 0 1, .op (.newConj [pl 1, pl 2]), .op .propagate]


/-- Their answers: `b8` says that the two object variables are equal, `b9` is the conjunction. -/
example : (runs (pre75 ++ post75) new []).map (·.2) =
    some [.var 0, .lit (pl 1), .var 1, .lit (pl 2), .var 1, .lit (pl 3), .var 0, .var 1, .bool true, .lit (pl 8), .lit (pl 9), .bool true] := by decide +kernel

/-- What a call answers. -/
def said {α : Type} (x : Except Err α) (d : α) : α := x.toOption.getD d

theorem said_ok {α : Type} {x : Except Err α} {d : α} (h : x.toOption.isSome = true) : x = .ok (said x d) := by
  cases x with
  | error _ => cases h
  | ok b => rfl

/-- The last call: `assume(b8)`; it answers true and decides everything. -/
def lastB (r : St × List Fact) : Bool :=
  r.1.legalB (.assume (pl 8)) && decide ((r.1.step stdEnv lib.ops (.assume (pl 8))).toOption.map (fun q => (q.2, q.1.nvars, (List.range q.1.nvars).all (fun v => (q.1.assigns v).isSome))) = some (.bool true, 10, true))

def end75 (r : St × List Fact) : St := (said (r.1.step stdEnv lib.ops (.assume (pl 8))) (r.1, .unit)).1

theorem lastB_meets {r : St × List Fact} (h : lastB r = true) : r.1.Legal (.assume (pl 8)) ∧ r.1.step stdEnv lib.ops (.assume (pl 8)) = .ok (end75 r, .bool true) ∧ ∀ v, v < (end75 r).nvars → (end75 r).assigns v ≠ none := by
  unfold lastB at h
  rw [Bool.and_eq_true, decide_eq_true_eq] at h
  refine ⟨Sat.legalB_legal h.1, ?_⟩
  obtain ⟨⟨q1, q2⟩, h1, h2⟩ := Option.map_eq_some_iff.mp h.2
  have hq := toOption_some h1
  injection h2 with e1 e2
  injection e2 with e2 e3
  simp only at e1 e2 e3
  have he : end75 r = q1 := by unfold end75 said; rw [h1]; rfl
  rw [he]
  refine ⟨by rw [hq, e1], fun v hv hn => ?_⟩
  have := List.all_eq_true.mp e3 v (List.mem_range.mpr hv)
  rw [hn] at this
  cases this

/-- The state after a list of calls on the new core. -/
def at75 (as : List Act) : St × List Fact := goOn as (new, [])

/-- The call of `new_var` after `as`, and the session that then makes the calls `bs`. -/
def objCall (as : List Act) (items : List Nat) : Sat (OV Nat) × OV Nat × Nat := said (OV.newVar stdEnv 0 (wO.view (at75 as).1) (wO.th (at75 as).1.th) items true) (wO.view (at75 as).1, wO.th (at75 as).1.th, 0)
def objThen (as : List Act) (items : List Nat) (bs : List Act) : St × List Fact := goOn bs (wO.put (at75 as).1 { (objCall as items).1 with th := (objCall as items).2.1 }, (at75 as).2)

theorem obj_meets {as bs : List Act} {items : List Nat} (h1 : (at75 as).1.dead = false) (h2 : (OV.newVar stdEnv 0 (wO.view (at75 as).1) (wO.th (at75 as).1.th) items true).toOption.isSome = true)
    (h3 : lastB (objThen as items bs) = true) : ∃ a ∈ items, OV.value (end75 (objThen as items bs)) (wO.th (end75 (objThen as items bs)).th) (objCall as items).2.2 = [a] := by
  obtain ⟨k1, k2, k3⟩ := lastB_meets h3
  exact C75_object wO (made_play as) h1 (said_ok (d := (wO.view (at75 as).1, wO.th (at75 as).1.th, 0)) h2)
    (goOn_later (as := bs) (r := (wO.put (at75 as).1 { (objCall as items).1 with th := (objCall as items).2.1 }, (at75 as).2))) k1 (by simp [LRA.Propagates]) k2 k3

/-- The hypotheses of `C75_object` are met, and what it says: the first object variable takes one of its three values. -/
example : ∃ a ∈ [10, 11, 12], OV.value (end75 (objThen (pre75.take 6) [10, 11, 12] (pre75.drop 7 ++ post75))) (wO.th (end75 (objThen (pre75.take 6) [10, 11, 12] (pre75.drop 7 ++ post75))).th) (objCall (pre75.take 6) [10, 11, 12]).2.2 = [a] :=
  obj_meets (by decide +kernel) (by decide +kernel) (by decide +kernel)

def distCall (as : List Act) (w : ℚ ×ₗ ℤ) : Sat (DL (ℚ ×ₗ ℤ)) × Lit := said (DL.newDistance (wR.view (at75 as).1) 0 1 w) (wR.view (at75 as).1, TRUE_lit)
def distThen (as : List Act) (w : ℚ ×ₗ ℤ) (bs : List Act) : St × List Fact := goOn bs (wR.put (at75 as).1 (distCall as w).1, (at75 as).2)

theorem dist_meets {as bs : List Act} {w : ℚ ×ₗ ℤ} (h1 : (at75 as).1.dead = false) (hr : (at75 as).1.root = true) (hv : 1 < (wR.th (at75 as).1.th).nv) (h2 : (DL.newDistance (wR.view (at75 as).1) 0 1 w).toOption.isSome = true)
    (h3 : lastB (distThen as w bs) = true) : ∀ X, DL.Fits (wR.view (end75 (distThen as w bs))) X →
      (Asg.sat (fun v => (end75 (distThen as w bs)).assigns v = some true) (distCall as w).2 ↔ X 1 - X 0 ≤ w) := by
  obtain ⟨k1, k2, k3⟩ := lastB_meets h3
  intro X hX
  exact C75_distance wR (made_play as) h1 hr (Nat.zero_lt_of_lt hv) hv (said_ok (d := (wR.view (at75 as).1, TRUE_lit)) h2)
    (goOn_later (as := bs) (r := (wR.put (at75 as).1 (distCall as w).1, (at75 as).2))) k1 (by simp [LRA.Propagates]) k2 k3 hX

/-- Those of `C75_distance`, for the distances of the reals: `b3` is true exactly if `tp1 - tp0 ≤ 7/2`. -/
example : ∀ X, DL.Fits (wR.view (end75 (distThen (pre75.take 5) (toLex (7 / 2, 0)) (pre75.drop 6 ++ post75)))) X →
    (Asg.sat (fun v => (end75 (distThen (pre75.take 5) (toLex (7 / 2, 0)) (pre75.drop 6 ++ post75))).assigns v = some true) (distCall (pre75.take 5) (toLex (7 / 2, 0))).2 ↔ X 1 - X 0 ≤ toLex (7 / 2, 0)) :=
  dist_meets (by decide +kernel) (by decide +kernel) (by decide +kernel) (by decide +kernel) (by decide +kernel)

def relCall (as : List Act) (l r : Lin) : Sat LRA × Lit := said (LRA.newRel .leq (wA.view (at75 as).1) l r) (wA.view (at75 as).1, TRUE_lit)
def relThen (as : List Act) (l r : Lin) (bs : List Act) : St × List Fact := goOn bs (wA.put (at75 as).1 (relCall as l r).1, (at75 as).2)

theorem rel_meets {as bs : List Act} {l r : Lin} (h1 : (at75 as).1.dead = false) (hr : (at75 as).1.root = true) (hl : canonB l = true) (hr' : canonB r = true) (hlv : varsB (wA.th (at75 as).1.th) l = true)
    (hrv : varsB (wA.th (at75 as).1.th) r = true) (h2 : (LRA.newRel .leq (wA.view (at75 as).1) l r).toOption.isSome = true) (h3 : lastB (relThen as l r bs) = true) :
    ∃ δ0 : ℚ, 0 < δ0 ∧ ∀ δ, 0 < δ → δ ≤ δ0 → (Asg.sat (fun v => (end75 (relThen as l r bs)).assigns v = some true) (relCall as l r).2 ↔
      LRA.Rel4.leq.holds (l.eval 1 (LRA.withEps δ (wA.th (end75 (relThen as l r bs)).th).vals)) (r.eval 1 (LRA.withEps δ (wA.th (end75 (relThen as l r bs)).th).vals))) := by
  obtain ⟨k1, k2, k3⟩ := lastB_meets h3
  exact C75_arith wA (made_play as) h1 hr (canonB_canon hl) (canonB_canon hr') (varsB_vars hlv) (varsB_vars hrv) (said_ok (d := (wA.view (at75 as).1, TRUE_lit)) h2)
    (goOn_later (as := bs) (r := (wA.put (at75 as).1 (relCall as l r).1, (at75 as).2))) k1 (by simp [LRA.Propagates]) k2 k3

/-- Those of `C75_arith`: `b1` is true exactly if `x0 ≤ 3`. -/
example : ∃ δ0 : ℚ, 0 < δ0 ∧ ∀ δ, 0 < δ → δ ≤ δ0 → (Asg.sat (fun v => (end75 (relThen (pre75.take 1) ⟨[(0, 1)], 0⟩ ⟨[], 3⟩ (pre75.drop 2 ++ post75))).assigns v = some true) (relCall (pre75.take 1) ⟨[(0, 1)], 0⟩ ⟨[], 3⟩).2 ↔
    LRA.Rel4.leq.holds ((⟨[(0, 1)], 0⟩ : Lin).eval 1 (LRA.withEps δ (wA.th (end75 (relThen (pre75.take 1) ⟨[(0, 1)], 0⟩ ⟨[], 3⟩ (pre75.drop 2 ++ post75))).th).vals))
      ((⟨[], 3⟩ : Lin).eval 1 (LRA.withEps δ (wA.th (end75 (relThen (pre75.take 1) ⟨[(0, 1)], 0⟩ ⟨[], 3⟩ (pre75.drop 2 ++ post75))).th).vals))) :=
  rel_meets (by decide +kernel) (by decide +kernel) (by decide +kernel) (by decide +kernel) (by decide +kernel) (by decide +kernel) (by decide +kernel) (by decide +kernel)

def eqCall (as : List Act) : Sat (OV Nat) × OV Nat × Lit := said (OV.newEq stdEnv OV.idO (wO.view (at75 as).1) (wO.th (at75 as).1.th) 0 1) (wO.view (at75 as).1, wO.th (at75 as).1.th, TRUE_lit)
def eqThen (as bs : List Act) : St × List Fact := goOn bs (wO.put (at75 as).1 { (eqCall as).1 with th := (eqCall as).2.1 }, (at75 as).2)

theorem eq_meets {as bs : List Act} (h1 : (at75 as).1.dead = false) (hv : 1 < (wO.th (at75 as).1.th).doms.length) (h2 : (OV.newEq stdEnv OV.idO (wO.view (at75 as).1) (wO.th (at75 as).1.th) 0 1).toOption.isSome = true)
    (h3 : lastB (eqThen as bs) = true) : Asg.sat (fun v => (end75 (eqThen as bs)).assigns v = some true) (eqCall as).2.2 →
      ∀ a, a ∈ OV.value (end75 (eqThen as bs)) (wO.th (end75 (eqThen as bs)).th) 0 ↔ a ∈ OV.value (end75 (eqThen as bs)) (wO.th (end75 (eqThen as bs)).th) 1 := by
  obtain ⟨k1, k2, k3⟩ := lastB_meets h3
  exact (C75_object_eq wO (made_play as) h1 (Nat.zero_lt_of_lt hv) hv (said_ok (d := (wO.view (at75 as).1, wO.th (at75 as).1.th, TRUE_lit)) h2)
    (goOn_later (as := bs) (r := (wO.put (at75 as).1 { (eqCall as).1 with th := (eqCall as).2.1 }, (at75 as).2))) k1 (by simp [LRA.Propagates]) k2 k3).1

/-- Those of `C75_object_eq`: `b8`. -/
example : Asg.sat (fun v => (end75 (eqThen pre75 (post75.drop 1))).assigns v = some true) (eqCall pre75).2.2 →
    ∀ a, a ∈ OV.value (end75 (eqThen pre75 (post75.drop 1))) (wO.th (end75 (eqThen pre75 (post75.drop 1))).th) 0 ↔ a ∈ OV.value (end75 (eqThen pre75 (post75.drop 1))) (wO.th (end75 (eqThen pre75 (post75.drop 1))).th) 1 :=
  eq_meets (by decide +kernel) (by decide +kernel) (by decide +kernel) (by decide +kernel)

/-- What is then reported: the common value 10; `b8` and `b1` are true, `b2` and `b3` false. -/
example : let e := end75 (goOn (pre75 ++ post75) (new, []))
    (List.range 10).map e.assigns = [some false, some true, some false, some false, some true, some false, some false, some true, some true, some false] ∧ OV.value e (wO.th e.th) 0 = [10] ∧ OV.value e (wO.th e.th) 1 = [10] := by
  decide +kernel

/-- C76: a client deciding the first free variable stops, and answers true. -/
example : let r := goOn (pre75 ++ post75) (new, [])
    (Sat.solve stdEnv lib.ops firstFree 20 r.1).toOption.map (fun q => (q.2, (List.range 10).map q.1.assigns, OV.value q.1 (wO.th q.1.th) 0, OV.value q.1 (wO.th q.1.th) 1)) =
      some (true, [some false, some true, some true, some true, some false, some true, some false, some true, some false, some true], [11], [10, 20, 21]) := by
  decide +kernel

example : let r := goOn (pre75 ++ post75) (new, [])
    Sat.solve stdEnv lib.ops firstFree (12 ^ 11) r.1 ≠ .error .fuel :=
  (C76_stops (made_play _) (by decide +kernel) firstFree_heuristic (by decide +kernel)).1

end Lib
end Semitone
