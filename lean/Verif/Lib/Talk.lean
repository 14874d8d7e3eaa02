import Verif.Lib.Families

/-!
# What the client has asked for

`Said f`: one request of the client, with what was returned to it. `Said.holds`: what the request means, for a truth assignment `α` of the variables of the core and values `x` of the variables of the theories. It refers neither to the
state of the solver nor to what it computes: a sequence of requests is a problem, `Meets tr α x` are its solutions.

`Talk f tr S U d`: a client that sends the requests `tr` (the last one first) to a new solver, in any order, with any amount of search between them (`assume`, `pop`, `propagate`, `check`, `simplify_db`), can bring it to the state `S`.
Requests use only what earlier requests returned.
-/
namespace Semitone
namespace Family
open Lin
variable {E : Env} {T : Type} {C : Comp T}

/-- A request, with what was returned. -/
inductive Said (f : Family E C) : Type 1
  /-- `sat_core::new_var()` returned `v` -/
  | bool (v : Nat)
  /-- `sat_core::new_clause(ls)`; or `sat_core::next()`, `ls` being the opposites of the decisions -/
  | clause (ls : List Lit)
  /-- `sat_core::new_conj(ls)` returned `p` -/
  | conj (ls : List Lit) (p : Lit)
  /-- `sat_core::new_disj(ls)` returned `p` -/
  | disj (ls : List Lit) (p : Lit)
  /-- `lra_theory::new_var()` returned `y` -/
  | num {L : LEnv} (W : (Family.arith L).Has f) (y : Nat)
  /-- `lra_theory::new_var(l)` returned `y` -/
  | defn {L : LEnv} (W : (Family.arith L).Has f) (l : Lin) (y : Nat)
  /-- `lra_theory::new_lt`, `new_leq`, `new_geq` or `new_gt` on `l` and `r` returned `p` -/
  | rel {L : LEnv} (W : (Family.arith L).Has f) (R : LRA.Rel4) (l r : Lin) (p : Lit)
  /-- `lra_theory::new_eq(l, r)` returned `p` -/
  | equal {L : LEnv} (W : (Family.arith L).Has f) (l r : Lin) (p : Lit)
  /-- `lra_theory::set_lb(y, v)` returned true -/
  | atLeast {L : LEnv} (W : (Family.arith L).Has f) (y : Nat) (v : IQ)
  /-- `lra_theory::set_ub(y, v)` returned true -/
  | atMost {L : LEnv} (W : (Family.arith L).Has f) (y : Nat) (v : IQ)
  /-- `ov_theory::new_var(items)` (enforcing exactly one value) returned `y` -/
  | obj {A : Type} [DecidableEq A] {D : OEnv A} (W : (Family.object (E := E) D).Has f) (items : List A) (y : Nat)
  /-- `ov_theory::allows(v, a)` returned `p` -/
  | allows {A : Type} [DecidableEq A] {D : OEnv A} (W : (Family.object (E := E) D).Has f) (v : Nat) (a : A) (p : Lit)
  /-- `ov_theory::new_eq(v, w)` returned `p` -/
  | same {A : Type} [DecidableEq A] {D : OEnv A} (W : (Family.object (E := E) D).Has f) (v w : Nat) (p : Lit)
  /-- `new_var()` of a theory of difference logic (`idl_theory`, `rdl_theory`) returned the time point `i` -/
  | point {R : Type} [AddCommGroup R] [LinearOrder R] [IsOrderedAddMonoid R] [Dom R] (W : (Family.diff (E := E) R).Has f) (i : Nat)
  /-- `new_distance(i, j, w)` of a theory of difference logic returned `p` -/
  | apart {R : Type} [AddCommGroup R] [LinearOrder R] [IsOrderedAddMonoid R] [Dom R] (W : (Family.diff (E := E) R).Has f) (i j : Nat) (w : R) (p : Lit)
  /-- `idl_theory::new_lt`, `new_leq`, `new_eq`, `new_geq` or `new_gt` on `l` and `r` returned `p` -/
  | between (W : (Family.diff (E := E) ℤ).Has f) (R : DL.Rel) (l r : Lin) (p : Lit)

variable {f : Family E C}

/-- What a request means. In relations of integer difference logic, the position of a time point is counted from the origin, time point 0. -/
def Said.holds (α : Asg) (x : C.Val) : Said f → Prop
  | .bool _ => True
  | .clause ls => ∃ l ∈ ls, α.sat l
  | .conj ls p => α.sat p ↔ ∀ l ∈ ls, α.sat l
  | .disj ls p => α.sat p ↔ ∃ l ∈ ls, α.sat l
  | .num _ _ => True
  | .defn W l y => (W.val x : Nat → ℚ) y = l.eval 1 (W.val x : Nat → ℚ)
  | .rel W R l r p => α.sat p ↔ R.holds (l.eval 1 (W.val x : Nat → ℚ)) (r.eval 1 (W.val x : Nat → ℚ))
  | .equal W l r p => α.sat p ↔ l.eval 1 (W.val x : Nat → ℚ) = r.eval 1 (W.val x : Nat → ℚ)
  | .atLeast W y v => v ≤ IQ.ofQ ((W.val x : Nat → ℚ) y)
  | .atMost W y v => IQ.ofQ ((W.val x : Nat → ℚ) y) ≤ v
  | @Said.obj _ _ _ _ A _ _ W items y => ∃ a ∈ items, (W.val x : Nat → List A) y = [a]
  | @Said.allows _ _ _ _ A _ _ W v a p => α.sat p ↔ (W.val x : Nat → List A) v = [a]
  | @Said.same _ _ _ _ A _ _ W v w p => α.sat p ↔ (W.val x : Nat → List A) v = (W.val x : Nat → List A) w
  | @Said.point _ _ _ _ _ _ _ _ _ _ _ => True
  | @Said.apart _ _ _ _ R _ _ _ _ W i j w p => α.sat p ↔ (W.val x : Nat → R) j - (W.val x : Nat → R) i ≤ w
  | .between W R l r p => α.sat p ↔ R.holds (l.eval 1 (fun i => (((W.val x : Nat → ℤ) i - (W.val x : Nat → ℤ) 0 : ℤ) : ℚ))) (r.eval 1 (fun i => (((W.val x : Nat → ℤ) i - (W.val x : Nat → ℤ) 0 : ℤ) : ℚ)))

/-- The solutions of the problem that the requests make (variable 0 of the core is the constant false). -/
def Meets (tr : List (Said f)) (α : Asg) (x : C.Val) : Prop := α 0 = false ∧ ∀ e ∈ tr, e.holds α x

/-! ### What the client knows -/

/-- The variable of the core that was returned. -/
def Said.lit? : Said f → Option Nat
  | .bool v => some v
  | .conj _ p | .disj _ p | .rel _ _ _ _ p | .equal _ _ _ p | .between _ _ _ _ p | @Said.allows _ _ _ _ _ _ _ _ _ _ p | @Said.same _ _ _ _ _ _ _ _ _ _ p | @Said.apart _ _ _ _ _ _ _ _ _ _ _ _ _ p => some p.var
  | _ => none

/-- The client knows this variable of the core. -/
def Known (tr : List (Said f)) (v : Nat) : Prop := v = 0 ∨ ∃ e ∈ tr, e.lit? = some v

/-- The client knows this variable of a theory of linear arithmetic. -/
def KnownNum (tr : List (Said f)) {L : LEnv} (W : (Family.arith L).Has f) (y : Nat) : Prop := Said.num W y ∈ tr ∨ ∃ l, Said.defn W l y ∈ tr

/-- The client knows this object variable. -/
def KnownObj (tr : List (Said f)) {A : Type} [DecidableEq A] {D : OEnv A} (W : (Family.object (E := E) D).Has f) (y : Nat) : Prop := ∃ items, Said.obj W items y ∈ tr

/-! ### The calls -/

/-- Calls that ask for nothing. -/
def Searches : Sat.Op → Prop
  | .assume _ | .pop | .propagate | .check _ | .simplify | .listen _ _ => True
  | _ => False

/-- The requests to the core: call, what it returned, request. -/
inductive AsksCore (f : Family E C) (tr : List (Said f)) : Sat.Op → Sat.Out → Said f → Prop
  | bool {v} : AsksCore f tr .newVar (.var v) (.bool v)
  | clause {ls b} : (∀ l ∈ ls, Known tr l.var) → AsksCore f tr (.newClause ls) (.bool b) (.clause ls)
  | conj {ls p} : (∀ l ∈ ls, Known tr l.var) → AsksCore f tr (.newConj ls) (.lit p) (.conj ls p)
  | disj {ls p} : (∀ l ∈ ls, Known tr l.var) → AsksCore f tr (.newDisj ls) (.lit p) (.disj ls p)

/-- The requests to the theories, at root level: state, what was imposed so far, request, state, what is imposed. -/
inductive AsksTheory (f : Family E C) (tr : List (Said f)) (S : Sat T) (U : C.Dat) : Said f → Sat T → C.Dat → Prop
  | num {L : LEnv} (W : (Family.arith L).Has f) :
      AsksTheory f tr S U (.num W (W.within.view S).th.newVar.2) (W.within.put S { W.within.view S with th := (W.within.view S).th.newVar.1 }) U
  | defn {L : LEnv} (W : (Family.arith L).Has f) {l t y} : l.Canon → (∀ w ∈ keys l.vars, KnownNum tr W w) → (∀ w ∈ keys l.vars, (W.within.view S).th.row w = none) → l.kt = 0 →
      (W.within.view S).th.newVarL S.root l = .ok (t, y) → AsksTheory f tr S U (.defn W l y) (W.within.put S { W.within.view S with th := t }) U
  | rel {L : LEnv} (W : (Family.arith L).Has f) {R l r s p} : l.Canon → r.Canon → (∀ w ∈ keys l.vars, KnownNum tr W w) → (∀ w ∈ keys r.vars, KnownNum tr W w) →
      LRA.newRel R (W.within.view S) l r = .ok (s, p) → AsksTheory f tr S U (.rel W R l r p) (W.within.put S s) U
  | equal {L : LEnv} (W : (Family.arith L).Has f) {l r s p} : l.Canon → r.Canon → (∀ w ∈ keys l.vars, KnownNum tr W w) → (∀ w ∈ keys r.vars, KnownNum tr W w) →
      LRA.newEqL E (W.within.view S) l r = .ok (s, p) → AsksTheory f tr S U (.equal W l r p) (W.within.put S s) U
  | atLeast {L : LEnv} (W : (Family.arith L).Has f) {y v p s} : KnownNum tr W y → S.value p = some true → 0 ≤ (ofLex v).2 → LRA.setLbC E L (W.within.view S) y v p = .ok (s, none) →
      AsksTheory f tr S U (.atLeast W y v) (W.within.put S s) (W.within.setDat U (Fact.lo p y v :: W.within.dat U : List Fact))
  | atMost {L : LEnv} (W : (Family.arith L).Has f) {y v p s} : KnownNum tr W y → S.value p = some true → (ofLex v).2 ≤ 0 → LRA.setUbC E L (W.within.view S) y v p = .ok (s, none) →
      AsksTheory f tr S U (.atMost W y v) (W.within.put S s) (W.within.setDat U (Fact.hi p y v :: W.within.dat U : List Fact))
  | obj {A : Type} [DecidableEq A] {D : OEnv A} (W : (Family.object (E := E) D).Has f) {items s o y} : OV.newVar E 0 (W.within.view S) (W.within.view S).th items true = .ok (s, o, y) →
      AsksTheory f tr S U (.obj W items y) (W.within.put S { s with th := o }) U
  | same {A : Type} [DecidableEq A] {D : OEnv A} (W : (Family.object (E := E) D).Has f) {v w s o p} : KnownObj tr W v → KnownObj tr W w →
      OV.newEq E D (W.within.view S) (W.within.view S).th v w = .ok (s, o, p) → AsksTheory f tr S U (.same W v w p) (W.within.put S { s with th := o }) U
  | point {R : Type} [AddCommGroup R] [LinearOrder R] [IsOrderedAddMonoid R] [Dom R] (W : (Family.diff (E := E) R).Has f) :
      AsksTheory f tr S U (.point W (W.within.view S).th.newVar.2) (W.within.put S { W.within.view S with th := (W.within.view S).th.newVar.1 }) U
  | apart {R : Type} [AddCommGroup R] [LinearOrder R] [IsOrderedAddMonoid R] [Dom R] (W : (Family.diff (E := E) R).Has f) {i j w s p} : i < (W.within.th S.th).nv → j < (W.within.th S.th).nv →
      DL.newDistance (W.within.view S) i j w = .ok (s, p) → AsksTheory f tr S U (.apart W i j w p) (W.within.put S s) U
  /-- not `new_gt` when `l - r` is `c (x - y) + k` with `c > 0`: its literal is wrong (`DL.C33_new_gt_wrong`) -/
  | between (W : (Family.diff (E := E) ℤ).Has f) {R l r s p} : l.Canon → r.Canon → (∀ t ∈ l.vars, t.1 < (W.within.th S.th).nv) → (∀ t ∈ r.vars, t.1 < (W.within.th S.th).nv) →
      (R = .gt → ¬ ∃ a b c c', 0 < c ∧ (l.sub r).vars = [(a, c), (b, c')]) → DL.newRel E R (W.within.view S) l r = .ok (s, p) → AsksTheory f tr S U (.between W R l r p) (W.within.put S s) U

/-- The states to which the requests `tr` can bring a new solver. `U`, `d`: as in `Comp.Session`; `O`: the theories, as the core calls them. -/
inductive TalkOn (f : Family E C) (O : TheoryOps T) : List (Said f) → Sat T → C.Dat → Bool → Prop
  | init {t} : C.Start t → TalkOn f O [] (Sat.init t) C.d0 false
  | search {tr S U d op S' out} : TalkOn f O tr S U d → Searches op → S.Legal op → LRA.MayCall op d → S.step E O op = .ok (S', out) → TalkOn f O tr S' U (LRA.pendingAfter op d)
  | core {tr S U d op S' out e} : TalkOn f O tr S U d → AsksCore f tr op out e → S.Legal op → LRA.MayCall op d → S.step E O op = .ok (S', out) → TalkOn f O (e :: tr) S' U (LRA.pendingAfter op d)
  | theory {tr S U d S' U' d' e} : TalkOn f O tr S U d → S.dead = false → S.root = true → AsksTheory f tr S U e S' U' → (d' = true ∨ U' = U ∧ d' = d) → TalkOn f O (e :: tr) S' U' d'
  | next {tr S U d S' out} : TalkOn f O tr S U d → S.root = false → (∀ l ∈ S.decisions, Known tr l.var) → S.Legal .next → LRA.MayCall .next d → S.step E O .next = .ok (S', out) →
      TalkOn f O (.clause (S.decisions.map Lit.neg) :: tr) S' U (LRA.pendingAfter .next d)
  | allows {tr S U d} {A : Type} [DecidableEq A] {D : OEnv A} (W : (Family.object (E := E) D).Has f) {v : Nat} {a : A} : TalkOn f O tr S U d → S.dead = false → KnownObj tr W v →
      TalkOn f O (.allows W v a ((W.within.th S.th).allows v a) :: tr) S U d

/-- The states to which the requests `tr` can bring a new solver. -/
abbrev Talk (f : Family E C) : List (Said f) → Sat T → C.Dat → Bool → Prop := TalkOn f C.ops

/-- The same, as long as no theory of difference logic is told a literal in an unsafe situation (`Family.safe`). -/
abbrev SafeTalk (f : Family E C) : List (Said f) → Sat T → C.Dat → Bool → Prop := TalkOn f f.safe

end Family
end Semitone
