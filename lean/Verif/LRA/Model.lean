import Verif.Lin.Model
import Mathlib.Algebra.Order.Monoid.Prod
import Mathlib.Algebra.Order.Module.Synonym
import Mathlib.Algebra.Module.Prod
import Mathlib.Order.WithBot

/-!
# Model of the linear-arithmetic theory

Model of `/repo/src/arith/lra/lra_theory.cpp`, `/repo/src/arith/lra/lra_constraint.cpp` and their headers.

* `utils::inf_rational` (external library) is `IQ = ℚ ×ₗ ℚ`: a rational and the coefficient of the infinitesimal, ordered lexicographically,
  with exact arithmetic. Its infinite values occur only as bounds; they are the `⊥` of `WithBot` and the `⊤` of `WithTop`.
* `std::map<var, row *> tableau` is the function `row`; it is traversed in increasing order of the basic variables. A row object is
  identified by its basic variable.
* `std::unordered_set<row *>` (`t_watches`) is a list without repetitions, traversed in an arbitrary order (`LEnv`).
* The keys of `exprs` and `s_asrts` are strings in the code; here they are the expressions and assertions themselves (that is, printing is
  assumed injective; the printing of rationals is in an external library).
* Not modelled: what the callbacks of value listeners do, `to_json`.
Line numbers refer to `lra_theory.cpp` unless another file is named.
-/
namespace Semitone

/-- Finite values of `utils::inf_rational` (external library; used by `lra_theory.h:212-219`). -/
abbrev IQ := ℚ ×ₗ ℚ

namespace IQ
/-- `inf_rational(r, i)`. -/
def mk (r i : ℚ) : IQ := toLex (r, i)
/-- `inf_rational(r)`. -/
def ofQ (r : ℚ) : IQ := mk r 0
/-- The number one. -/
def one : IQ := ofQ 1
/-- The infinitesimal, `inf_rational(0, 1)`. -/
def eps : IQ := mk 0 1
end IQ

namespace Lin
/-- `vars.at(v)`, `vars.find(v)`. -/
def coef (a : Lin) (v : Nat) : Option ℚ := a.vars.lookup v
/-- `vars.erase(v)`. -/
def erase (a : Lin) (v : Nat) : Lin := ⟨a.vars.filter (fun t => t.1 ≠ v), a.kt⟩
end Lin

/-- The order in which an `unordered_set` is traversed (`t_watches`, `lra_theory.h:225`). -/
structure LEnv where
  ord : List Nat → List Nat
  perm : ∀ l, (ord l).Perm l

/-- `class assertion` (`lra_constraint.h:23-44`): the literal `⟨b, true⟩` controls `x <= v` (`le`) or `x >= v`. -/
structure Asrt where
  le : Bool
  b : Nat
  x : Nat
  v : IQ
deriving DecidableEq

/-- One element of `layers` (`lra_theory.h:226`): the bounds saved at this level, with their reasons. `none`: no entry in the map. -/
structure LLayer where
  lo : Nat → Option (WithBot IQ × Lit)
  hi : Nat → Option (WithTop IQ × Lit)

/-- A bound imposed on a variable as long as a literal is true (ghost: the arguments of `set_lb`, `set_ub`, `lra_theory.h:164-166`). -/
inductive Fact where
  | lo (p : Lit) (x : Nat) (v : WithBot IQ)
  | hi (p : Lit) (x : Nat) (v : WithTop IQ)

/-- `class lra_theory` (`lra_theory.h:18-228`). `lo`, `loR`, `hi`, `hiR` are the two halves of `c_bounds` and their reasons. `defs` and `facts` are ghosts: the
definitions made by `new_var(l)`, and the bounds imposed otherwise than by an assertion (initial bounds of a derived variable, `set_lb`, `set_ub`). `lst` is `listening`;
`told` is a ghost: the calls `l->lra_value_change(v)` made so far, with the value of `v` that the listener can read at that moment, newest first. -/
structure LRA where
  n : Nat
  lo : Nat → WithBot IQ
  loR : Nat → Lit
  hi : Nat → WithTop IQ
  hiR : Nat → Lit
  vals : Nat → IQ
  row : Nat → Option Lin
  exprs : List (Lin × Nat)
  sas : List ((Bool × Nat × IQ) × Lit)
  vas : Nat → Option Asrt
  aw : Nat → List Asrt
  tw : Nat → List Nat
  layers : List LLayer
  defs : List (Nat × Lin)
  facts : List Fact
  lst : Nat → List Nat
  told : List (Nat × Nat × IQ)

namespace LRA

/-- `lra_theory::lra_theory(sat)` (line 9). -/
def init : LRA :=
  { n := 0, lo := fun _ => ⊥, loR := fun _ => TRUE_lit, hi := fun _ => ⊤, hiR := fun _ => TRUE_lit, vals := fun _ => 0, row := fun _ => none, exprs := [],
    sas := [], vas := fun _ => none, aw := fun _ => [], tw := fun _ => [], layers := [], defs := [], facts := [], lst := fun _ => [], told := [] }

/-- `is_basic(v)` (`lra_theory.h:33`). -/
def basic (t : LRA) (v : Nat) : Bool := (t.row v).isSome

/-- `lra_theory::new_var()` (`lra_theory.cpp:28-39`). -/
def newVar (t : LRA) : LRA × Nat :=
  ({ t with
      n := t.n + 1
      lo := upd t.lo t.n ⊥
      loR := upd t.loR t.n TRUE_lit
      hi := upd t.hi t.n ⊤
      hiR := upd t.hiR t.n TRUE_lit
      vals := upd t.vals t.n 0
      exprs := (Lin.ofVar t.n 1, t.n) :: t.exprs
      aw := upd t.aw t.n []
      tw := upd t.tw t.n [] }, t.n)

/-- A coefficient times a lower bound (positive coefficient) or an upper bound, as a contribution to a lower bound: `(is_positive(c) ? lb(v) : ub(v)) * c` (`lra_theory.h:108`, `136`). -/
def termLo (t : LRA) (x : Nat × ℚ) : WithBot IQ :=
  if 0 < x.2 then
    match t.lo x.1 with
    | ⊥ => ⊥
    | (a : IQ) => ((x.2 • a : IQ) : WithBot IQ)
  else
    match t.hi x.1 with
    | ⊤ => ⊥
    | (a : IQ) => ((x.2 • a : IQ) : WithBot IQ)

/-- `(is_positive(c) ? ub(v) : lb(v)) * c` (`lra_theory.h:121`, `137`). -/
def termHi (t : LRA) (x : Nat × ℚ) : WithTop IQ :=
  if 0 < x.2 then
    match t.hi x.1 with
    | ⊤ => ⊤
    | (a : IQ) => ((x.2 • a : IQ) : WithTop IQ)
  else
    match t.lo x.1 with
    | ⊥ => ⊤
    | (a : IQ) => ((x.2 • a : IQ) : WithTop IQ)

/-- `lb(const lin &)` (`lra_theory.h:104-115`): known term plus contributions. -/
def lbL (t : LRA) (l : Lin) : WithBot IQ := l.vars.foldl (fun b x => b + t.termLo x) ((IQ.ofQ l.kt : IQ) : WithBot IQ)
/-- `ub(const lin &)` (`lra_theory.h:117-128`). -/
def ubL (t : LRA) (l : Lin) : WithTop IQ := l.vars.foldl (fun b x => b + t.termHi x) ((IQ.ofQ l.kt : IQ) : WithTop IQ)
/-- `bounds(const lin &)` (`lra_theory.h:130-145`). -/
def boundsL (t : LRA) (l : Lin) : WithBot IQ × WithTop IQ := (t.lbL l, t.ubL l)
/-- `value(const lin &)` (`lra_theory.h:147-153`). -/
def valL (t : LRA) (l : Lin) : IQ := l.vars.foldl (fun b x => b + x.2 • t.vals x.1) (IQ.ofQ l.kt)

/-- Comparison of a lower bound with an upper bound (`<=` of `inf_rational`, external library). -/
def leBT : WithBot IQ → WithTop IQ → Bool
  | ⊥, _ => true
  | (_ : IQ), ⊤ => true
  | (a : IQ), (b : IQ) => decide (a ≤ b)

/-- The strict comparison (`lra_theory.h:199`). -/
def ltBT : WithBot IQ → WithTop IQ → Bool
  | ⊥, _ => true
  | (_ : IQ), ⊤ => true
  | (a : IQ), (b : IQ) => decide (a < b)

/-- `lra_theory::matches` (`lra_theory.cpp:232-237`). -/
def matchesL (t : LRA) (l0 l1 : Lin) : Bool := leBT (t.lbL l1) (t.ubL l0) && leBT (t.lbL l0) (t.ubL l1)

/-- Insertion into a set of watching rows (`t_watches[v].insert`, `lra_theory.cpp:487-488`). -/
def ins (r : Nat) (l : List Nat) : List Nat := if r ∈ l then l else r :: l

/-- `lra_theory::new_row` (`lra_theory.cpp:483-489`). -/
def newRow (t : LRA) (x : Nat) (l : Lin) : LRA :=
  { t with
    row := upd t.row x (some l)
    tw := fun v => if v ∈ l.vars.map Prod.fst then ins x (t.tw v) else t.tw v }

/-- `lra_theory::new_var(l)` (`lra_theory.cpp:41-58`). `root` is `sat->root_level()`. -/
def newVarL (t : LRA) (root : Bool) (l : Lin) : Except Err (LRA × Nat) :=
  if l.vars = [] then .error .assert
  else match t.exprs.lookup l with
    | some x => .ok (t, x)
    | none =>
      if root = false then .error .assert
      else if l.vars.all (fun y => y.1 < t.n) = false then .error .ub
      else
        let lb := t.lbL l
        let ub := t.ubL l
        let val := t.valL l
        let s := t.n
        let t := t.newVar.1
        let t := { t with
          exprs := (l, s) :: t.exprs
          lo := upd t.lo s lb
          hi := upd t.hi s ub
          vals := upd t.vals s val
          defs := (s, l) :: t.defs
          facts := .lo TRUE_lit s lb :: .hi TRUE_lit s ub :: t.facts }
        .ok (t.newRow s l, s)

/-- The listeners of `v` are told that its value is now `a` (`lra_theory.cpp:392-395,398-401,415-418,421-424,430-433`). The callbacks of the listeners are outside the model: they do
not call the theory back. -/
def tell (t : LRA) (v : Nat) (a : IQ) (told : List (Nat × Nat × IQ)) : List (Nat × Nat × IQ) := (t.lst v).map (fun l => (l, v, a)) ++ told

/-- `lra_theory::listen` (`lra_theory.h:197-201`): nothing when the two bounds of `v` coincide. -/
def listen (t : LRA) (v l : Nat) : Except Err LRA :=
  if ¬ v < t.n then .error .ub
  else .ok (if ltBT (t.lo v) (t.hi v) then { t with lst := upd t.lst v (ins l (t.lst v)) } else t)

/-- The loop over the rows in which `x_i` occurs (`lra_theory.cpp:389-396`): values and notifications. -/
def updRows (t : LRA) (x : Nat) (v : IQ) : List Nat → (Nat → IQ) × List (Nat × Nat × IQ) → Except Err ((Nat → IQ) × List (Nat × Nat × IQ))
  | [], s => .ok s
  | r :: rs, s =>
    match (t.row r).bind (fun l => l.coef x) with
    | none => .error .terminate
    | some c => updRows t x v rs (upd s.1 r (s.1 r + c • (v - s.1 x)), t.tell r (s.1 r + c • (v - s.1 x)) s.2)

/-- `lra_theory::update` (`lra_theory.cpp:386-402`). -/
def update (E : LEnv) (t : LRA) (x : Nat) (v : IQ) : Except Err LRA :=
  if t.basic x then .error .assert
  else match updRows t x v (E.ord (t.tw x)) (t.vals, t.told) with
    | .error e => .error e
    | .ok r => .ok { t with vals := upd r.1 x v, told := t.tell x v r.2 }

/-- The loop over the terms of the new expression of `x_j`, added to one row (`lra_theory.cpp:461-476`): the terms of the row and the watches. -/
def substTerms (r : Nat) (cc : ℚ) : List (Nat × ℚ) → List (Nat × ℚ) × (Nat → List Nat) → List (Nat × ℚ) × (Nat → List Nat)
  | [], s => s
  | (v, c) :: ts, (l, tw) =>
    match l.lookup v with
    | none => substTerms r cc ts (Lin.addTerm v (c * cc) l, upd tw v (ins r (tw v)))
    | some d =>
      if d + c * cc = 0 then substTerms r cc ts (Lin.addTerm v (c * cc) l, upd tw v ((tw v).erase r))
      else substTerms r cc ts (Lin.addTerm v (c * cc) l, tw)

/-- The loop over the rows in which `x_j` occurs (`lra_theory.cpp:457-478`). -/
def substRows (xj : Nat) (e : Lin) : List Nat → (Nat → Option Lin) × (Nat → List Nat) → Except Err ((Nat → Option Lin) × (Nat → List Nat))
  | [], s => .ok s
  | r :: rs, (row, tw) =>
    match row r with
    | none => .error .ub
    | some l =>
      let cc := (l.coef xj).getD 0
      let s := substTerms r cc e.vars ((l.erase xj).vars, tw)
      substRows xj e rs (upd row r (some ⟨s.1, l.kt + e.kt * cc⟩), s.2)

/-- The expression of `x_j` obtained from the row `x_i = l` (`lra_theory.cpp:449-452`): `x_j = (l - cf x_j) / -cf + x_i / cf`. -/
def solveFor (l : Lin) (xi xj : Nat) : Except Err Lin :=
  let cf := (l.coef xj).getD 0
  match (l.erase xj).divAssign (-cf) with
  | .error e => .error e
  | .ok e => .ok ⟨Lin.addTerm xi (1 / cf) e.vars, e.kt⟩

/-- `lra_theory::pivot` (`lra_theory.cpp:438-481`). -/
def pivot (E : LEnv) (t : LRA) (xi xj : Nat) : Except Err LRA :=
  match t.row xi with
  | none => .error .ub
  | some l =>
    let row := upd t.row xi none
    let tw : Nat → List Nat := fun v => if v ∈ l.vars.map Prod.fst then (t.tw v).erase xi else t.tw v
    match solveFor l xi xj with
    | .error e => .error e
    | .ok e =>
      match substRows xj e (E.ord (tw xj)) (row, upd tw xj []) with
      | .error e => .error e
      | .ok (row, tw) => .ok ({ t with row := row, tw := tw }.newRow xj e)

/-- The loop over the rows in which `x_j` occurs (`lra_theory.cpp:426-434`): values and notifications. -/
def shiftRows (t : LRA) (xi xj : Nat) (θ : IQ) : List Nat → (Nat → IQ) × List (Nat × Nat × IQ) → Except Err ((Nat → IQ) × List (Nat × Nat × IQ))
  | [], s => .ok s
  | r :: rs, s =>
    if r = xi then shiftRows t xi xj θ rs s
    else match (t.row r).bind (fun l => l.coef xj) with
      | none => .error .terminate
      | some c => shiftRows t xi xj θ rs (upd s.1 r (s.1 r + c • θ), t.tell r (s.1 r + c • θ) s.2)

/-- `lra_theory::pivot_and_update` (`lra_theory.cpp:404-437`). -/
def pivotAndUpdate (E : LEnv) (t : LRA) (xi xj : Nat) (v : IQ) : Except Err LRA :=
  match (t.row xi).bind (fun l => l.coef xj) with
  | none => .error .assert
  | some a =>
    if t.basic xj then .error .assert
    else
      let θ := (1 / a) • (v - t.vals xi)
      let vals := upd t.vals xi v
      let vals := upd vals xj (vals xj + θ)
      let told := t.tell xj (vals xj) (t.tell xi v t.told)
      match shiftRows t xi xj θ (E.ord (t.tw xj)) (vals, told) with
      | .error e => .error e
      | .ok r => ({ t with vals := r.1, told := r.2 }).pivot E xi xj

/-- `value(v) < lb(v)` (`lra_theory.cpp:264,271`). -/
def under (t : LRA) (v : Nat) : Bool :=
  match t.lo v with
  | ⊥ => false
  | (a : IQ) => decide (t.vals v < a)
/-- `value(v) > ub(v)` (`lra_theory.cpp:264,288`). -/
def over (t : LRA) (v : Nat) : Bool :=
  match t.hi v with
  | ⊤ => false
  | (a : IQ) => decide (a < t.vals v)
/-- `value(v) < ub(v)` (`lra_theory.cpp:274,291`). -/
def canInc (t : LRA) (v : Nat) : Bool :=
  match t.hi v with
  | ⊤ => true
  | (a : IQ) => decide (t.vals v < a)
/-- `value(v) > lb(v)` (`lra_theory.cpp:274,291`). -/
def canDec (t : LRA) (v : Nat) : Bool :=
  match t.lo v with
  | ⊥ => true
  | (a : IQ) => decide (a < t.vals v)

/-- The explanation of a row that cannot be increased (`up`, lines 279-284) or decreased (`lra_theory.cpp:296-301`). -/
def rowConfl (t : LRA) (up : Bool) (l : Lin) : List Lit :=
  l.vars.filterMap (fun x =>
    if 0 < x.2 then some (if up then (t.hiR x.1).neg else (t.loR x.1).neg)
    else if x.2 < 0 then some (if up then (t.loR x.1).neg else (t.hiR x.1).neg)
    else none)

/-- The variable of the row that can be used to increase (`up`, lines 273-274) or decrease (`lra_theory.cpp:290-291`) it. -/
def findPivot (t : LRA) (up : Bool) (l : Lin) : Option (Nat × ℚ) :=
  l.vars.find? (fun x =>
    if up then (decide (0 < x.2) && t.canInc x.1) || (decide (x.2 < 0) && t.canDec x.1)
    else (decide (x.2 < 0) && t.canInc x.1) || (decide (0 < x.2) && t.canDec x.1))

/-- The first basic variable whose value is outside of its bounds (`lra_theory.cpp:263-264`). -/
def findFlaw (t : LRA) : Option Nat := (List.range t.n).find? (fun v => t.basic v && (t.under v || t.over v))

/-- One iteration of the loop of `check` (`lra_theory.cpp:261-305`): no flaw, a conflict, or the next state. -/
inductive CheckStep where
  | done
  | confl (cl : List Lit)
  | next (t : LRA)
  | fail (e : Err)

/-- One iteration of the loop of `check` (`lra_theory.cpp:261-305`). -/
def checkStep (E : LEnv) (t : LRA) : CheckStep :=
  match t.findFlaw with
  | none => .done
  | some xi =>
    match t.row xi with
    | none => .fail .ub
    | some l =>
      if t.under xi then
        match t.lo xi with
        | ⊥ => .fail .ub
        | (b : IQ) =>
          match t.findPivot true l with
          | some xj => match t.pivotAndUpdate E xi xj.1 b with
            | .error e => .fail e
            | .ok t => .next t
          | none => .confl (t.rowConfl true l ++ [(t.loR xi).neg])
      else
        match t.hi xi with
        | ⊤ => .fail .ub
        | (b : IQ) =>
          match t.findPivot false l with
          | some xj => match t.pivotAndUpdate E xi xj.1 b with
            | .error e => .fail e
            | .ok t => .next t
          | none => .confl (t.rowConfl false l ++ [(t.hiR xi).neg])

/-- The loop of `check` (`lra_theory.cpp:261-305`). -/
def checkLoop (E : LEnv) : Nat → LRA → Except Err (LRA × Option (List Lit))
  | 0, _ => .error .fuel
  | f + 1, t =>
    match t.checkStep E with
    | .done => .ok (t, none)
    | .confl cl => .ok (t, some cl)
    | .fail e => .error e
    | .next t => checkLoop E f t

/-- `lra_theory::check` (`lra_theory.cpp:258-306`). The bound on the number of iterations is the number of ways in which every variable can be basic, or non-basic with
its initial value, at its lower bound or at its upper bound; it is proved sufficient in `LRA/Bland.lean`. -/
def check (E : LEnv) (t : LRA) : Except Err (LRA × Option (List Lit)) := checkLoop E (4 ^ t.n + 1) t

/-- `lra_theory::push` (line 308). -/
def push (t : LRA) : LRA := { t with layers := ⟨fun _ => none, fun _ => none⟩ :: t.layers }

/-- `lra_theory::pop` (`lra_theory.cpp:310-316`). -/
def pop (t : LRA) : Except Err LRA :=
  match t.layers with
  | [] => .error .ub
  | L :: Ls => .ok
    { t with
      lo := fun v => match L.lo v with
        | some x => x.1
        | none => t.lo v
      loR := fun v => match L.lo v with
        | some x => x.2
        | none => t.loR v
      hi := fun v => match L.hi v with
        | some x => x.1
        | none => t.hi v
      hiR := fun v => match L.hi v with
        | some x => x.2
        | none => t.hiR v
      layers := Ls }

/-- Storing a lower bound (`lra_theory.cpp:332-334`). -/
def setLo (t : LRA) (x : Nat) (v : IQ) (p : Lit) : LRA :=
  { t with
    layers := match t.layers with
      | [] => []
      | L :: Ls => (if (L.lo x).isNone then { L with lo := upd L.lo x (some (t.lo x, t.loR x)) } else L) :: Ls
    lo := upd t.lo x (v : WithBot IQ)
    loR := upd t.loR x p }
/-- Storing an upper bound (`lra_theory.cpp:366-368`). -/
def setHi (t : LRA) (x : Nat) (v : IQ) (p : Lit) : LRA :=
  { t with
    layers := match t.layers with
      | [] => []
      | L :: Ls => (if (L.hi x).isNone then { L with hi := upd L.hi x (some (t.hi x, t.hiR x)) } else L) :: Ls
    hi := upd t.hi x (v : WithTop IQ)
    hiR := upd t.hiR x p }

/-- The literal of the assertion decided by the lower bound `b` of its variable (`lra_constraint.cpp:10-52`, and the loops over the assertions in
`row::propagate_lb/ub`, e.g. `157-198`). -/
def decLo (a : Asrt) (b : IQ) : Option Lit :=
  if a.le then (if a.v < b then some ⟨a.b, false⟩ else none)
  else (if a.v ≤ b then some ⟨a.b, true⟩ else none)

/-- The same for an upper bound (`lra_constraint.cpp:54-96`); `⊤` decides nothing. -/
def decHi (a : Asrt) (b : WithTop IQ) : Option Lit :=
  if a.le then (if b ≤ (a.v : WithTop IQ) then some ⟨a.b, true⟩ else none)
  else (if b < (a.v : WithTop IQ) then some ⟨a.b, false⟩ else none)

/-- Lower bound of the terms of a row with its reasons (`lra_constraint.cpp:127-154`, `362-389`), `none` when a needed bound is infinite. The known term of
the row is not added. -/
def rowLo (t : LRA) : List (Nat × ℚ) → Option (IQ × List Lit)
  | [] => some (0, [])
  | (v, c) :: ts =>
    match rowLo t ts with
    | none => none
    | some (b, L) =>
      if 0 < c then
        match t.lo v with
        | ⊥ => none
        | (a : IQ) => some (c • a + b, (t.loR v).neg :: L)
      else if c < 0 then
        match t.hi v with
        | ⊤ => none
        | (a : IQ) => some (c • a + b, (t.hiR v).neg :: L)
      else some (b, L)

/-- Upper bound of the terms of a row with its reasons in `row::propagate_lb` (`lra_constraint.cpp:202-229`). -/
def rowHi (t : LRA) : List (Nat × ℚ) → Option (WithTop IQ × List Lit)
  | [] => some (((0 : IQ) : WithTop IQ), [])
  | (v, c) :: ts =>
    match rowHi t ts with
    | none => none
    | some (b, L) =>
      if 0 < c then
        match t.hi v with
        | ⊤ => none
        | (a : IQ) => some (((c • a : IQ) : WithTop IQ) + b, (t.hiR v).neg :: L)
      else if c < 0 then
        match t.lo v with
        | ⊥ => none
        | (a : IQ) => some (((c • a : IQ) : WithTop IQ) + b, (t.loR v).neg :: L)
      else some (b, L)

/-- The same in `row::propagate_ub(v)` (`lra_constraint.cpp:287-314`): for a negative coefficient it is the lower bound of `x` (the variable whose bound
changed) that is tested, and an infinite lower bound of the variable at hand makes the sum infinite. -/
def rowHiU (t : LRA) (x : Nat) : List (Nat × ℚ) → Option (WithTop IQ × List Lit)
  | [] => some (((0 : IQ) : WithTop IQ), [])
  | (v, c) :: ts =>
    match rowHiU t x ts with
    | none => none
    | some (b, L) =>
      if 0 < c then
        match t.hi v with
        | ⊤ => none
        | (a : IQ) => some (((c • a : IQ) : WithTop IQ) + b, (t.hiR v).neg :: L)
      else if c < 0 then
        if t.lo x = ⊥ then none
        else match t.lo v with
          | ⊥ => some (⊤, (t.loR v).neg :: L)
          | (a : IQ) => some (((c • a : IQ) : WithTop IQ) + b, (t.loR v).neg :: L)
      else some (b, L)

/-- The assertions on the basic variable `r` decided by a lower bound of its row (`lra_constraint.cpp:156-203`, `391-438` and the like). -/
def jobsLo (t : LRA) (r : Nat) (b : IQ) (L : List Lit) : List (Lit × List Lit) :=
  if t.lo r ≤ (b : WithBot IQ) then (t.aw r).filterMap (fun a => (decLo a b).map (fun q => (q, L))) else []
/-- The assertions on the basic variable `r` decided by an upper bound of its row (`lra_constraint.cpp:231-278`, `316-363` and the like). -/
def jobsHi (t : LRA) (r : Nat) (b : WithTop IQ) (L : List Lit) : List (Lit × List Lit) :=
  if b ≤ t.hi r then (t.aw r).filterMap (fun a => (decHi a b).map (fun q => (q, L))) else []

/-- `row::propagate_lb(v)` (`lra_constraint.cpp:120-278`): the literals implied, with the explanations. -/
def rowJobsLb (t : LRA) (x r : Nat) : Except Err (List (Lit × List Lit)) :=
  match t.row r with
  | none => .error .ub
  | some l =>
    match l.coef x with
    | none => .error .terminate
    | some c =>
      if 0 < c then
        match t.rowLo l.vars with
        | none => .ok []
        | some (b, L) => .ok (t.jobsLo r b L)
      else
        match t.rowHi l.vars with
        | none => .ok []
        | some (b, L) => .ok (t.jobsHi r b L)

/-- `row::propagate_ub(v)` (`lra_constraint.cpp:280-438`). -/
def rowJobsUb (t : LRA) (x r : Nat) : Except Err (List (Lit × List Lit)) :=
  match t.row r with
  | none => .error .ub
  | some l =>
    match l.coef x with
    | none => .error .terminate
    | some c =>
      if 0 < c then
        match t.rowHiU x l.vars with
        | none => .ok []
        | some (b, L) => .ok (t.jobsHi r b L)
      else
        match t.rowLo l.vars with
        | none => .ok []
        | some (b, L) => .ok (t.jobsLo r b L)

/-- All the rows (the loops over `t_watches`, `lra_theory.cpp:344-346`, `378-380`). -/
def rowsJobs (f : Nat → Except Err (List (Lit × List Lit))) : List Nat → Except Err (List (Lit × List Lit))
  | [] => .ok []
  | r :: rs =>
    match f r with
    | .error e => .error e
    | .ok J =>
      match rowsJobs f rs with
      | .error e => .error e
      | .ok K => .ok (J ++ K)

/-- Recording of the implied literals, up to the first one that is already false (all the `switch (th.sat->value(b))` of `lra_constraint.cpp:16,33,60,77,161,180,236,255,321,340,396,415`). The state of
the theory does not change here, the values of the literals do. -/
def emit (t : LRA) : List (Lit × List Lit) → (Lit → Option Bool) → TAct LRA
  | [], _ => .ok t
  | (q, L) :: js, val =>
    match val q with
    | some false => .confl t (q :: L)
    | none => .record (q :: L) (fun v => emit t js v)
    | some true => emit t js val

/-- `lra_theory::assert_lower` (`lra_theory.cpp:318-350`). -/
def assertLower (E : LEnv) (t : LRA) (val : Lit → Option Bool) (x : Nat) (v : IQ) (p : Lit) : TAct LRA :=
  if val p = none then .fail .assert
  else if ¬ x < t.n then .fail .ub
  else if (v : WithBot IQ) ≤ t.lo x then .ok t
  else if t.hi x < (v : WithTop IQ) then .confl t [p.neg, (t.hiR x).neg]
  else
    let t := t.setLo x v p
    match (if t.vals x < v ∧ t.basic x = false then t.update E x v else .ok t) with
    | .error e => .fail e
    | .ok t =>
      match rowsJobs (t.rowJobsLb x) (E.ord (t.tw x)) with
      | .error e => .fail e
      | .ok J => emit t ((t.aw x).filterMap (fun a => (decLo a v).map (fun q => (q, [(t.loR x).neg]))) ++ J) val

/-- `lra_theory::assert_upper` (`lra_theory.cpp:352-384`). -/
def assertUpper (E : LEnv) (t : LRA) (val : Lit → Option Bool) (x : Nat) (v : IQ) (p : Lit) : TAct LRA :=
  if val p = none then .fail .assert
  else if ¬ x < t.n then .fail .ub
  else if t.hi x ≤ (v : WithTop IQ) then .ok t
  else if (v : WithBot IQ) < t.lo x then .confl t [p.neg, (t.loR x).neg]
  else
    let t := t.setHi x v p
    match (if v < t.vals x ∧ t.basic x = false then t.update E x v else .ok t) with
    | .error e => .fail e
    | .ok t =>
      match rowsJobs (t.rowJobsUb x) (E.ord (t.tw x)) with
      | .error e => .fail e
      | .ok J => emit t ((t.aw x).filterMap (fun a => (decHi a (v : WithTop IQ)).map (fun q => (q, [(t.hiR x).neg]))) ++ J) val

/-- `lra_theory::propagate` (`lra_theory.cpp:239-256`). -/
def propagate (E : LEnv) (t : LRA) (val : Lit → Option Bool) (p : Lit) : TAct LRA :=
  match t.vas p.var with
  | none => .fail .ub
  | some a =>
    match val ⟨a.b, true⟩ with
    | some true => if a.le then t.assertUpper E val a.x a.v p else t.assertLower E val a.x a.v p
    | some false => if a.le then t.assertLower E val a.x (a.v + IQ.eps) p else t.assertUpper E val a.x (a.v - IQ.eps) p
    | none => .ok t

/-- The linear-arithmetic theory as a theory of the core (theory number 0). -/
def ops (E : LEnv) : TheoryOps LRA where
  ids := [0]
  propagate := fun _ t val p => t.propagate E val p
  check := fun _ t _ => t.check E
  push := push
  pop := pop

/-- Substitution of the basic variables by their rows (lines 63-73 and the like); `vs` are the variables of the expression on entry. -/
def substBasic (t : LRA) : List Nat → Lin → Lin
  | [], e => e
  | v :: vs, e =>
    match t.row v with
    | none => substBasic t vs e
    | some l => substBasic t vs ((e.erase v).addAssign (l.mul ((e.coef v).getD 0)))

/-- `left - right` over the non-basic variables (`lra_theory.cpp:62-73`). -/
def diffExpr (t : LRA) (l r : Lin) : Lin := t.substBasic ((l.sub r).vars.map Prod.fst) (l.sub r)

/-- The tests of a relational constructor on an interval: `TRUE_lit`, `FALSE_lit` or undecided. `lt` (`lra_theory.cpp:78-81`), `leq` (121-124), `geq` (164-167),
`gt` (207-210). -/
inductive Rel4 where
  | lt | leq | geq | gt
deriving DecidableEq

/-- `c_right` (`lra_theory.cpp:75,118,161,204`). -/
def Rel4.bound (R : Rel4) (kt : ℚ) : IQ :=
  match R with
  | .lt => IQ.mk (-kt) (-1)
  | .leq => -IQ.ofQ kt
  | .geq => -IQ.ofQ kt
  | .gt => IQ.mk (-kt) 1

/-- The tests on an interval (`lra_theory.cpp:78-81,121-124,164-167,207-210`). -/
def Rel4.test (R : Rel4) (lb : WithBot IQ) (ub : WithTop IQ) (c : IQ) : Option Bool :=
  match R with
  | .lt => if ub < (c : WithTop IQ) then some true else if (c : WithBot IQ) ≤ lb then some false else none
  | .leq => if ub ≤ (c : WithTop IQ) then some true else if (c : WithBot IQ) < lb then some false else none
  | .geq => if (c : WithBot IQ) ≤ lb then some true else if ub < (c : WithTop IQ) then some false else none
  | .gt => if (c : WithBot IQ) < lb then some true else if ub ≤ (c : WithTop IQ) then some false else none

/-- The kind of assertion: `op::leq` for `<`, `<=` (`lra_theory.cpp:98,141,184,227`). -/
def Rel4.le : Rel4 → Bool
  | .lt => true
  | .leq => true
  | .geq => false
  | .gt => false

/-- Creation of an assertion (`lra_constraint.cpp:8`, lines 96-98). -/
def addAsrt (t : LRA) (a : Asrt) : LRA :=
  { t with
    sas := ((a.le, a.x, a.v), ⟨a.b, true⟩) :: t.sas
    vas := upd t.vas a.b (some a)
    aw := upd t.aw a.x (t.aw a.x ++ [a]) }

/-- `lra_theory::new_lt`, `new_leq`, `new_geq`, `new_gt` (`lra_theory.cpp:60-230`). -/
def newRel (R : Rel4) (s : Sat LRA) (l r : Lin) : Except Err (Sat LRA × Lit) :=
  let e := s.th.diffExpr l r
  let c := R.bound e.kt
  let e : Lin := ⟨e.vars, 0⟩
  if (e.vars.all (fun y => y.1 < s.th.n)) = false then .error .ub
  else match R.test (s.th.lbL e) (s.th.ubL e) c with
    | some true => .ok (s, TRUE_lit)
    | some false => .ok (s, FALSE_lit)
    | none =>
      match s.th.newVarL s.root e with
      | .error e => .error e
      | .ok (t, x) =>
        match R.test (t.lo x) (t.hi x) c with
        | some true => .ok ({ s with th := t }, TRUE_lit)
        | some false => .ok ({ s with th := t }, FALSE_lit)
        | none =>
          match t.sas.lookup (R.le, x, c) with
          | some q => .ok ({ s with th := t }, q)
          | none =>
            let w := s.newVar
            let s := w.1.bind w.2 0
            .ok ({ s with th := t.addAsrt ⟨R.le, w.2, x, c⟩ }, ⟨w.2, true⟩)

/-- `lra_theory::new_eq` (`lra_theory.h:58`): the conjunction of `new_geq` and `new_leq`. -/
def newEqL (E : Env) (s : Sat LRA) (l r : Lin) : Except Err (Sat LRA × Lit) :=
  match newRel .geq s l r with
  | .error e => .error e
  | .ok (s, p) =>
    match newRel .leq s l r with
    | .error e => .error e
    | .ok (s, q) => s.newConj E [p, q]

/-- `set_lb` (`lra_theory.h:164`), as called by a user; the ghost remembers the bound. -/
def setLb (E : LEnv) (t : LRA) (val : Lit → Option Bool) (x : Nat) (v : IQ) (p : Lit) : TAct LRA :=
  ({ t with facts := .lo p x v :: t.facts } : LRA).assertLower E val x v p
/-- `set_ub` (`lra_theory.h:165`). -/
def setUb (E : LEnv) (t : LRA) (val : Lit → Option Bool) (x : Nat) (v : IQ) (p : Lit) : TAct LRA :=
  ({ t with facts := .hi p x v :: t.facts } : LRA).assertUpper E val x v p

/-- `lra_theory::lra_theory(sat, orig)` (`lra_theory.cpp:10-19`): `t_watches` is resized but the rows are not registered in it; the assertions are visited in an
arbitrary order `as` (those of `v_asrts`). -/
def copyOf (orig : LRA) (as : List Asrt) : LRA :=
  { orig with
    tw := fun _ => []
    aw := fun x => as.filter (fun a => a.x == x) }

end LRA
end Semitone
