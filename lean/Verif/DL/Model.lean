import Verif.Lin.Model
import Mathlib.Algebra.Order.Monoid.Prod
import Mathlib.Algebra.Order.Group.Int
import Mathlib.Algebra.Order.AddGroupWithTop

/-!
# Model of the difference-logic theories

Model of `/repo/src/arith/dl/idl_theory.cpp`, `/repo/src/arith/dl/rdl_theory.cpp` and their headers. The two files are the same program
over two number types, so the model is written once over an ordered group `W` (`Dom`):
* integer difference logic: `W = ℤ`;
* rational difference logic: `W = ℚ ×ₗ ℤ`, a rational and the coefficient of the infinitesimal, ordered lexicographically. The code uses
  `utils::inf_rational`, whose infinitesimal part is a rational; every constraint built by the relational constructors has an integer
  infinitesimal part, and only those are modelled.

The matrix entry `inf()` (integers) or `+∞` (rationals) is `⊤`; the arithmetic is exact. That the 64-bit sentinel arithmetic of the
integer theory does the same is the subject of `DL/Overflow.lean`.
Line numbers refer to `idl_theory.cpp` unless `rdl_theory.cpp` is named.
What the callbacks of value listeners do is not modelled (they are assumed not to call the theory back). The copy constructor is in `DL/Copy.lean`.
-/
namespace Semitone

/-- The number type of a difference-logic theory. `one` is what a strict constraint subtracts (`1`, or the infinitesimal); `ofQ` turns a
known term into a distance, `none` when the code throws (`!is_integer(expr.known_term)`, e.g. line 71); `gtSplit` says that the two-variable
case of `new_gt` calls the four-argument `new_distance(v0, v1, kt, -1)` (line 291) instead of `new_distance(v0, v1, kt - 1)`; `listenAll` says
that `listen` registers unconditionally (`idl_theory.h:158`), not only when `lb(v) < ub(v)` (`rdl_theory.h:154-158`). -/
class Dom (W : Type) [AddCommGroup W] [LinearOrder W] [IsOrderedAddMonoid W] where
  one : W
  succ : ∀ a b : W, a < b ↔ a + one ≤ b
  ofQ : ℚ → Option W
  gtSplit : Bool
  listenAll : Bool

/-- `idl_theory`: `is_integer`, `numerator`. -/
instance : Dom ℤ where
  one := 1
  succ := fun _ _ => Int.lt_iff_add_one_le
  ofQ := fun q => if q.den = 1 then some q.num else none
  gtSplit := true
  listenAll := true

theorem lexSucc (a b : ℚ ×ₗ ℤ) : a < b ↔ a + toLex ((0 : ℚ), (1 : ℤ)) ≤ b := by
  rw [Prod.Lex.lt_iff, Prod.Lex.le_iff]
  have h1 : (ofLex (a + toLex ((0 : ℚ), (1 : ℤ)))).1 = (ofLex a).1 := by simp
  have h2 : (ofLex (a + toLex ((0 : ℚ), (1 : ℤ)))).2 = (ofLex a).2 + 1 := by simp
  rw [h1, h2, Int.lt_iff_add_one_le]

/-- `rdl_theory`: `inf_rational(known_term)`. -/
instance : Dom (ℚ ×ₗ ℤ) where
  one := toLex (0, 1)
  succ := lexSucc
  ofQ := fun q => some (toLex (q, 0))
  gtSplit := false
  listenAll := false

/-- Update of a matrix cell or of a map keyed by a pair. -/
def upd2 {α : Type} (f : Nat → Nat → α) (i j : Nat) (a : α) : Nat → Nat → α := fun x y => if x = i ∧ y = j then a else f x y

/-- `class idl_distance` (`idl_theory.h:161-174`): the literal `b` (positive, of the variable `b`) controls `tgt - src <= w`. -/
structure Dist (W : Type) where
  b : Nat
  src : Nat
  tgt : Nat
  w : W
deriving DecidableEq

/-- `struct layer` (`idl_theory.h:176-181`). `none`: no entry in the map. -/
structure Layer (W : Type) where
  oldD : Nat → Nat → Option (WithTop W)
  oldP : Nat → Nat → Option (Option Nat)
  oldC : Nat → Nat → Option (Option (Dist W))

/-- `class idl_theory` (`idl_theory.h:14-191`). `cap` is `_dists.size()`; matrix cells outside the allocated matrix are never read (proved),
their content is irrelevant. `none` in `pred` is `numeric_limits<size_t>::max()`. `bad` (ghost) records a failing
`assert(_dists[from][to] > dist)` of `set_dist` (line 595). `lst` is `listening`; `told` is a ghost: the calls `l->idl_value_change(v)` made so far, with the bounds of `v`
that the listener can read at that moment, newest first. -/
structure DL (W : Type) where
  nv : Nat
  cap : Nat
  d : Nat → Nat → WithTop W
  pred : Nat → Nat → Option Nat
  cur : Nat → Nat → Option (Dist W)
  vd : Nat → Option (Dist W)
  dcs : Nat → Nat → List (Dist W)
  layers : List (Layer W)
  bad : Bool
  lst : Nat → List Nat
  told : List (Nat × Nat × WithBot W × WithTop W)

namespace DL
variable {W : Type} [AddCommGroup W] [LinearOrder W] [IsOrderedAddMonoid W]

/-- Initial distances (`idl_theory.cpp:9-17`): zero on the diagonal, infinite elsewhere. -/
def d0 (i j : Nat) : WithTop W := if i = j then ((0 : W) : WithTop W) else ⊤
/-- Initial predecessors (`idl_theory.cpp:9-17`): row `i` is filled with `i`, undefined on the diagonal. -/
def p0 (i j : Nat) : Option Nat := if i = j then none else some i

/-- `idl_theory::idl_theory(sat, size)` (`idl_theory.cpp:9-17`): time point 0 (the origin) exists from the start. -/
def init (size : Nat) : DL W :=
  { nv := 1, cap := size, d := d0, pred := p0, cur := fun _ _ => none, vd := fun _ => none, dcs := fun _ _ => [], layers := [], bad := false, lst := fun _ => [], told := [] }

/-- `idl_theory::resize` (`idl_theory.cpp:625-642`). -/
def resize (t : DL W) (size : Nat) : DL W :=
  { t with
    cap := size
    d := fun i j => if i < t.cap ∧ j < t.cap then t.d i j else d0 i j
    pred := fun i j => if i < t.cap ∧ j < t.cap then t.pred i j else p0 i j }

/-- `idl_theory::new_var` (`idl_theory.cpp:34-40`). -/
def newVar (t : DL W) : DL W × Nat :=
  let tp := t.nv
  let t := { t with nv := t.nv + 1 }
  (if t.cap = tp then t.resize ((t.cap * 3) / 2 + 1) else t, tp)

/-- Unary minus on a matrix entry: `-inf()` is minus infinity (`idl_theory.h:101-109`). -/
def negTop : WithTop W → WithBot W
  | ⊤ => ⊥
  | (a : W) => ((-a : W) : WithBot W)

/-- The time point whose bounds depend on the distance from `i` to `j` (`idl_theory.cpp:602,608`). -/
def point (i j : Nat) : Option Nat := if i = 0 then some j else if j = 0 then some i else none

/-- The listeners of that time point are called (`idl_theory.cpp:602-613`); `d` is the new matrix. -/
def tell (t : DL W) (d : Nat → Nat → WithTop W) (i j : Nat) : List (Nat × Nat × WithBot W × WithTop W) :=
  match point i j with
  | none => t.told
  | some v => (t.lst v).map (fun l => (l, v, negTop (d v 0), d 0 v)) ++ t.told

/-- `idl_theory::set_dist` (`idl_theory.cpp:593-614`). -/
def setDist (t : DL W) (i j : Nat) (w : WithTop W) : DL W :=
  { t with
    bad := t.bad || !decide (w < t.d i j)
    layers := match t.layers with
      | [] => []
      | L :: Ls => (if (L.oldD i j).isNone then { L with oldD := upd2 L.oldD i j (some (t.d i j)) } else L) :: Ls
    d := upd2 t.d i j w
    told := t.tell (upd2 t.d i j w) i j }

/-- `idl_theory::set_pred` (`idl_theory.cpp:616-623`): what is saved is `from`, not the old predecessor (line 620). -/
def setPred (t : DL W) (i j : Nat) (p : Option Nat) : DL W :=
  { t with
    layers := match t.layers with
      | [] => []
      | L :: Ls => (if (L.oldP i j).isNone then { L with oldP := upd2 L.oldP i j (some (some i)) } else L) :: Ls
    pred := upd2 t.pred i j p }

/-- Local variables of `idl_theory::propagate(from, to, dist)` (`idl_theory.cpp:509-511`). -/
structure Loop (W : Type) where
  t : DL W
  si : List Nat
  sj : List Nat
  cu : List (Nat × Nat)

/-- First half of the body of the O(n) loop (`idl_theory.cpp:518-525`). The comparison `_dists[u][from] != inf() && _dists[u][from] < _dists[u][to] - dist`
is written without subtraction. -/
def loop1a (src tgt : Nat) (w : W) (l : Loop W) (u : Nat) : Loop W :=
  if l.t.d u src ≠ ⊤ ∧ l.t.d u src + (w : WithTop W) < l.t.d u tgt then
    { t := (l.t.setDist u tgt (l.t.d u src + (w : WithTop W))).setPred u tgt (some src)
      si := l.si ++ [u]
      sj := l.sj
      cu := l.cu ++ [(u, tgt), (tgt, u)] }
  else l

/-- Second half of the body of the O(n) loop (`idl_theory.cpp:526-533`). -/
def loop1b (src tgt : Nat) (w : W) (l : Loop W) (u : Nat) : Loop W :=
  if l.t.d tgt u ≠ ⊤ ∧ l.t.d tgt u + (w : WithTop W) < l.t.d src u then
    { t := (l.t.setDist src u (l.t.d tgt u + (w : WithTop W))).setPred src u (l.t.pred tgt u)
      si := l.si
      sj := l.sj ++ [u]
      cu := l.cu ++ [(src, u), (u, src)] }
  else l

/-- Body of the O(n²) loop (`idl_theory.cpp:539-545`). -/
def loop2 (tgt : Nat) (l : Loop W) (p : Nat × Nat) : Loop W :=
  if p.1 ≠ p.2 ∧ l.t.d p.1 tgt + l.t.d tgt p.2 < l.t.d p.1 p.2 then
    { l with
      t := (l.t.setDist p.1 p.2 (l.t.d p.1 tgt + l.t.d tgt p.2)).setPred p.1 p.2 (l.t.pred tgt p.2)
      cu := l.cu ++ [p, (p.2, p.1)] }
  else l

/-- `idl_theory::propagate(from, to, dist)` (`idl_theory.cpp:504-545`): the update of the matrices; also returns `c_updates`. -/
def relaxEdge (t : DL W) (src tgt : Nat) (w : W) : DL W × List (Nat × Nat) :=
  let t := (t.setDist src tgt (w : WithTop W)).setPred src tgt (some src)
  let l := (List.range t.nv).foldl (fun l u => loop1b src tgt w (loop1a src tgt w l u) u) ⟨t, [], [], [(src, tgt), (tgt, src)]⟩
  let l := (l.si.flatMap (fun i => l.sj.map (fun j => (i, j)))).foldl (loop2 tgt) l
  (l.t, l.cu)

/-- Storing the constraint being asserted on the pair `(i, j)` (`idl_theory.cpp:421-430,454-463`): the old one is saved, but
`dist_constr.emplace` does not replace an existing entry. -/
def setCur (t : DL W) (i j : Nat) (dd : Dist W) : DL W :=
  { t with
    layers := match t.layers with
      | [] => []
      | L :: Ls => (if (L.oldC i j).isNone then { L with oldC := upd2 L.oldC i j (some (t.cur i j)) } else L) :: Ls
    cur := if (t.cur i j).isNone then upd2 t.cur i j (some dd) else t.cur }

/-- Outcome of asserting a constraint (`idl_theory.cpp:393-468`). -/
inductive Outcome (W : Type) where
  /-- inconsistent with the matrix: a conflict, explained by the path from the first to the second time point -/
  | conflict (i j : Nat)
  /-- the matrix already satisfies it -/
  | noop
  /-- the matrix is updated; `cu` are the pairs to look at -/
  | update (t : DL W) (cu : List (Nat × Nat))

section
variable [Dom W]

/-- The two branches of `idl_theory::propagate(lit)` (`idl_theory.cpp:399-467`), without the explanations: `sign` is the value of the literal. -/
def assertD (t : DL W) (dd : Dist W) (sign : Bool) : Outcome W :=
  if sign then
    if t.d dd.tgt dd.src < ((-dd.w : W) : WithTop W) then .conflict dd.tgt dd.src
    else if (dd.w : WithTop W) < t.d dd.src dd.tgt then
      let r := (t.setCur dd.src dd.tgt dd).relaxEdge dd.src dd.tgt dd.w
      .update r.1 r.2
    else .noop
  else
    if t.d dd.src dd.tgt ≤ (dd.w : WithTop W) then .conflict dd.src dd.tgt
    else if ((-dd.w : W) : WithTop W) ≤ t.d dd.tgt dd.src then
      let r := (t.setCur dd.tgt dd.src dd).relaxEdge dd.tgt dd.src (-dd.w - Dom.one)
      .update r.1 r.2
    else .noop

/-- The walk along the predecessors that collects an explanation (`idl_theory.cpp:404-415,437-448,555-566,574-585`): the literals of the
constraints on the path from `i` to `c`, as falsified literals. Fuel: a walk longer than the number of time points never ends. -/
def explain (t : DL W) (val : Lit → Option Bool) (i : Nat) : Nat → Nat → Except Err (List Lit)
  | 0, c => if c = i then .ok [] else .error .fuel
  | n + 1, c =>
    if c = i then .ok []
    else match t.pred i c with
      | none => .error .ub
      | some k =>
        match explain t val i n k with
        | .error e => .error e
        | .ok L =>
          match t.cur k c with
          | none => .ok L
          | some dd =>
            match val ⟨dd.b, true⟩ with
            | some true => .ok (⟨dd.b, false⟩ :: L)
            | some false => .ok (⟨dd.b, true⟩ :: L)
            | none => .ok L

/-- The loop that looks for constraints decided by the new distances and records why (`idl_theory.cpp:547-590`), `ds` being the constraints on
the updated pairs. -/
def emit (t : DL W) : List (Dist W) → (Lit → Option Bool) → TAct (DL W)
  | [], _ => .ok t
  | dd :: ds, val =>
    if val ⟨dd.b, true⟩ = none then
      if t.d dd.tgt dd.src < ((-dd.w : W) : WithTop W) then
        match t.explain val dd.tgt t.nv dd.src with
        | .error e => .fail e
        | .ok L => .record (⟨dd.b, false⟩ :: L) (fun v => emit t ds v)
      else if t.d dd.src dd.tgt ≤ (dd.w : WithTop W) then
        match t.explain val dd.src t.nv dd.tgt with
        | .error e => .fail e
        | .ok L => .record (⟨dd.b, true⟩ :: L) (fun v => emit t ds v)
      else emit t ds val
    else emit t ds val

/-- `idl_theory::propagate(const lit &p)` (`idl_theory.cpp:393-469`). -/
def propagate (t : DL W) (val : Lit → Option Bool) (p : Lit) : TAct (DL W) :=
  match t.vd p.var with
  | none => .fail .terminate
  | some dd =>
    match val ⟨dd.b, true⟩ with
    | none => .ok t
    | some sign =>
      if t.nv ≤ t.cap ∧ dd.src < t.nv ∧ dd.tgt < t.nv then
        match t.assertD dd sign with
        | .conflict i j =>
          match t.explain val i t.nv j with
          | .error e => .fail e
          | .ok L => .confl t (L ++ [p.neg])
        | .noop => .ok t
        | .update t' cu => if t'.bad then .fail .assert else emit t' (cu.flatMap (fun q => t'.dcs q.1 q.2)) val
      else .fail .ub

/-- `idl_theory::check` (`idl_theory.cpp:471-486`): only assertions. The map `dist_constr` is looked at through its keys below `nv`. -/
def checkOk (t : DL W) (val : Lit → Option Bool) : Bool :=
  (List.range t.nv).all (fun i => (List.range t.nv).all (fun j =>
    match t.cur i j with
    | none => true
    | some dd =>
      match val ⟨dd.b, true⟩ with
      | some true => decide (t.d dd.src dd.tgt ≤ (dd.w : WithTop W))
      | some false => decide (t.d dd.tgt dd.src < ((-dd.w : W) : WithTop W))
      | none => true))

/-- `idl_theory::push` (line 488). -/
def push (t : DL W) : DL W := { t with layers := ⟨fun _ _ => none, fun _ _ => none, fun _ _ => none⟩ :: t.layers }

/-- `idl_theory::pop` (`idl_theory.cpp:490-502`). -/
def pop (t : DL W) : Except Err (DL W) :=
  match t.layers with
  | [] => .error .ub
  | L :: Ls => .ok
    { t with
      d := fun i j => (L.oldD i j).getD (t.d i j)
      pred := fun i j => (L.oldP i j).getD (t.pred i j)
      cur := fun i j => match L.oldC i j with
        | none => t.cur i j
        | some (some dd) => if (t.cur i j).isNone then some dd else t.cur i j
        | some none => none
      layers := Ls }

/-- `idl_theory::lb(v)` (`idl_theory.h:87`). -/
def lb (t : DL W) (v : Nat) : WithBot W := negTop (t.d v 0)
/-- `idl_theory::ub(v)` (`idl_theory.h:94`). -/
def ub (t : DL W) (v : Nat) : WithTop W := t.d 0 v
/-- `idl_theory::bounds(v)` (`idl_theory.h:101`). -/
def bounds (t : DL W) (v : Nat) : WithBot W × WithTop W := (negTop (t.d v 0), t.d 0 v)
/-- `idl_theory::distance(from, to)` (`idl_theory.h:109`). -/
def distance (t : DL W) (i j : Nat) : WithBot W × WithTop W := (negTop (t.d j i), t.d i j)

/-- `lb(v) < ub(v)` (`rdl_theory.h:156`). -/
def loose (t : DL W) (v : Nat) : Bool :=
  match t.d v 0, t.d 0 v with
  | (a : W), (b : W) => decide (-a < b)
  | _, _ => true

/-- `listening[v].insert(l)` (`idl_theory.h:158`, `rdl_theory.h:157`). -/
def addListener (t : DL W) (v l : Nat) : DL W := { t with lst := upd t.lst v (if l ∈ t.lst v then t.lst v else l :: t.lst v) }

/-- `idl_theory::listen` (`idl_theory.h:158`), `rdl_theory::listen` (`rdl_theory.h:154-158`): the rational theory ignores the call when the bounds coincide. -/
def listen (t : DL W) (v l : Nat) : Except Err (DL W) :=
  if Dom.listenAll W then .ok (t.addListener v l)
  else if ¬ v < t.cap then .error .ub
  else .ok (if t.loose v then t.addListener v l else t)

/-- The difference-logic theory as a theory of the core (theory number 0). -/
def ops : TheoryOps (DL W) where
  ids := [0]
  propagate := fun _ t val p => t.propagate val p
  check := fun _ t val => if t.checkOk val then .ok (t, none) else .error .assert
  push := push
  pop := pop

/-- Registration of a new constraint (`idl_theory.cpp:53-55`). -/
def register (t : DL W) (dd : Dist W) : DL W :=
  { t with vd := upd t.vd dd.b (some dd), dcs := upd2 t.dcs dd.src dd.tgt (t.dcs dd.src dd.tgt ++ [dd]) }

end
end DL

/-! ### Calls that create constraints: the core and the theory together -/
section
variable {W : Type} [AddCommGroup W] [LinearOrder W] [IsOrderedAddMonoid W]

/-- `FALSE_lit` (`lit.h:52`). -/
def falseLit : Lit := ⟨0, true⟩
/-- `TRUE_lit` (`lit.h:53`). -/
def trueLit : Lit := ⟨0, false⟩

namespace DL

/-- `idl_theory::new_distance(from, to, dist)` (`idl_theory.cpp:42-58`). -/
def newDistance (s : Sat (DL W)) (src tgt : Nat) (w : W) : Except Err (Sat (DL W) × Lit) :=
  if src < s.th.cap ∧ tgt < s.th.cap then
    if s.th.d tgt src < ((-w : W) : WithTop W) then .ok (s, falseLit)
    else if s.th.d src tgt ≤ (w : WithTop W) then .ok (s, trueLit)
    else
      let r := s.newVar
      let s := r.1.bind r.2 0
      .ok ({ s with th := s.th.register ⟨r.2, src, tgt, w⟩ }, ⟨r.2, true⟩)
  else .error .ub

/-- `new_distance(from, to, min, max)` (`idl_theory.h:38`). -/
def newDistance2 (E : Env) (s : Sat (DL W)) (src tgt : Nat) (mn mx : W) : Except Err (Sat (DL W) × Lit) :=
  match newDistance s tgt src (-mn) with
  | .error e => .error e
  | .ok (s, l1) =>
    match newDistance s src tgt mx with
    | .error e => .error e
    | .ok (s, l2) => s.newConj E [l1, l2]

/-- A literal for a constant. -/
def constLit (b : Bool) : Lit := if b then trueLit else falseLit

section
variable [Dom W]

/-- What the relational constructors do with `left - right` (lines 62-107 and the like): after division by the first coefficient, the
difference form `x - y + k` (`y` absent: the origin), or the constant; `none` when the code throws. The sign of the first
coefficient is kept. -/
inductive Form (W : Type) where
  | const (k : ℚ)
  | diff (neg : Bool) (x y : Nat) (k : W)

/-- Analysis of an expression (`idl_theory.cpp:63-106`). The origin is time point 0. -/
def form (e : Lin) : Option (Form W) :=
  match e.vars with
  | [] => some (.const e.kt)
  | [(v, c)] =>
    match Dom.ofQ (e.kt / c) with
    | none => none
    | some k => some (.diff (decide (c < 0)) v 0 k)
  | [(v0, c0), (v1, c1)] =>
    if c1 / c0 = -1 then
      match Dom.ofQ (e.kt / c0) with
      | none => none
      | some k => some (.diff (decide (c0 < 0)) v0 v1 k)
    else none
  | _ => none

/-- `idl_theory::new_lt` (`idl_theory.cpp:60-108`). -/
def newLt (s : Sat (DL W)) (l r : Lin) : Except Err (Sat (DL W) × Lit) :=
  match form (W := W) (l.sub r) with
  | none => .error .invalid
  | some (.const k) => .ok (s, constLit (decide (k < 0)))
  | some (.diff true x y k) => newDistance s x y (k - Dom.one)
  | some (.diff false x y k) => newDistance s y x (-k - Dom.one)

/-- `idl_theory::new_leq` (`idl_theory.cpp:110-158`). -/
def newLeq (s : Sat (DL W)) (l r : Lin) : Except Err (Sat (DL W) × Lit) :=
  match form (W := W) (l.sub r) with
  | none => .error .invalid
  | some (.const k) => .ok (s, constLit (decide (k ≤ 0)))
  | some (.diff true x y k) => newDistance s x y k
  | some (.diff false x y k) => newDistance s y x (-k)

/-- `idl_theory::new_eq` (`idl_theory.cpp:160-196`). -/
def newEqD (E : Env) (s : Sat (DL W)) (l r : Lin) : Except Err (Sat (DL W) × Lit) :=
  match form (W := W) (l.sub r) with
  | none => .error .invalid
  | some (.const k) => .ok (s, constLit (decide (k = 0)))
  | some (.diff _ x y k) =>
    if x < s.th.cap ∧ y < s.th.cap then
      if ((-k : W) : WithTop W) ≤ s.th.d y x ∧ ((k : W) : WithTop W) ≤ s.th.d x y then
        match newDistance s x y k with
        | .error e => .error e
        | .ok (s, l1) =>
          match newDistance s y x (-k) with
          | .error e => .error e
          | .ok (s, l2) => s.newConj E [l1, l2]
      else .ok (s, falseLit)
    else .error .ub

/-- `idl_theory::new_geq` (`idl_theory.cpp:198-246`). -/
def newGeq (s : Sat (DL W)) (l r : Lin) : Except Err (Sat (DL W) × Lit) :=
  match form (W := W) (l.sub r) with
  | none => .error .invalid
  | some (.const k) => .ok (s, constLit (decide (k ≥ 0)))
  | some (.diff true x y k) => newDistance s y x (-k)
  | some (.diff false x y k) => newDistance s x y k

/-- `idl_theory::new_gt` (`idl_theory.cpp:248-296`), `rdl_theory::new_gt` (`rdl_theory.cpp:236-280`). In the integer theory the two-variable case
with a positive first coefficient calls `new_distance(v0, v1, kt, -1)` (line 291). -/
def newGt (E : Env) (s : Sat (DL W)) (l r : Lin) : Except Err (Sat (DL W) × Lit) :=
  match form (W := W) (l.sub r) with
  | none => .error .invalid
  | some (.const k) => .ok (s, constLit (decide (k > 0)))
  | some (.diff true x y k) => newDistance s y x (-k - Dom.one)
  | some (.diff false x y k) =>
    if Dom.gtSplit W && (l.sub r).vars.length == 2 then newDistance2 E s x y k (-Dom.one)
    else newDistance s x y (k - Dom.one)

end
end DL
end
end Semitone
