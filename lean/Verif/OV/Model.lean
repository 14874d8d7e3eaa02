import Verif.Sat.PropsC

/-!
# Model of the object variables

Model of `/repo/include/ov/ov_theory.h` and `/repo/src/ov/ov_theory.cpp`.

A core `Sat T` with any theories, and beside it the state of the object-variable theory: its `propagate`, `check`, `push` and `pop` do nothing
(`ov_theory.h:32-35`), so its state never changes inside the core. `V` is the type of the values (`utils::enum_val *`, compared by address).
An `std::unordered_map<enum_val *, lit>` is a list of pairs with distinct keys; the order in which it is traversed is a parameter.
-/
namespace Semitone

/-- The state of `ov_theory` (`ov_theory.h:40-42`): `assigns`, `exprs` (keyed by the pair of variables: the text `"=e" l "e" r` determines it) and
`is_contained_in`. -/
structure OV (V : Type) where
  doms : List (List (V × Lit))
  exprs : List ((Nat × Nat) × Lit)
  cont : Nat → List Nat

/-- The order in which the maps are traversed (`std::unordered_map`, `ov_theory.h:40`). -/
structure OEnv (V : Type) where
  ord : List (V × Lit) → List (V × Lit)
  ord_perm : ∀ l, (ord l).Perm l

namespace OV
variable {T V : Type} [DecidableEq V]

/-- A new theory (`ov_theory.cpp:8`). -/
def init : OV V := ⟨[], [], fun _ => []⟩

/-- `unordered_map::emplace`: the first value stays (`ov_theory.cpp:16`, `22`, `48`). -/
def emplace (m : List (V × Lit)) (a : V) (l : Lit) : List (V × Lit) :=
  match m.lookup a with
  | some _ => m
  | none => m ++ [(a, l)]

/-- `is_contained_in[v].insert(id)` (`ov_theory.cpp:24`, `49`). -/
def contain (c : Nat → List Nat) (v id : Nat) : Nat → List Nat := upd c v (if id ∈ c v then c v else id :: c v)

/-- The loop that creates the variables of the values (`ov_theory.cpp:19-25`); `i` is the index of the theory in the core, `id` the new object variable. -/
def fresh (i id : Nat) : List V → Sat T → List (V × Lit) → (Nat → List Nat) → Sat T × List (V × Lit) × (Nat → List Nat)
  | [], s, m, c => (s, m, c)
  | a :: as, s, m, c => fresh i id as (s.newVar.1.bind s.newVar.2 i) (emplace m a ⟨s.newVar.2, true⟩) (contain c s.newVar.2 id)

/-- `ov_theory::new_var(items, enforce_exct_one)` (`ov_theory.cpp:10-38`). A failing `assert` is an error; `lits` (`ov_theory.cpp:28-31`) has one literal for each item, with
repetitions. -/
def newVar (E : Env) (i : Nat) (s : Sat T) (o : OV V) (items : List V) (enforce : Bool) : Except Err (Sat T × OV V × Nat) :=
  match items with
  | [] => .error .assert
  | [a] => .ok (s, { o with doms := o.doms ++ [[(a, TRUE_lit)]] }, o.doms.length)
  | _ =>
    let f := fresh i o.doms.length items s [] o.cont
    let o' : OV V := { o with doms := o.doms ++ [f.2.1], cont := f.2.2 }
    if enforce then
      match f.1.newEXO E (items.map (fun a => (f.2.1.lookup a).getD FALSE_lit)) with
      | .error e => .error e
      | .ok (s, r) =>
        match s.newClause E [r] with
        | .error e => .error e
        | .ok (_, false) => .error .assert
        | .ok (s, true) => .ok (s, o', o.doms.length)
    else .ok (f.1, o', o.doms.length)

/-- `ov_theory::new_var(lits, vals)` (`ov_theory.cpp:40-53`). -/
def newVarLits (o : OV V) (lits : List Lit) (vals : List V) : Except Err (OV V × Nat) :=
  if lits = [] ∨ lits.length ≠ vals.length then .error .assert
  else .ok ({ o with
      doms := o.doms ++ [(vals.zip lits).foldl (fun m p => emplace m p.1 p.2) []]
      cont := lits.foldl (fun c l => contain c l.var o.doms.length) o.cont }, o.doms.length)

/-- `assigns[v]` (`ov_theory.cpp:57`, `120`). -/
def dom (o : OV V) (v : Nat) : List (V × Lit) := (o.doms[v]?).getD []

/-- `ov_theory::allows` (`ov_theory.cpp:55-61`); `assigns[v]` with an unknown variable is undefined behaviour. -/
def allows (o : OV V) (v : Nat) (a : V) : Lit := ((o.dom v).lookup a).getD FALSE_lit

/-- `ov_theory::value` (`ov_theory.cpp:117-124`). -/
def value (s : Sat T) (o : OV V) (v : Nat) : List V := ((o.dom v).filter (fun p => s.value p.2 ≠ some false)).map Prod.fst

/-- The values of `m` that `m'` has too (`ov_theory.cpp:76-79`). -/
def inter (m m' : List (V × Lit)) : List (V × Lit) := m.filter (fun p => (m'.lookup p.1).isSome)

/-- The clauses of an equality (`ov_theory.cpp:88-110`), in the order in which they are posted. -/
def eqClauses (D : OEnv V) (ml mr : List (V × Lit)) (e : Lit) : List (List Lit) :=
  ((D.ord ml).filter (fun p => (mr.lookup p.1).isNone)).map (fun p => [e.neg, p.2.neg]) ++
  ((D.ord mr).filter (fun p => (ml.lookup p.1).isNone)).map (fun p => [e.neg, p.2.neg]) ++
  (D.ord (inter ml mr)).flatMap (fun p =>
    let r := (mr.lookup p.1).getD FALSE_lit
    [[e.neg, p.2.neg, r], [e.neg, p.2, r.neg], [e, p.2.neg, r.neg]])

/-- `ov_theory::new_eq` (`ov_theory.cpp:63-115`): after the variables are ordered (`ov_theory.cpp:65-69`). -/
def newEqOrd (E : Env) (D : OEnv V) (s : Sat T) (o : OV V) (l r : Nat) : Except Err (Sat T × OV V × Lit) :=
  match o.exprs.lookup (l, r) with
  | some q => .ok (s, o, q)
  | none =>
    if inter (o.dom l) (o.dom r) = [] then .ok (s, o, FALSE_lit)
    else
      let q : Lit := ⟨s.newVar.2, true⟩
      match s.newVar.1.postAll E (eqClauses D (o.dom l) (o.dom r) q) with
      | .error e => .error e
      | .ok (_, false) => .error .assert
      | .ok (s, true) => .ok (s, { o with exprs := ((l, r), q) :: o.exprs }, q)

/-- `ov_theory::new_eq` (`ov_theory.cpp:63-115`). -/
def newEq (E : Env) (D : OEnv V) (s : Sat T) (o : OV V) (l r : Nat) : Except Err (Sat T × OV V × Lit) :=
  if l = r then .ok (s, o, TRUE_lit)
  else if o.doms.length ≤ l ∨ o.doms.length ≤ r then .error .ub
  else if r < l then newEqOrd E D s o r l
  else newEqOrd E D s o l r

end OV
end Semitone
