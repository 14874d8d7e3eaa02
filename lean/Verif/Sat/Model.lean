import Verif.Lit

/-!
# Model of the propositional core

Model of `/repo/src/sat_core.cpp`, `/repo/src/clause.cpp`, `/repo/src/constr.cpp`, `/repo/src/theory.cpp`,
`/repo/src/sat_stack.cpp` and the corresponding headers.

Conventions.
* `utils::lbool` is `Option Bool` (`none` = Undefined).
* A `constr *` is a clause identifier (`Nat`); the heap is the field `db`.
* Vectors used as stacks (`trail`, `trail_lim`, `decisions`) are lists with the *newest element first*.
* Failures the code can run into are values of `Err`, never ignored.
-/
namespace Semitone

/-- Ways in which a call can go wrong (not in the code: out-of-range accesses, failing `assert`, exceptions escaping `noexcept` functions). -/
inductive Err where
  /-- out-of-range access, `back()` of an empty vector, dangling pointer. -/
  | ub
  /-- a failing `assert`. -/
  | assert
  /-- an exception leaving a `noexcept` function (`std::terminate`). -/
  | terminate
  /-- a documented exception (`std::invalid_argument`). -/
  | invalid
  /-- the model's loop bound is exhausted (proved impossible where termination is claimed). -/
  | fuel
  /-- not an outcome of the program: the histories that a theorem excludes are cut off with it. -/
  | excluded
deriving DecidableEq, Repr

/-- Point update of a function; models a write to a vector or map cell (for instance `sat_core.cpp:591-593`). -/
def upd {α β : Type} [DecidableEq α] (f : α → β) (a : α) (b : β) : α → β :=
  fun x => if x = a then b else f x

/-- What `std::sort` may do: any function that returns a sorted permutation (the sort is not stable, so the
order of ties is unspecified). `sortVar` is the sort by variable (`sat_core.cpp:58`), `sortLvl` the sort by
descending level (`sat_core.cpp:574`). -/
structure Env where
  sortVar : List Lit → List Lit
  sortVar_perm : ∀ l, (sortVar l).Perm l
  sortVar_sorted : ∀ l, (sortVar l).Pairwise (fun a b => a.var ≤ b.var)
  sortLvl : (Nat → Nat) → List Lit → List Lit
  sortLvl_perm : ∀ f l, (sortLvl f l).Perm l
  sortLvl_sorted : ∀ f l, (sortLvl f l).Pairwise (fun a b => f b.var ≤ f a.var)

/-- What a theory does when it is asked to propagate a literal (`theory.h:49`): it may record clauses
(`theory::record`, `theory.cpp:51`), after which it sees the new values, and finally succeeds or returns the
conflict it left in `cnfl`. -/
inductive TAct (T : Type) where
  | ok (t : T)
  | confl (t : T) (cnfl : List Lit)
  | record (cl : List Lit) (k : (Lit → Option Bool) → TAct T)
  | fail (e : Err)

/-- The virtual interface of `theory` (`theory.h:41-66`). `T` is the joint state of all the theories registered in the
core, `ids` their registration order (`theory.cpp:8`). `check` returns the conflict, if any (no theory of the
repository records clauses in `check`). -/
structure TheoryOps (T : Type) where
  ids : List Nat
  propagate : Nat → T → (Lit → Option Bool) → Lit → TAct T
  check : Nat → T → (Lit → Option Bool) → Except Err (T × Option (List Lit))
  push : T → T
  pop : T → Except Err T

/-- No theory at all: the plain propositional core (`theories` of `sat_core.h:167` is empty). -/
def noTheory : TheoryOps Unit where
  ids := []
  propagate := fun _ t _ _ => .ok t
  check := fun _ t _ => .ok (t, none)
  push := id
  pop := .ok

/-- `class sat_core` (`sat_core.h:20-178`). `posted` and `dead` are ghosts: the clauses posted by the user and
whether a definitive inconsistency has been reported; no definition reads them. `notes` is the log of
`sat_value_change` notifications, newest first, as (listener, variable, value the listener can read during the call). -/
structure Sat (T : Type) where
  nvars : Nat
  ncls : Nat
  db : Nat → List Lit
  constrs : List Nat
  watches : Lit → List Nat
  assigns : Nat → Option Bool
  propQ : List Lit
  trail : List Lit
  trailLim : List Nat
  decisions : List Lit
  reason : Nat → Option Nat
  level : Nat → Nat
  exprs : List (String × Lit)
  bounds : Nat → List Nat
  listening : Nat → List Nat
  notes : List (Nat × Nat × Option Bool)
  th : T
  posted : List (List Lit)
  dead : Bool

namespace Sat
variable {T : Type}

/-- `value(lit)` (`sat_core.h:121-133`). `assigns.at(x)` throws for unknown variables; range checks are done where
literals enter the API (`inRange`). -/
def value (s : Sat T) (p : Lit) : Option Bool := (s.assigns p.var).map (fun b => b == p.sign)

/-- `decision_level()` (`sat_core.h:134`). -/
def dl (s : Sat T) : Nat := s.trailLim.length

/-- `root_level()` (`sat_core.h:135`). -/
def root (s : Sat T) : Bool := s.trailLim.isEmpty

/-- Literals of existing variables (`assigns.at`, `sat_core.h:121`). -/
def inRange (s : Sat T) (ls : List Lit) : Bool := ls.all (fun l => l.var < s.nvars)

/-- `sat_core::new_var` (`sat_core.cpp:42-52`). -/
def newVar (s : Sat T) : Sat T × Nat :=
  let id := s.nvars
  ({ s with
      nvars := id + 1
      watches := upd (upd s.watches ⟨id, false⟩ []) ⟨id, true⟩ []
      assigns := upd s.assigns id none
      exprs := ("b" ++ toString id, ⟨id, true⟩) :: s.exprs
      level := upd s.level id 0
      reason := upd s.reason id none }, id)

/-- `sat_core::sat_core()` (`sat_core.cpp:11-17`): the constant `FALSE_var` is variable 0, false at level 0, and is *not*
on the trail. -/
def init (t : T) : Sat T :=
  let s : Sat T :=
    { nvars := 0, ncls := 0, db := fun _ => [], constrs := [], watches := fun _ => [], assigns := fun _ => none,
      propQ := [], trail := [], trailLim := [], decisions := [], reason := fun _ => none, level := fun _ => 0,
      exprs := [], bounds := fun _ => [], listening := fun _ => [], notes := [], th := t, posted := [], dead := false }
  let s := s.newVar.1
  { s with assigns := upd s.assigns 0 (some false), level := upd s.level 0 0 }

/-- `sat_core::enqueue` (`sat_core.cpp:585-606`). Listeners are notified in some order of the set; at root level the
registration is then erased. -/
def enqueue (s : Sat T) (p : Lit) (c : Option Nat) : Sat T × Bool :=
  match s.value p with
  | some b => (s, b)
  | none =>
    ({ s with
        assigns := upd s.assigns p.var (some p.sign)
        level := upd s.level p.var s.dl
        reason := upd s.reason p.var c
        trail := p :: s.trail
        propQ := s.propQ ++ [p]
        notes := (s.listening p.var).map (fun l => (l, p.var, some p.sign)) ++ s.notes
        listening := if s.root then upd s.listening p.var [] else s.listening }, true)

/-- `sat_core::pop_one` (`sat_core.cpp:608-618`). `trail.back()` of an empty trail is undefined behaviour; all callers
check (`pop`) or are guarded (`analyzeGo`), so the model leaves the state unchanged there. -/
def popOne (s : Sat T) : Sat T :=
  match s.trail with
  | [] => s
  | p :: tr =>
    { s with
        assigns := upd s.assigns p.var none
        level := upd s.level p.var 0
        reason := upd s.reason p.var none
        trail := tr
        notes := (s.listening p.var).map (fun l => (l, p.var, none)) ++ s.notes }

/-- `n` times `pop_one` (the loop `sat_core.cpp:371-372`). -/
def popN : Nat → Sat T → Sat T
  | 0, s => s
  | n + 1, s => popN n s.popOne

/-- `sat_core::pop` (`sat_core.cpp:368-378`). The loop `while (trail_lim.back() < trail.size()) pop_one()` runs
`trail.size() - trail_lim.back()` times. -/
def pop (O : TheoryOps T) (s : Sat T) : Except Err (Sat T) :=
  match s.trailLim, s.decisions with
  | lim :: lims, _ :: ds =>
    let s := popN (s.trail.length - lim) s
    match O.pop s.th with
    | .error e => .error e
    | .ok t => .ok { s with trailLim := lims, decisions := ds, th := t }
  | _, _ => .error .ub

/-- `n` times `pop()`: the loops `while (decision_level() > bt_level) pop()` (`sat_core.cpp:420`, `theory.cpp:46`). -/
def popLevels (O : TheoryOps T) : Nat → Sat T → Except Err (Sat T)
  | 0, s => .ok s
  | n + 1, s =>
    match s.pop O with
    | .error e => .error e
    | .ok s => popLevels O n s

/-- Constructor of `clause` (`clause.cpp:8-14`): allocates the clause and watches its first two literals. -/
def newClauseObj (s : Sat T) (lits : List Lit) : Except Err (Sat T × Nat) :=
  match lits with
  | l0 :: l1 :: _ =>
    let w := upd s.watches l0.neg (s.watches l0.neg ++ [s.ncls])
    let w := upd w l1.neg (w l1.neg ++ [s.ncls])
    .ok ({ s with ncls := s.ncls + 1, db := upd s.db s.ncls lits, watches := w }, s.ncls)
  | _ => .error .assert

/-- Splits a list at the first literal that is not false: the search of `clause.cpp:39-45`. -/
def findNonFalse (val : Lit → Option Bool) : List Lit → Option (List Lit × Lit × List Lit)
  | [] => none
  | l :: ls =>
    if val l ≠ some false then some ([], l, ls)
    else match findNonFalse val ls with
      | none => none
      | some (pre, x, post) => some (l :: pre, x, post)

/-- `clause::propagate` after the reordering that puts the false literal in second position (`clause.cpp:31-49`): the clause is
`a :: b :: rest`. -/
def clausePropagateAB (s : Sat T) (c : Nat) (p a b : Lit) (rest : List Lit) : Except Err (Sat T × Bool) :=
  if s.value a = some true then
    .ok ({ s with db := upd s.db c (a :: b :: rest), watches := upd s.watches p (s.watches p ++ [c]) }, true)
  else
    match findNonFalse s.value (b :: rest) with
    | some ([], x, post) =>   -- i = 1: `std::swap` of an element with itself
      .ok ({ s with db := upd s.db c (a :: x :: post),
                    watches := upd s.watches x.neg (s.watches x.neg ++ [c]) }, true)
    | some (b' :: pre, x, post) => -- i ≥ 2: lits[1] and lits[i] are swapped
      .ok ({ s with db := upd s.db c (a :: x :: (pre ++ b' :: post)),
                    watches := upd s.watches x.neg (s.watches x.neg ++ [c]) }, true)
    | none =>
      .ok (({ s with db := upd s.db c (a :: b :: rest),
                     watches := upd s.watches p (s.watches p ++ [c]) } : Sat T).enqueue a (some c))

/-- `clause::propagate` (`clause.cpp:25-50`). Returns the new state and whether the clause is not conflicting. -/
def clausePropagate (s : Sat T) (c : Nat) (p : Lit) : Except Err (Sat T × Bool) :=
  match s.db c with
  | l0 :: l1 :: rest =>
    -- make sure the false literal is `lits[1]` (lines 28-29)
    if l0.var = p.var then s.clausePropagateAB c p l1 l0 rest else s.clausePropagateAB c p l0 l1 rest
  | _ => .error .ub

/-- The loop over the watchers of `p` (`sat_core.cpp:406-410`). On a conflict the remaining watchers are put back and
the conflicting clause is returned. -/
def visit (p : Lit) : List Nat → Sat T → Except Err (Sat T × Option Nat)
  | [], s => .ok (s, none)
  | c :: cs, s =>
    match s.clausePropagate c p with
    | .error e => .error e
    | .ok (s, true) => visit p cs s
    | .ok (s, false) => .ok ({ s with watches := upd s.watches p (s.watches p ++ cs) }, some c)

/-- `clause::get_reason` (`clause.cpp:68-77`); `none` models the undefined literal. -/
def getReason (s : Sat T) (lits : List Lit) (p : Option Lit) : Except Err (List Lit) :=
  match p with
  | none => if lits.all (fun l => s.value l == some false) then .ok (lits.map Lit.neg) else .error .assert
  | some p =>
    match lits with
    | [] => .error .assert
    | l0 :: rest =>
      if p = l0 ∧ rest.all (fun l => s.value l == some false) then .ok (rest.map Lit.neg) else .error .assert

/-- Local variables of `sat_core::analyze` (`sat_core.cpp:513-519`). `learnt` is `out_learnt` without its first element. -/
structure An where
  seen : List Nat
  counter : Int
  learnt : List Lit
  bt : Nat

/-- One iteration of the loop over `p_reason` (`sat_core.cpp:523-534`). -/
def explainStep (s : Sat T) (a : An) (q : Lit) : Except Err An :=
  if q.var ∈ a.seen then .ok a
  else if s.value q ≠ some true then .error .assert
  else if s.level q.var = s.dl then .ok { a with seen := q.var :: a.seen, counter := a.counter + 1 }
  else if 0 < s.level q.var then
    .ok { a with seen := q.var :: a.seen, learnt := a.learnt ++ [q.neg], bt := max a.bt (s.level q.var) }
  else .ok { a with seen := q.var :: a.seen }

/-- The loop over `p_reason` (`sat_core.cpp:523-534`). -/
def explain (s : Sat T) : List Lit → An → Except Err An
  | [], a => .ok a
  | q :: qs, a =>
    match s.explainStep a q with
    | .error e => .error e
    | .ok a => explain s qs a

/-- `p_reason` after looking at the literal `p` of the trail (`sat_core.cpp:540-544`): it is replaced only if `p` has a reason. -/
def reasonLits (s : Sat T) (p : Lit) (pr : List Lit) : Except Err (List Lit) :=
  match s.reason p.var with
  | some c => s.getReason (s.db c) (some p)
  | none => .ok pr

/-- The two nested loops of `sat_core::analyze` (`sat_core.cpp:520-553`), from the point where `p_reason` has just been
traced. Every iteration removes one literal of the trail, so `trail.size() + 1` iterations are enough. Returns the
state, the learnt clause and the backtrack level. -/
def analyzeGo : Nat → Sat T → An → List Lit → Except Err (Sat T × List Lit × Nat)
  | 0, _, _, _ => .error .fuel
  | n + 1, s, a, pr =>
    match s.trail with
    | [] => .error .ub
    | p :: _ =>
      if s.level p.var ≠ s.dl then .error .assert
      else
        match s.reasonLits p pr with
        | .error e => .error e
        | .ok pr =>
          let s' := s.popOne
          if p.var ∈ a.seen then
            let a := { a with counter := a.counter - 1 }
            if 0 < a.counter then
              match s'.explain pr a with
              | .error e => .error e
              | .ok a => analyzeGo n s' a pr
            else if a.learnt.all (fun l => s'.value l == some false) then
              .ok (s', p.neg :: a.learnt, a.bt)
            else .error .assert
          else analyzeGo n s' a pr

/-- `sat_core::analyze` (`sat_core.cpp:511-554`) on the conflict clause `lits`. -/
def analyze (s : Sat T) (lits : List Lit) : Except Err (Sat T × List Lit × Nat) :=
  match s.getReason lits none with
  | .error e => .error e
  | .ok pr =>
    match s.explain pr { seen := [], counter := 0, learnt := [], bt := 0 } with
    | .error e => .error e
    | .ok a => analyzeGo (s.trail.length + 1) s a pr

/-- `sat_core::record` (`sat_core.cpp:556-583`). The four asserts (lines 558-564) say: the first literal is undefined and all
the others are false. -/
def record (E : Env) (s : Sat T) (lits : List Lit) : Except Err (Sat T) :=
  match lits with
  | [] => .error .ub
  | l0 :: rest =>
    if s.inRange lits = false then .error .terminate
    else if s.value l0 = none ∧ rest.all (fun l => s.value l == some false) then
      match rest with
      | [] => if s.root then .ok (s.enqueue l0 none).1 else .error .assert
      | _ :: _ =>
        match s.newClauseObj (l0 :: E.sortLvl s.level rest) with
        | .error e => .error e
        | .ok (s, c) =>
          let s := (s.enqueue l0 (some c)).1
          .ok { s with constrs := s.constrs ++ [c] }
    else .error .assert

/-- Analysis of a conflict, backjump and recording of the no-good (`sat_core.cpp:416-423`). -/
def resolveConflict (E : Env) (O : TheoryOps T) (s : Sat T) (cl : List Lit) : Except Err (Sat T) :=
  match s.analyze cl with
  | .error e => .error e
  | .ok (s, ng, bt) =>
    match popLevels O (s.dl - bt) s with
    | .error e => .error e
    | .ok s => s.record E ng

/-- `theory::analyze_and_backjump` (`theory.cpp:34-50`). The temporary clause object built for the analysis
(`theory.cpp:37`, which asserts at least two literals) is registered in the watch lists and removed again before
anything reads them; the model does not register it. -/
def analyzeAndBackjump (E : Env) (O : TheoryOps T) (s : Sat T) (cnfl : List Lit) : Except Err (Sat T) :=
  match cnfl with
  | _ :: _ :: _ => if s.inRange cnfl then s.resolveConflict E O cnfl else .error .terminate
  | _ => .error .assert

/-- Runs what a theory decided to do (`TAct`): the calls of `record` that a theory makes (`theory.cpp:51`) and the conflict it leaves in `cnfl` (`theory.h:70`). -/
def runAct (E : Env) : TAct T → Sat T → Except Err (Sat T × Option (List Lit))
  | .ok t, s => .ok ({ s with th := t }, none)
  | .confl t cl, s => .ok ({ s with th := t }, some cl)
  | .record cl k, s =>
    match s.record E cl with
    | .error e => .error e
    | .ok s => runAct E (k s.value) s
  | .fail e, _ => .error e

/-- The loop over the theories bound to the variable of `p` (`sat_core.cpp:431-446`), up to the first conflict. -/
def runBinds (E : Env) (O : TheoryOps T) (p : Lit) : List Nat → Sat T → Except Err (Sat T × Option (List Lit))
  | [], s => .ok (s, none)
  | i :: is, s =>
    match runAct E (O.propagate i s.th s.value p) s with
    | .error e => .error e
    | .ok (s, some cl) => .ok (s, some cl)
    | .ok (s, none) => runBinds E O p is s

/-- The loop over the theories' `check` (`sat_core.cpp:453-465`), up to the first conflict. -/
def runChecks (O : TheoryOps T) : List Nat → Sat T → Except Err (Sat T × Option (List Lit))
  | [], s => .ok (s, none)
  | i :: is, s =>
    match O.check i s.th s.value with
    | .error e => .error e
    | .ok (t, some cl) => .ok ({ s with th := t }, some cl)
    | .ok (t, none) => runChecks O is { s with th := t }

/-- `sat_core::propagate` (`sat_core.cpp:396-468`), one iteration of the main loop per unit of fuel. -/
def propLoop (E : Env) (O : TheoryOps T) : Nat → Sat T → Except Err (Sat T × Bool)
  | 0, _ => .error .fuel
  | n + 1, s =>
    match s.propQ with
    | p :: q =>
      let tmp := s.watches p
      match visit p tmp { s with propQ := q, watches := upd s.watches p [] } with
      | .error e => .error e
      | .ok (s, some c) =>
        let s := { s with propQ := [] }
        if s.root then .ok ({ s with dead := true }, false)
        else
          match s.resolveConflict E O (s.db c) with
          | .error e => .error e
          | .ok s => propLoop E O n s
      | .ok (s, none) =>
        match runBinds E O p (s.bounds p.var) s with
        | .error e => .error e
        | .ok (s, some cl) =>
          let s := { s with propQ := [] }
          if s.root then .ok ({ s with dead := true }, false)
          else
            match s.analyzeAndBackjump E O cl with
            | .error e => .error e
            | .ok s => propLoop E O n s
        | .ok (s, none) =>
          propLoop E O n (if s.root then { s with bounds := upd s.bounds p.var [] } else s)
    | [] =>
      match runChecks O O.ids s with
      | .error e => .error e
      | .ok (s, none) => .ok (s, true)
      | .ok (s, some cl) =>
        if s.root then .ok ({ s with dead := true }, false)
        else
          match s.analyzeAndBackjump E O cl with
          | .error e => .error e
          | .ok s => propLoop E O n s

/-- Not in the code, whose loop (`sat_core.cpp:399-468`) has no bound: a number of iterations that always suffices (proved in `Sat/Total.lean` for the propositional core): every conflict
lowers the decision level, and between two conflicts every iteration consumes a queued literal. -/
def propFuel (s : Sat T) : Nat := (s.dl + 1) * (2 * s.nvars + s.propQ.length + 3)

/-- `sat_core::propagate` (`sat_core.cpp:396-468`). -/
def propagate (E : Env) (O : TheoryOps T) (s : Sat T) : Except Err (Sat T × Bool) := propLoop E O s.propFuel s

/-- The filtering loop of `new_clause`, `new_disj` (`stop = true`: `sat_core.cpp:62-70`, `197-206`) and `new_conj`
(`stop = false`: `152-161`). `p` is the last literal kept (`none` models the undefined `lit p`). `none` means that
a literal with value `stop`, or complementary to the last kept one, was met. -/
def filt (stop : Bool) (val : Lit → Option Bool) : Option Lit → List Lit → Option (List Lit)
  | _, [] => some []
  | p, l :: ls =>
    if val l = some stop ∨ some l = p.map Lit.neg then none
    else if val l ≠ some (!stop) ∧ some l ≠ p then (filt stop val (some l) ls).map (l :: ·)
    else filt stop val p ls

/-- `sat_core::new_clause` (`sat_core.cpp:54-82`). Unknown variables make `assigns.at` throw in a `noexcept` function; the
model checks all of them first. -/
def newClause (E : Env) (s : Sat T) (lits : List Lit) : Except Err (Sat T × Bool) :=
  if s.root = false then .error .assert
  else if s.inRange lits = false then .error .terminate
  else
    let s' := { s with posted := lits :: s.posted }
    match filt true s.value none (E.sortVar lits) with
    | none => .ok (s', true)
    | some [] => .ok ({ s' with dead := true }, false)
    | some [l] => .ok (s'.enqueue l none)
    | some ls =>
      match s'.newClauseObj ls with
      | .error e => .error e
      | .ok (s', c) => .ok ({ s' with constrs := s'.constrs ++ [c] }, true)

/-- `exprs.find` (`sat_core.cpp:127` etc.). -/
def findExpr (s : Sat T) (k : String) : Option Lit := s.exprs.lookup k

/-- `exprs.emplace` (`sat_core.cpp:138` etc.); only called when the key is absent. -/
def addExpr (s : Sat T) (k : String) (l : Lit) : Sat T := { s with exprs := (k, l) :: s.exprs }

/-- Posts a list of clauses, stopping at the first `new_clause` that returns false (the sequences of
`if (!new_clause(..)) return FALSE_lit`). -/
def postAll (E : Env) : List (List Lit) → Sat T → Except Err (Sat T × Bool)
  | [], s => .ok (s, true)
  | c :: cs, s =>
    match s.newClause E c with
    | .error e => .error e
    | .ok (s, false) => .ok (s, false)
    | .ok (s, true) => postAll E cs s

/-- Posts the defining clauses of `ctr` and remembers the expression (tails of the `new_*` functions: `sat_core.cpp:129-139`, `169-184`, `214-229`). -/
def define (E : Env) (s : Sat T) (key : String) (ctr : Lit) (cls : List (List Lit)) : Except Err (Sat T × Lit) :=
  match postAll E cls s with
  | .error e => .error e
  | .ok (s, false) => .ok (s, FALSE_lit)
  | .ok (s, true) => .ok (s.addExpr key ctr, ctr)

/-- `operator<` on literals (`lit.h:42`). -/
def litLt (a b : Lit) : Bool := a.index < b.index

/-- Key of an equality (`sat_core.cpp:126`). -/
def eqKey (l r : Lit) : String := "=" ++ (if litLt l r then l.str ++ r.str else r.str ++ l.str)

/-- `sat_core::new_eq` (`sat_core.cpp:84-141`). -/
def newEq (E : Env) (s : Sat T) (left right : Lit) : Except Err (Sat T × Lit) :=
  if s.root = false then .error .assert
  else if s.inRange [left, right] = false then .error .terminate
  else if left = right then .ok (s, TRUE_lit)
  else match s.value left, s.value right with
    | some true, some true => .ok (s, TRUE_lit)
    | some true, some false => .ok (s, FALSE_lit)
    | some true, none => .ok (s, if left.sign = right.sign then right else right.neg)
    | some false, some true => .ok (s, FALSE_lit)
    | some false, some false => .ok (s, TRUE_lit)
    | some false, none => .ok (s, if left.sign = right.sign then right.neg else right)
    | none, some true => .ok (s, if left.sign = right.sign then left else left.neg)
    | none, some false => .ok (s, if left.sign = right.sign then left.neg else left)
    | none, none =>
      match s.findExpr (eqKey left right) with
      | some l => .ok (s, l)
      | none =>
        let (s, v) := s.newVar
        let ctr : Lit := ⟨v, true⟩
        define E s (eqKey left right) ctr
          [[ctr.neg, left.neg, right], [ctr.neg, left, right.neg], [ctr, left.neg, right.neg]]

/-- Concatenation of the printed literals (`s_expr += to_string(p)`, `sat_core.cpp:158`, `203`, `252`, `261`, `326`, `335`). -/
def litsStr (ls : List Lit) : String := ls.foldr (fun l acc => l.str ++ acc) ""

/-- `sat_core::new_conj` (`sat_core.cpp:143-186`). -/
def newConj (E : Env) (s : Sat T) (ls : List Lit) : Except Err (Sat T × Lit) :=
  if s.root = false then .error .assert
  else if s.inRange ls = false then .error .terminate
  else match filt false s.value none (E.sortVar ls) with
    | none => .ok (s, FALSE_lit)
    | some [] => .ok (s, TRUE_lit)
    | some [l] => .ok (s, l)
    | some ls =>
      match s.findExpr ("&" ++ litsStr ls) with
      | some l => .ok (s, l)
      | none =>
        let (s, v) := s.newVar
        let ctr : Lit := ⟨v, true⟩
        define E s ("&" ++ litsStr ls) ctr (ls.map (fun l => [ctr.neg, l]) ++ [ctr :: ls.map Lit.neg])

/-- `sat_core::new_disj` (`sat_core.cpp:188-231`). -/
def newDisj (E : Env) (s : Sat T) (ls : List Lit) : Except Err (Sat T × Lit) :=
  if s.root = false then .error .assert
  else if s.inRange ls = false then .error .terminate
  else match filt true s.value none (E.sortVar ls) with
    | none => .ok (s, TRUE_lit)
    | some [] => .ok (s, FALSE_lit)
    | some [l] => .ok (s, l)
    | some ls =>
      match s.findExpr ("|" ++ litsStr ls) with
      | some l => .ok (s, l)
      | none =>
        let (s, v) := s.newVar
        let ctr : Lit := ⟨v, true⟩
        define E s ("|" ++ litsStr ls) ctr (ls.map (fun l => [l.neg, ctr]) ++ [ctr.neg :: ls])

/-- The filtering loop of `new_at_most_one` and `new_exct_one` (`sat_core.cpp:242-264`, `316-338`): once a true literal is
met, the remaining ones are filtered as in a clause. -/
def amoFilt (val : Lit → Option Bool) : Option Lit → List Lit → Option (List Lit)
  | _, [] => some []
  | p, l :: ls =>
    if val l = some true then filt true val p ls
    else if val l ≠ some false ∧ some l ≠ p then (amoFilt val (some l) ls).map (l :: ·)
    else amoFilt val p ls

/-- All pairs `(ls[i], ls[j])` with `i < j`, in the order of the loops of `sat_core.cpp:275-276`. -/
def pairs : List Lit → List (Lit × Lit)
  | [] => []
  | l :: ls => ls.map (fun m => (l, m)) ++ pairs ls

/-- `ceil(sqrt(n))` (`sat_core.cpp:284`): the least `k` with `n ≤ k * k`. The code computes it in `double`, which is exact for
every size a vector can have in practice (`n < 2^52`). -/
def ceilSqrt (n : Nat) : Nat := go n 0
where
  go : Nat → Nat → Nat
    | 0, k => k
    | f + 1, k => if n ≤ k * k then k else go f (k + 1)

/-- `n` fresh variables, as literals (`sat_core.cpp:288-291`). -/
def newVars : Nat → Sat T → Sat T × List Lit
  | 0, s => (s, [])
  | n + 1, s =>
    let (s, v) := s.newVar
    let (s, vs) := newVars n s
    (s, ⟨v, true⟩ :: vs)

/-- The clauses linking the literals to the rows and columns of the product encoding (`sat_core.cpp:295-299`): for literal
number `k = i * qs + j`, `(¬ls[k] ∨ u[i] ∨ ¬ctr)` and `(¬ls[k] ∨ v[j] ∨ ¬ctr)`. The code enumerates `i`, `j` and skips
`k ≥ ls.size()`; the model enumerates `k`, which visits the same clauses in the same order. -/
def gridClauses (ls u v : List Lit) (qs : Nat) (ctr : Lit) : List (List Lit) :=
  (ls.zipIdx).flatMap (fun lk =>
    match u[lk.2 / qs]?, v[lk.2 % qs]? with
    | some ui, some vj => [[lk.1.neg, ui, ctr.neg], [lk.1.neg, vj, ctr.neg]]
    | _, _ => [])

/-- `sat_core::new_at_most_one` (`sat_core.cpp:233-305`). The recursive calls are on `ceil(sqrt n)` and
`ceil(n / ceil(sqrt n))` fresh literals, so `ls.size() + 1` levels of recursion are enough. -/
def newAMOGo (E : Env) : Nat → Sat T → List Lit → Except Err (Sat T × Lit)
  | 0, _, _ => .error .fuel
  | f + 1, s, ls =>
    if s.root = false then .error .assert
    else if s.inRange ls = false then .error .terminate
    else match amoFilt s.value none (E.sortVar ls) with
      | none => .ok (s, FALSE_lit)
      | some [] => .ok (s, TRUE_lit)
      | some [_] => .ok (s, TRUE_lit)
      | some ls =>
        match s.findExpr ("amo" ++ litsStr ls) with
        | some l => .ok (s, l)
        | none =>
          if ls.length < 4 then
            let (s, x) := s.newVar
            let ctr : Lit := ⟨x, true⟩
            define E s ("amo" ++ litsStr ls) ctr
              ((pairs ls).map (fun (a, b) => [a.neg, b.neg, ctr.neg]))
          else
            let ps := ceilSqrt ls.length
            let qs := (ls.length + ps - 1) / ps
            let (s, u) := newVars ps s
            let (s, v) := newVars qs s
            match newAMOGo E f s u with
            | .error e => .error e
            | .ok (s, au) =>
              match newAMOGo E f s v with
              | .error e => .error e
              | .ok (s, av) =>
                match newConj E s [au, av] with
                | .error e => .error e
                | .ok (s, ctr) => define E s ("amo" ++ litsStr ls) ctr (gridClauses ls u v qs ctr)

/-- `sat_core::new_at_most_one` (`sat_core.cpp:233-305`). -/
def newAMO (E : Env) (s : Sat T) (ls : List Lit) : Except Err (Sat T × Lit) := newAMOGo E (ls.length + 1) s ls

/-- The only remaining literal, when it is positive (`sat_core.cpp:342-343`). -/
def exoOne : List Lit → Option Lit
  | [l] => if l.sign then some l else none
  | _ => none

/-- `sat_core::new_exct_one` (`sat_core.cpp:307-355`). -/
def newEXO (E : Env) (s : Sat T) (ls : List Lit) : Except Err (Sat T × Lit) :=
  if s.root = false then .error .assert
  else if s.inRange ls = false then .error .terminate
  else match amoFilt s.value none (E.sortVar ls) with
    | none => .ok (s, FALSE_lit)
    | some [] => .ok (s, FALSE_lit)
    | some ls =>
      match exoOne ls with
      | some l => .ok (s, l)
      | none =>
        match s.findExpr ("^" ++ litsStr ls) with
        | some l => .ok (s, l)
        | none =>
          match newAMO E s ls with
          | .error e => .error e
          | .ok (s, ctr) => define E s ("^" ++ litsStr ls) ctr [ls ++ [ctr.neg]]

/-- `sat_core::assume` (`sat_core.cpp:357-366`). -/
def assume (E : Env) (O : TheoryOps T) (s : Sat T) (p : Lit) : Except Err (Sat T × Bool) :=
  if s.inRange [p] = false then .error .terminate
  else if s.propQ ≠ [] then .error .assert
  else
    let s := { s with trailLim := s.trail.length :: s.trailLim, decisions := p :: s.decisions, th := O.push s.th }
    match s.enqueue p none with
    | (s, true) => s.propagate E O
    | (s, false) => .ok (s, false)

/-- `sat_core::next` (`sat_core.cpp:470-489`). The blocking clause is the negation of all the decisions, last one first; as
it is imposed by the caller it is added to the ghost `posted`. -/
def next (E : Env) (O : TheoryOps T) (s : Sat T) : Except Err (Sat T × Bool) :=
  if s.root then .ok (s, false)
  else
    let ng := s.decisions.map Lit.neg
    match s.pop O with
    | .error e => .error e
    | .ok s =>
      match ({ s with posted := ng :: s.posted } : Sat T).record E ng with
      | .error e => .error e
      | .ok s => s.propagate E O

/-- `while (decision_level() > lvl) pop()` (`sat_core.cpp:500`, `506`). -/
def popTo (O : TheoryOps T) (lvl : Nat) (s : Sat T) : Except Err (Sat T) := popLevels O (s.dl - lvl) s

/-- The loop of `sat_core::check` (`sat_core.cpp:495-504`). -/
def checkGo (E : Env) (O : TheoryOps T) (rl : Nat) : List Lit → Sat T → Except Err (Sat T × Bool)
  | [], s => .ok (s, true)
  | p :: ps, s =>
    let cdl := s.dl
    match s.assume E O p with
    | .error e => .error e
    | .ok (s, false) =>
      match popTo O rl s with | .error e => .error e | .ok s => .ok (s, false)
    | .ok (s, true) =>
      match s.propagate E O with
      | .error e => .error e
      | .ok (s, b) =>
        if b = false ∨ s.dl ≤ cdl then
          match popTo O rl s with | .error e => .error e | .ok s => .ok (s, false)
        else checkGo E O rl ps s

/-- `sat_core::check` (`sat_core.cpp:491-509`). -/
def check (E : Env) (O : TheoryOps T) (s : Sat T) (ls : List Lit) : Except Err (Sat T × Bool) :=
  let rl := s.dl
  match checkGo E O rl ls s with
  | .error e => .error e
  | .ok (s, false) => .ok (s, false)
  | .ok (s, true) =>
    if rl + ls.length ≠ s.dl then .error .assert
    else match popTo O rl s with | .error e => .error e | .ok s => .ok (s, true)

/-- `clause::simplify` (`clause.cpp:52-66`) on the literals `lits`: `kept` are the literals already copied to the front
(`lits[0..j)`), `ls` those still to visit. On a true literal the function returns with the vector partially
overwritten. -/
def simplifyLits (val : Lit → Option Bool) (orig : List Lit) : List Lit → List Lit → Bool × List Lit
  | kept, [] => (false, kept)
  | kept, l :: ls =>
    match val l with
    | some true => (true, kept ++ orig.drop kept.length)
    | none => simplifyLits val orig (kept ++ [l]) ls
    | some false => simplifyLits val orig kept ls

/-- `clause::~clause` (`clause.cpp:15-23`): removes the clause from the two watch lists (erasing a missing element is
undefined behaviour) and from the reasons. -/
def deleteClause (s : Sat T) (c : Nat) : Except Err (Sat T) :=
  match s.db c with
  | l0 :: l1 :: rest =>
    if c ∈ s.watches l0.neg then
      let w := upd s.watches l0.neg ((s.watches l0.neg).erase c)
      if c ∈ w l1.neg then
        let w := upd w l1.neg ((w l1.neg).erase c)
        let vs := (l0 :: l1 :: rest).map Lit.var
        .ok { s with watches := w, reason := fun v => if v ∈ vs ∧ s.reason v = some c then none else s.reason v }
      else .error .ub
    else .error .ub
  | _ => .error .ub

/-- Destruction of a list of clauses (`constrs.resize(j)`, `sat_core.cpp:392`, with `~clause`, `clause.cpp:14-20`). -/
def deleteAll : List Nat → Sat T → Except Err (Sat T)
  | [], s => .ok s
  | c :: cs, s =>
    match s.deleteClause c with
    | .error e => .error e
    | .ok s => deleteAll cs s

/-- `constrs[i].swap(constrs[--j])` (`sat_core.cpp:389`): the last active clause takes the place of the first one (which leaves the
active range); `act` are the other active clauses. -/
def swapLast (act : List Nat) : List Nat :=
  match act.getLast? with
  | none => []
  | some z => z :: act.dropLast

/-- The loop of `sat_core::simplify_db` (`sat_core.cpp:386-391`): `kept` is `constrs[0..i)`, `act` is `constrs[i..j)`, `rem` is
`constrs[j..)`. A clause to remove is swapped with the last active one. -/
def simplifyGo : Nat → Sat T → List Nat → List Nat → List Nat → Sat T × List Nat × List Nat
  | 0, s, kept, act, rem => (s, kept ++ act, rem)
  | _ + 1, s, kept, [], rem => (s, kept, rem)
  | f + 1, s, kept, c :: act, rem =>
    let r := simplifyLits s.value (s.db c) [] (s.db c)
    let s := { s with db := upd s.db c r.2 }
    if r.1 then simplifyGo f s kept (swapLast act) (c :: rem)
    else simplifyGo f s (kept ++ [c]) act rem

/-- `sat_core::simplify_db` (`sat_core.cpp:380-394`). -/
def simplifyDb (E : Env) (O : TheoryOps T) (s : Sat T) : Except Err (Sat T × Bool) :=
  if s.root = false then .error .assert
  else match s.propagate E O with
    | .error e => .error e
    | .ok (s, false) => .ok (s, false)
    | .ok (s, true) =>
      let r := simplifyGo (s.constrs.length + 1) s [] s.constrs []
      match deleteAll r.2.2 r.1 with
      | .error e => .error e
      | .ok s => .ok ({ s with constrs := r.2.1 }, true)

/-- `sat_core::listen` (`sat_core.h:153-157`). -/
def listen (s : Sat T) (v l : Nat) : Sat T :=
  if s.assigns v = none then { s with listening := upd s.listening v (l :: (s.listening v).erase l) } else s

/-- `sat_core::bind` (`sat_core.h:152`). -/
def bind (s : Sat T) (v i : Nat) : Sat T := { s with bounds := upd s.bounds v (i :: (s.bounds v).erase i) }

/-- Copies the clauses of a core, in order (`sat_core.cpp:25-29`); also returns the map from old to new clauses. -/
def copyClauses (orig : Sat T) : List Nat → Sat T → (Nat → Option Nat) → Except Err (Sat T × (Nat → Option Nat))
  | [], s, m => .ok (s, m)
  | c :: cs, s, m =>
    match s.newClauseObj (orig.db c) with
    | .error e => .error e
    | .ok (s, d) => copyClauses orig cs { s with constrs := s.constrs ++ [d] } (upd m c (some d))

/-- The members the copy constructor initialises from the original (`sat_core.cpp:18`); the trail, the queue and the decisions of
the copy are empty and every level is 0. The log of notifications goes on (the listeners are shared). The ghost `posted` of the copy also contains the decisions of the original as
unit clauses. -/
def copyBase (orig : Sat T) : Sat T :=
  { nvars := orig.nvars, ncls := 0, db := fun _ => [], constrs := [], watches := fun _ => [],
    assigns := orig.assigns, propQ := [], trail := [], trailLim := [], decisions := [],
    reason := fun _ => none, level := fun _ => 0, exprs := orig.exprs, bounds := orig.bounds,
    listening := orig.listening, notes := orig.notes, th := orig.th,
    posted := orig.decisions.map (fun d => [d]) ++ orig.posted, dead := orig.dead }

/-- Every reason is among the copied constraints (otherwise `constr_map.at` throws, `sat_core.cpp:34`). -/
def reasonsMapped (orig : Sat T) (m : Nat → Option Nat) : Bool :=
  (List.range orig.nvars).all (fun v => match orig.reason v with
    | none => true
    | some c => (m c).isSome)

/-- `sat_core::sat_core(const sat_core &)` (`sat_core.cpp:18-39`): every assignment of the original becomes a root-level fact. -/
def copy (E : Env) (O : TheoryOps T) (orig : Sat T) : Except Err (Sat T) :=
  if orig.propQ ≠ [] then .error .assert
  else
    match copyClauses orig orig.constrs orig.copyBase (fun _ => none) with
    | .error e => .error e
    | .ok (s, m) =>
      if orig.reasonsMapped m then
        match ({ s with reason := fun v => (orig.reason v).bind m }).simplifyDb E O with
        | .error e => .error e
        | .ok (s, _) => .ok s
      else .error .terminate

/-- `sat_stack::push` (`sat_stack.cpp:10-20`) for a stack of plain cores, top first: the top is copied. The listeners now look at the
copy (`l->sat = ...`); with theories attached see `pushTop` in `Sat/StackT.lean`. -/
def stackPush (E : Env) (O : TheoryOps T) : List (Sat T) → Except Err (List (Sat T))
  | [] => .error .ub
  | c :: rest =>
    match c.copy E O with
    | .error e => .error e
    | .ok d => .ok (d :: c :: rest)

/-- `sat_stack::pop` (`sat_stack.cpp:22-39`): the top core is dropped, then the listeners registered in the previous core are notified of
the variables on the trail of the dropped core; they read the values of the previous core. The log of notifications
(ghost) goes on. -/
def stackPop : List (Sat T) → Except Err (List (Sat T))
  | c :: d :: rest =>
    .ok ({ d with notes := c.trail.flatMap (fun p => (d.listening p.var).map (fun l => (l, p.var, d.assigns p.var))) ++ c.notes } :: rest)
  | _ => .error .assert

end Sat
end Semitone
