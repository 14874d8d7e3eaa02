import Verif.Lib.TalkProps
import Verif.Lib.FamilyDemo

/-!
# Concrete transcripts for C82: two theories of linear arithmetic and object variables on one core
-/
namespace Semitone
namespace Lib2
open Lin Comp
open LRA (stdL canonB canonB_canon varsB varsB_vars)
open Lib (toOption_some)

/-- A request with its answer; `b`: which theory of linear arithmetic. -/
inductive Note where
  | bool (v : Nat)
  | clause (ls : List Lit)
  | conj (ls : List Lit) (p : Lit)
  | num (b : Bool) (y : Nat)
  | rel (b : Bool) (R : LRA.Rel4) (l r : Lin) (p : Lit)
  | ub (b : Bool) (y : Nat) (v : IQ)
  | obj (items : List Nat) (y : Nat)
  | allows (v a : Nat) (p : Lit)
  | same (v w : Nat) (p : Lit)
deriving DecidableEq

def Note.said : Note → Family.Said fam
  | .bool v => .bool v
  | .clause ls => .clause ls
  | .conj ls p => .conj ls p
  | .num b y => .num (pickA b) y
  | .rel b R l r p => .rel (pickA b) R l r p
  | .ub b y v => .atMost (pickA b) y v
  | .obj items y => .obj wO items y
  | .allows v a p => .allows wO v a p
  | .same v w p => .same wO v w p

def Note.lit? : Note → Option Nat
  | .bool v => some v
  | .conj _ p | .rel _ _ _ _ p | .allows _ _ p | .same _ _ p => some p.var
  | _ => none

def Note.num? (b : Bool) : Note → Option Nat
  | .num b' y => if b = b' then some y else none
  | _ => none

def Note.obj? : Note → Option Nat
  | .obj _ y => some y
  | _ => none

theorem Note.lit_said (n : Note) : n.said.lit? = n.lit? := by cases n <;> rfl

theorem Note.num_said {b : Bool} {n : Note} {y : Nat} (h : n.num? b = some y) : n.said = .num (pickA b) y := by
  cases n with
  | num b' z =>
    simp only [Note.num?] at h
    split at h
    · next e => subst e; injection h with h; subst h; rfl
    · cases h
  | _ => cases h

theorem Note.obj_said {n : Note} {y : Nat} (h : n.obj? = some y) : ∃ items, n.said = .obj wO items y := by
  cases n with
  | obj items z => injection h with h; subst h; exact ⟨items, rfl⟩
  | _ => cases h

def knownB (ns : List Note) (v : Nat) : Bool := v == 0 || ns.any (fun n => n.lit? == some v)
def knownNumB (ns : List Note) (b : Bool) (y : Nat) : Bool := ns.any (fun n => n.num? b == some y)
def knownObjB (ns : List Note) (y : Nat) : Bool := ns.any (fun n => n.obj? == some y)

theorem knownB_known {ns : List Note} {v : Nat} (h : knownB ns v = true) : Family.Known (ns.map Note.said) v := by
  simp only [knownB, Bool.or_eq_true, beq_iff_eq, List.any_eq_true] at h
  rcases h with h | ⟨n, hn, h⟩
  · exact .inl h
  · exact .inr ⟨_, List.mem_map_of_mem hn, (Note.lit_said n).trans h⟩

theorem knownNumB_known {ns : List Note} {b : Bool} {y : Nat} (h : knownNumB ns b y = true) : Family.KnownNum (ns.map Note.said) (pickA b) y := by
  simp only [knownNumB, beq_iff_eq, List.any_eq_true] at h
  obtain ⟨n, hn, h⟩ := h
  exact .inl (by rw [← Note.num_said h]; exact List.mem_map_of_mem hn)

theorem knownObjB_known {ns : List Note} {y : Nat} (h : knownObjB ns y = true) : Family.KnownObj (ns.map Note.said) wO y := by
  simp only [knownObjB, beq_iff_eq, List.any_eq_true] at h
  obtain ⟨n, hn, h⟩ := h
  obtain ⟨items, hi⟩ := Note.obj_said h
  exact ⟨items, by rw [← hi]; exact List.mem_map_of_mem hn⟩

/-- What a concrete client does. -/
inductive Ask where
  | bool
  | clause (ls : List Lit)
  | conj (ls : List Lit)
  | var (b : Bool)
  | rel (b : Bool) (R : LRA.Rel4) (l r : Lin)
  | ub (b : Bool) (y : Nat) (v : IQ)
  | obj (items : List Nat)
  | allows (v a : Nat)
  | same (v w : Nat)
  | assume (p : Lit)
  | pop
  | propagate
  | next

/-- A call of the core. -/
def call (q : Sn) (o : Sat.Op) : Option (Sn × Sat.Out) :=
  if q.1.legalB o && LRA.mayB o q.2.2 then (q.1.step stdEnv lib.ops o).toOption.map (fun r => ((r.1, q.2.1, LRA.pendingAfter o q.2.2), r.2)) else none

/-- The state, and the requests so far. -/
abbrev Tn := Sn × List Note

def litsB (ns : List Note) (ls : List Lit) : Bool := ls.all (fun l => knownB ns l.var)
def linB (ns : List Note) (b : Bool) (l : Lin) : Bool := canonB l && (keys l.vars).all (fun w => knownNumB ns b w)

def Ask.run (a : Ask) (q : Tn) : Option Tn :=
  if q.1.1.dead then none else
  match a with
  | .bool => match call q.1 .newVar with
    | some (q', .var v) => some (q', .bool v :: q.2)
    | _ => none
  | .clause ls => if litsB q.2 ls then match call q.1 (.newClause ls) with
    | some (q', .bool _) => some (q', .clause ls :: q.2)
    | _ => none else none
  | .conj ls => if litsB q.2 ls then match call q.1 (.newConj ls) with
    | some (q', .lit p) => some (q', .conj ls p :: q.2)
    | _ => none else none
  | .assume p => (call q.1 (.assume p)).map (fun r => (r.1, q.2))
  | .pop => (call q.1 .pop).map (fun r => (r.1, q.2))
  | .propagate => (call q.1 .propagate).map (fun r => (r.1, q.2))
  | .next => if !q.1.1.root && litsB q.2 q.1.1.decisions then (call q.1 .next).map (fun r => (r.1, .clause (q.1.1.decisions.map Lit.neg) :: q.2)) else none
  | .allows v a => if knownObjB q.2 v then some (q.1, .allows v a ((wO.within.th q.1.1.th).allows v a) :: q.2) else none
  | .var b => if q.1.1.root then
      some (((pickA b).within.put q.1.1 { (pickA b).within.view q.1.1 with th := ((pickA b).within.view q.1.1).th.newVar.1 }, q.1.2.1, q.1.2.2), .num b ((pickA b).within.view q.1.1).th.newVar.2 :: q.2) else none
  | .rel b R l r => if q.1.1.root && linB q.2 b l && linB q.2 b r then
      (LRA.newRel R ((pickA b).within.view q.1.1) l r).toOption.map (fun p => (((pickA b).within.put q.1.1 p.1, q.1.2.1, q.1.2.2), .rel b R l r p.2 :: q.2)) else none
  | .ub b y v => if q.1.1.root && knownNumB q.2 b y && decide (q.1.1.value TRUE_lit = some true) && decide ((ofLex v).2 ≤ 0) then
      match LRA.setUbC stdEnv stdL ((pickA b).within.view q.1.1) y v TRUE_lit with
      | .ok (s, none) => some (((pickA b).within.put q.1.1 s, (pickA b).within.setDat q.1.2.1 (Fact.hi TRUE_lit y v :: (pickA b).within.dat q.1.2.1 : List Fact), true), .ub b y v :: q.2)
      | _ => none
    else none
  | .obj items => if q.1.1.root then
      (OV.newVar stdEnv 0 (wO.within.view q.1.1) (wO.within.view q.1.1).th items true).toOption.map (fun p => ((wO.within.put q.1.1 { p.1 with th := p.2.1 }, q.1.2.1, q.1.2.2), .obj items p.2.2 :: q.2)) else none
  | .same v w => if q.1.1.root && knownObjB q.2 v && knownObjB q.2 w then
      (OV.newEq stdEnv OV.idO (wO.within.view q.1.1) (wO.within.view q.1.1).th v w).toOption.map (fun p => ((wO.within.put q.1.1 { p.1 with th := p.2.1 }, q.1.2.1, q.1.2.2), .same v w p.2.2 :: q.2)) else none

/-- What the state and the notes mean. -/
abbrev Talks (q : Tn) : Prop := Family.Talk fam (q.2.map Note.said) q.1.1 q.1.2.1 q.1.2.2

theorem call_spec {q q' : Sn} {o : Sat.Op} {out : Sat.Out} (h : call q o = some (q', out)) : q.1.Legal o ∧ LRA.MayCall o q.2.2 ∧ q.1.step stdEnv lib.ops o = .ok (q'.1, out) ∧ q'.2.1 = q.2.1 ∧ q'.2.2 = LRA.pendingAfter o q.2.2 := by
  unfold call at h
  split at h
  · next hc =>
    rw [Bool.and_eq_true] at hc
    obtain ⟨⟨s, u⟩, h1, h2⟩ := Option.map_eq_some_iff.mp h
    injection h2 with h2 h3; subst h2; subst h3
    exact ⟨Sat.legalB_legal hc.1, LRA.mayB_may hc.2, toOption_some h1, rfl, rfl⟩
  · cases h

/-- What is kept by the calls of a client: `t`: whether it calls the theories. -/
structure Chat (t : Bool) (P : List (Family.Said fam) → St → lib.Dat → Bool → Prop) : Prop where
  search : ∀ {tr S U d op S' out}, P tr S U d → Family.Searches op → S.Legal op → LRA.MayCall op d → S.step stdEnv lib.ops op = .ok (S', out) → P tr S' U (LRA.pendingAfter op d)
  core : ∀ {tr S U d op S' out e}, P tr S U d → Family.AsksCore fam tr op out e → S.Legal op → LRA.MayCall op d → S.step stdEnv lib.ops op = .ok (S', out) → P (e :: tr) S' U (LRA.pendingAfter op d)
  next : ∀ {tr S U d S' out}, P tr S U d → S.root = false → (∀ l ∈ S.decisions, Family.Known tr l.var) → S.Legal .next → LRA.MayCall .next d → S.step stdEnv lib.ops .next = .ok (S', out) →
    P (.clause (S.decisions.map Lit.neg) :: tr) S' U (LRA.pendingAfter .next d)
  allows : ∀ {tr S U d v} {a : Nat}, P tr S U d → S.dead = false → Family.KnownObj tr wO v → P (.allows wO v a ((wO.within.th S.th).allows v a) :: tr) S U d
  theory : t = true → ∀ {tr S U d S' U' d' e}, P tr S U d → S.dead = false → S.root = true → Family.AsksTheory fam tr S U e S' U' → (d' = true ∨ U' = U ∧ d' = d) → P (e :: tr) S' U' d'

theorem chat_talk : Chat true (Family.Talk fam) := ⟨.search, .core, .next, .allows wO, fun _ => .theory⟩

/-- The call is one of a theory. -/
def Ask.theory : Ask → Bool
  | .var _ | .rel _ _ _ _ | .ub _ _ _ | .obj _ | .same _ _ => true
  | _ => false

section
variable {t : Bool} {P : List (Family.Said fam) → St → lib.Dat → Bool → Prop}

theorem talks_search {q : Tn} {q' : Sn} {o : Sat.Op} {out : Sat.Out} (cp : Chat t P) (h : P (q.2.map Note.said) q.1.1 q.1.2.1 q.1.2.2) (ho : Family.Searches o) (hc : call q.1 o = some (q', out)) : P (q.2.map Note.said) q'.1 q'.2.1 q'.2.2 := by
  obtain ⟨a, b, c, e1, e2⟩ := call_spec hc
  rw [e1, e2]
  exact cp.search h ho a b c

theorem talks_core {q : Tn} {q' : Sn} {o : Sat.Op} {out : Sat.Out} {n : Note} (cp : Chat t P) (h : P (q.2.map Note.said) q.1.1 q.1.2.1 q.1.2.2) (ha : Family.AsksCore fam (q.2.map Note.said) o out n.said) (hc : call q.1 o = some (q', out)) :
    P (n.said :: q.2.map Note.said) q'.1 q'.2.1 q'.2.2 := by
  obtain ⟨a, b, c, e1, e2⟩ := call_spec hc
  rw [e1, e2]
  exact cp.core h ha a b c

end

theorem litsB_known {ns : List Note} {ls : List Lit} (h : litsB ns ls = true) : ∀ l ∈ ls, Family.Known (ns.map Note.said) l.var := fun l hl => knownB_known (List.all_eq_true.mp h l hl)

theorem linB_known {ns : List Note} {b : Bool} {l : Lin} (h : linB ns b l = true) : l.Canon ∧ ∀ w ∈ keys l.vars, Family.KnownNum (ns.map Note.said) (pickA b) w := by
  rw [linB, Bool.and_eq_true] at h
  exact ⟨canonB_canon h.1, fun w hw => knownNumB_known (List.all_eq_true.mp h.2 w hw)⟩

theorem Ask.run_closed {P : List (Family.Said fam) → St → lib.Dat → Bool → Prop} {a : Ask} (cp : Chat a.theory P) {q q' : Tn} (h : P (q.2.map Note.said) q.1.1 q.1.2.1 q.1.2.2) (hr : a.run q = some q') :
    P (q'.2.map Note.said) q'.1.1 q'.1.2.1 q'.1.2.2 := by
  unfold Ask.run at hr
  split at hr
  · cases hr
  next hd =>
  have hd : q.1.1.dead = false := by simpa using hd
  cases a with
  | bool =>
    simp only at hr
    split at hr
    · next q1 v hc => injection hr with hr; subst hr; exact talks_core (n := .bool v) cp h .bool hc
    · cases hr
  | clause ls =>
    simp only at hr
    split at hr
    · next hk =>
      split at hr
      · next q1 v hc => injection hr with hr; subst hr; exact talks_core (n := .clause ls) cp h (.clause (litsB_known hk)) hc
      · cases hr
    · cases hr
  | conj ls =>
    simp only at hr
    split at hr
    · next hk =>
      split at hr
      · next q1 p hc => injection hr with hr; subst hr; exact talks_core (n := .conj ls p) cp h (.conj (litsB_known hk)) hc
      · cases hr
    · cases hr
  | assume p =>
    obtain ⟨⟨q1, out⟩, hc, e⟩ := Option.map_eq_some_iff.mp hr
    subst e; exact talks_search (q := q) (o := .assume p) cp h trivial hc
  | pop =>
    obtain ⟨⟨q1, out⟩, hc, e⟩ := Option.map_eq_some_iff.mp hr
    subst e; exact talks_search (q := q) (o := .pop) cp h trivial hc
  | propagate =>
    obtain ⟨⟨q1, out⟩, hc, e⟩ := Option.map_eq_some_iff.mp hr
    subst e; exact talks_search (q := q) (o := .propagate) cp h trivial hc
  | next =>
    simp only at hr
    split at hr
    · next hk =>
      rw [Bool.and_eq_true] at hk
      obtain ⟨⟨q1, out⟩, hc, e⟩ := Option.map_eq_some_iff.mp hr
      subst e
      obtain ⟨a, b, c, e1, e2⟩ := call_spec hc
      show P _ q1.1 q1.2.1 q1.2.2
      rw [e1, e2]
      exact cp.next h (by simpa using hk.1) (litsB_known hk.2) a b c
    · cases hr
  | allows v a =>
    simp only at hr
    split at hr
    · next hk => injection hr with hr; subst hr; exact cp.allows h hd (knownObjB_known hk)
    · cases hr
  | var b =>
    simp only at hr
    split at hr
    · next hk => injection hr with hr; subst hr; exact cp.theory rfl h hd hk (.num (pickA b)) (.inr ⟨rfl, rfl⟩)
    · cases hr
  | rel b R l r =>
    simp only at hr
    split at hr
    · next hk =>
      rw [Bool.and_eq_true, Bool.and_eq_true] at hk
      obtain ⟨⟨q1, q2⟩, h1, e⟩ := Option.map_eq_some_iff.mp hr
      subst e
      obtain ⟨l1, l2⟩ := linB_known hk.1.2
      obtain ⟨r1, r2⟩ := linB_known hk.2
      exact cp.theory rfl h hd hk.1.1 (.rel (pickA b) l1 r1 l2 r2 (toOption_some h1)) (.inr ⟨rfl, rfl⟩)
    · cases hr
  | ub b y v =>
    simp only at hr
    split at hr
    · next hk =>
      simp only [Bool.and_eq_true, decide_eq_true_eq] at hk
      split at hr
      · next s h1 =>
        injection hr with hr; subst hr
        exact cp.theory rfl h hd hk.1.1.1 (.atMost (pickA b) (knownNumB_known hk.1.1.2) hk.1.2 hk.2 h1) (.inl rfl)
      · cases hr
    · cases hr
  | obj items =>
    simp only at hr
    split at hr
    · next hk =>
      obtain ⟨⟨q1, q2, q3⟩, h1, e⟩ := Option.map_eq_some_iff.mp hr
      subst e
      exact cp.theory rfl h hd hk (.obj wO (toOption_some h1)) (.inr ⟨rfl, rfl⟩)
    · cases hr
  | same v w =>
    simp only at hr
    split at hr
    · next hk =>
      simp only [Bool.and_eq_true] at hk
      obtain ⟨⟨q1, q2, q3⟩, h1, e⟩ := Option.map_eq_some_iff.mp hr
      subst e
      exact cp.theory rfl h hd hk.1.1 (.same wO (knownObjB_known hk.1.2) (knownObjB_known hk.2) (toOption_some h1)) (.inr ⟨rfl, rfl⟩)
    · cases hr

theorem Ask.run_talks {a : Ask} {q q' : Tn} (h : Talks q) (hr : a.run q = some q') : Talks q' :=
  a.run_closed (P := Family.Talk fam) ⟨chat_talk.search, chat_talk.core, chat_talk.next, chat_talk.allows, fun _ => chat_talk.theory rfl⟩ h hr

def asks : List Ask → Tn → Option Tn
  | [], q => some q
  | a :: as, q => (a.run q).bind (asks as)

theorem asks_talks : ∀ (as : List Ask) (q r : Tn), Talks q → asks as q = some r → Talks r
  | [], q, r, h, hr => by injection hr with hr; subst hr; exact h
  | a :: as, q, r, h, hr => by
    obtain ⟨q1, h1, h2⟩ := Option.bind_eq_some_iff.mp hr
    exact asks_talks as _ _ (a.run_talks h h1) h2

/-- The state and the requests after a client. -/
def asked (as : List Ask) : Tn := (asks as (new, [])).getD (new, [])

theorem asked_talks (as : List Ask) : Talks (asked as) := by
  have h0 : Talks (new, []) := .init (show lib.Start (LRA.init, LRA.init, OV.init) from ⟨rfl, rfl, rfl⟩)
  unfold asked
  match hr : asks as (new, []) with
  | none => exact h0
  | some q => exact asks_talks as _ _ h0 hr

theorem asked_solved {as : List Ask} (hd : (asked as).1.1.dead = false) {k : Nat} (hk : ((asked as).1.1.nvars + 2) ^ ((asked as).1.1.dl + (asked as).1.1.nvars + 1) ≤ k)
    (hs : (Sat.solve stdEnv lib.ops firstFree k (asked as).1.1).toOption.map (·.2) = some true) : ∃ α x, Family.Meets ((asked as).2.map Note.said) α x := by
  obtain ⟨S', b, h1, h2, -⟩ := Family.C82_decides plain (asked_talks as) hd firstFree_heuristic hk
  rw [h1] at hs
  injection hs with hs
  obtain ⟨-, δ, h0, h3⟩ := h2 hs
  obtain ⟨⟨x, hx⟩, h4⟩ := h3 δ h0 le_rfl
  exact ⟨_, x, h4 x hx⟩

theorem asked_none {as : List Ask} (hd : (asked as).1.1.dead = false) {k : Nat} (hk : ((asked as).1.1.nvars + 2) ^ ((asked as).1.1.dl + (asked as).1.1.nvars + 1) ≤ k)
    (hs : (Sat.solve stdEnv lib.ops firstFree k (asked as).1.1).toOption.map (·.2) = some false) : ¬ ∃ α x, Family.Meets ((asked as).2.map Note.said) α x := by
  obtain ⟨S', b, h1, -, h3⟩ := Family.C82_decides plain (asked_talks as) hd firstFree_heuristic hk
  rw [h1] at hs
  injection hs with hs
  exact h3 hs

/-- `x0` in the first theory of linear arithmetic and in the second, `b1`: `x0 ≤ 3` in the first, `b2`: `x0 ≥ 1` in the second; object variables with values 10, 11, 12 and 10, 13; their equality; a boolean variable; a clause; a conjunction;
`allows`; a search that is taken back; `next()` after `assume(b10)`; `x0 ≤ 0` imposed in the second theory. -/
def talk82 : List Ask := [.var true, .var false, .rel true .leq ⟨[(0, 1)], 0⟩ ⟨[], 3⟩, .rel false .geq ⟨[(0, 1)], 0⟩ ⟨[], 1⟩, .obj [10, 11], .obj [10, 13], .same 0 1, .allows 0 11, .bool, .clause [pl 1, pl 2], .conj [pl 1, (pl 2).neg],
  .propagate, .assume (pl 1), .pop, .assume (pl 10), .next, .ub false 0 (toLex (0, 0)), .propagate]

/-- What is returned (`none`: no literal). -/
example : (asks talk82 (new, [])).map (fun q => q.2.map Note.lit?) = some [none, none, some 11, none, some 10, some 4, some 9, none, none, some 2, some 1, none, none] := by decide +kernel

/-- C82: solvable. -/
theorem talk82_solved : ∃ α x, Family.Meets ((asked talk82).2.map Note.said) α x := asked_solved (k := 10 ^ 24) (by decide +kernel) (by decide +kernel) (by decide +kernel)

/-- `b2` is false, whatever was searched: then clauses that need it have no solution. -/
def none82 : List Ask := [.var true, .var false, .rel true .leq ⟨[(0, 1)], 0⟩ ⟨[], 3⟩, .rel false .geq ⟨[(0, 1)], 0⟩ ⟨[], 1⟩, .bool, .clause [pl 2, pl 3], .clause [pl 2, (pl 3).neg], .ub false 0 (toLex (0, 0))]

example : (asks none82 (new, [])).map (fun q => q.2.map Note.lit?) = some [none, none, none, some 3, some 2, some 1, none, none] := by decide +kernel

/-- C82: no solution. -/
theorem none82_none : ¬ ∃ α x, Family.Meets ((asked none82).2.map Note.said) α x := asked_none (k := 10 ^ 9) (by decide +kernel) (by decide +kernel) (by decide +kernel)

/-- C82: the equality of the two object variables and `b3` (the first has value 10) determine each other in every solution of the requests: what the client reads off the meaning of its requests. -/
example : ∀ α x, Family.Meets ((asked talk82).2.map Note.said) α x → ((wO.val x : Nat → List Nat) 0 = (wO.val x : Nat → List Nat) 1 ↔ α.sat (pl 9)) := fun α x hm =>
  (hm.2 (.same wO 0 1 (pl 9)) (List.mem_map.mpr ⟨.same 0 1 (pl 9), List.mem_of_getElem? (i := 6) (by decide +kernel), rfl⟩)).symm

/-- C82_bounds: the bound of `x0` in the second theory. -/
example : ∀ α x, Family.Meets ((asked talk82).2.map Note.said) α x → ((IQ.ofQ ((wB.val x : Nat → ℚ) 0) : IQ) : WithTop IQ) ≤ ((toLex (0, 0) : IQ) : WithTop IQ) := fun α x hm => by
  have e : (asked talk82).1.1.decisions = [] := by decide +kernel
  have k : knownNumB (asked talk82).2 false 0 = true := by decide +kernel
  have := (Family.C82_bounds plain (asked_talks talk82) wB (v := 0) (knownNumB_known (b := false) k) (fun l hl => by rw [e] at hl; cases hl) α x hm (fun l hl => by rw [e] at hl; cases hl)).2
  have e2 : (wB.within.th (asked talk82).1.1.th).hi 0 = ((toLex (0, 0) : IQ) : WithTop IQ) := by decide +kernel
  rw [e2] at this
  exact this

/-- C82_values: `b2` is false in all of them. -/
example : ∀ α x, Family.Meets ((asked talk82).2.map Note.said) α x → α.sat (pl 2).neg := fun α x hm => by
  have e : (asked talk82).1.1.decUpTo ((asked talk82).1.1.level (pl 2).neg.var) = [] := by decide +kernel
  have k : knownB (asked talk82).2 (pl 2).neg.var = true := by decide +kernel
  exact Family.C82_values plain (asked_talks talk82) (q := (pl 2).neg) (by decide +kernel) (knownB_known k) (fun l hl => by rw [e] at hl; cases hl) α x hm (fun l hl => by rw [e] at hl; cases hl)

/-- C82_object: what is reported for the first object variable. -/
example : ∀ α x, Family.Meets ((asked talk82).2.map Note.said) α x → ∃ a, (wO.val x : Nat → List Nat) 0 = [a] ∧ a ∈ [10, 11] := fun α x hm => by
  have e : (asked talk82).1.1.decisions = [] := by decide +kernel
  have k : knownObjB (asked talk82).2 0 = true := by decide +kernel
  have e2 : OV.value (asked talk82).1.1 (wO.within.th (asked talk82).1.1.th) 0 = [10, 11] := by decide +kernel
  have := Family.C82_object plain (asked_talks talk82) (by decide +kernel) wO (knownObjB_known k) (fun l hl => by rw [e] at hl; cases hl) α x hm (fun l hl => by rw [e] at hl; cases hl)
  rw [e2] at this
  exact this

/-- C82_answered: another equality of the object variables is answered. -/
example : ∃ s o p, OV.newEq stdEnv OV.idO (wO.within.view (asked talk82).1.1) (wO.within.th (asked talk82).1.1.th) 1 0 = .ok (s, o, p) ∧
    Family.Talk fam (.same wO 1 0 p :: (asked talk82).2.map Note.said) (wO.within.put (asked talk82).1.1 { s with th := o }) (asked talk82).1.2.1 (asked talk82).1.2.2 := by
  have k0 : knownObjB (asked talk82).2 0 = true := by decide +kernel
  have k1 : knownObjB (asked talk82).2 1 = true := by decide +kernel
  exact ((Family.C82_answered plain (asked_talks talk82) (by decide +kernel) (by decide +kernel)).2.2.2 wO talk82_solved).2 1 0 (knownObjB_known k1) (knownObjB_known k0)

/-- C82_definitive, C82_refused: `x0 ≥ 1` in the second theory after `x0 ≤ 0` is refused, since nothing meets it. -/
example : ¬ ∃ α x, Family.Meets (.atLeast wB 0 (toLex (1, 0)) :: (asked talk82).2.map Note.said) α x := by
  have k : knownNumB (asked talk82).2 false 0 = true := by decide +kernel
  have h : ((LRA.setLbC stdEnv stdL (wB.within.view (asked talk82).1.1) 0 (toLex (1, 0)) TRUE_lit).toOption.bind (·.2)).isSome = true := by decide +kernel
  match hs : LRA.setLbC stdEnv stdL (wB.within.view (asked talk82).1.1) 0 (toLex (1, 0)) TRUE_lit with
  | .error _ => rw [hs] at h; cases h
  | .ok (s, none) => rw [hs] at h; cases h
  | .ok (s, some cl) => exact (Family.C82_refused plain (asked_talks talk82) (by decide +kernel) (by decide +kernel) wB (knownNumB_known (b := false) k) (by decide +kernel)).1 hs

/-- The same requests with another search, and with none. -/
def same82 : List Ask := talk82.filter (fun a => match a with | .next => false | .assume p => p.var != 10 | _ => true)
def same82' : List Ask := talk82.filter (fun a => match a with | .assume _ | .pop | .propagate | .next => false | _ => true)

/-- C82_same_answer: the same answer. -/
example {pick : St → Option Lit} (hh : Sat.Heuristic pick) (k : Nat) (hk : 10 ^ 24 ≤ k) :
    ∃ S S' b, Sat.solve stdEnv lib.ops firstFree k (asked same82).1.1 = .ok (S, b) ∧ Sat.solve stdEnv lib.ops pick k (asked same82').1.1 = .ok (S', b) := by
  have e : (asked same82).2 = (asked same82').2 := by decide +kernel
  exact Family.C82_same_answer plain (asked_talks same82) (by decide +kernel) firstFree_heuristic (le_trans (by decide +kernel) hk) plain (asked_talks same82') (by decide +kernel) hh (le_trans (by decide +kernel) hk) (by rw [e])

example : (asked same82').2.length = 12 := by decide +kernel

end Lib2
end Semitone
