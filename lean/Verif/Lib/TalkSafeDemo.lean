import Verif.Lib.TalkSafe
import Verif.Lib.FamilyDemo

/-!
# Concrete transcripts for C84: linear arithmetic, integer and real difference logic and object variables on one core
-/
namespace Semitone
namespace Lib3
open Lin Comp
open LRA (stdL canonB canonB_canon)
open Lib (lib St fam toOption_some excludedB excludedB_ne)

def wA : (Family.arith stdL).Has fam := .left .here
def wI : (Family.diff (E := stdEnv) ℤ).Has fam := .right (.left .here)

/-- A request with its answer. -/
inductive Note where
  | bool (v : Nat)
  | clause (ls : List Lit)
  | num (y : Nat)
  | rel (R : LRA.Rel4) (l r : Lin) (p : Lit)
  | point (i : Nat)
  | apart (i j : Nat) (w : ℤ) (p : Lit)
  | between (R : DL.Rel) (l r : Lin) (p : Lit)
deriving DecidableEq

def Note.said : Note → Family.Said fam
  | .bool v => .bool v
  | .clause ls => .clause ls
  | .num y => .num wA y
  | .rel R l r p => .rel wA R l r p
  | .point i => .point wI i
  | .apart i j w p => .apart wI i j w p
  | .between R l r p => .between wI R l r p

def Note.lit? : Note → Option Nat
  | .bool v => some v
  | .rel _ _ _ p | .apart _ _ _ p | .between _ _ _ p => some p.var
  | _ => none

def Note.num? : Note → Option Nat
  | .num y => some y
  | _ => none

theorem Note.lit_said (n : Note) : n.said.lit? = n.lit? := by cases n <;> rfl

def knownB (ns : List Note) (v : Nat) : Bool := v == 0 || ns.any (fun n => n.lit? == some v)
def knownNumB (ns : List Note) (y : Nat) : Bool := ns.any (fun n => n.num? == some y)

theorem knownB_known {ns : List Note} {v : Nat} (h : knownB ns v = true) : Family.Known (ns.map Note.said) v := by
  simp only [knownB, Bool.or_eq_true, beq_iff_eq, List.any_eq_true] at h
  rcases h with h | ⟨n, hn, h⟩
  · exact .inl h
  · exact .inr ⟨_, List.mem_map_of_mem hn, (Note.lit_said n).trans h⟩

theorem knownNumB_known {ns : List Note} {y : Nat} (h : knownNumB ns y = true) : Family.KnownNum (ns.map Note.said) wA y := by
  simp only [knownNumB, beq_iff_eq, List.any_eq_true] at h
  obtain ⟨n, hn, h⟩ := h
  cases n with
  | num z => injection h with h; subst h; exact .inl (List.mem_map.mpr ⟨_, hn, rfl⟩)
  | _ => cases h

def litsB (ns : List Note) (ls : List Lit) : Bool := ls.all (fun l => knownB ns l.var)
def linB (ns : List Note) (l : Lin) : Bool := canonB l && (keys l.vars).all (fun w => knownNumB ns w)

theorem litsB_known {ns : List Note} {ls : List Lit} (h : litsB ns ls = true) : ∀ l ∈ ls, Family.Known (ns.map Note.said) l.var := fun l hl => knownB_known (List.all_eq_true.mp h l hl)

theorem linB_known {ns : List Note} {l : Lin} (h : linB ns l = true) : l.Canon ∧ ∀ w ∈ keys l.vars, Family.KnownNum (ns.map Note.said) wA w := by
  rw [linB, Bool.and_eq_true] at h
  exact ⟨canonB_canon h.1, fun w hw => knownNumB_known (List.all_eq_true.mp h.2 w hw)⟩

def pointsB (n : Nat) (l : Lin) : Bool := canonB l && l.vars.all (fun t => decide (t.1 < n))

theorem pointsB_points {n : Nat} {l : Lin} (h : pointsB n l = true) : l.Canon ∧ ∀ t ∈ l.vars, t.1 < n := by
  rw [pointsB, Bool.and_eq_true] at h
  exact ⟨canonB_canon h.1, fun t ht => of_decide_eq_true (List.all_eq_true.mp h.2 t ht)⟩

/-- What a concrete client does. -/
inductive Ask where
  | bool
  | clause (ls : List Lit)
  | var
  | rel (R : LRA.Rel4) (l r : Lin)
  | point
  | apart (i j : Nat) (w : ℤ)
  | between (R : DL.Rel) (l r : Lin)
  | assume (p : Lit)
  | pop
  | propagate

/-- The state, whether something waits for a propagation, and the requests so far. -/
abbrev Tn := (St × Bool) × List Note

/-- A call of the core that tells difference logic nothing in an unsafe situation. -/
def call (q : St × Bool) (o : Sat.Op) : Option ((St × Bool) × Sat.Out) :=
  if q.1.legalB o && LRA.mayB o q.2 then (q.1.step stdEnv fam.safe o).toOption.map (fun r => ((r.1, LRA.pendingAfter o q.2), r.2)) else none

def Ask.run (a : Ask) (q : Tn) : Option Tn :=
  if q.1.1.dead then none else
  match a with
  | .bool => match call q.1 .newVar with
    | some (q', .var v) => some (q', .bool v :: q.2)
    | _ => none
  | .clause ls => if litsB q.2 ls then match call q.1 (.newClause ls) with
    | some (q', .bool _) => some (q', .clause ls :: q.2)
    | _ => none else none
  | .assume p => (call q.1 (.assume p)).map (fun r => (r.1, q.2))
  | .pop => (call q.1 .pop).map (fun r => (r.1, q.2))
  | .propagate => (call q.1 .propagate).map (fun r => (r.1, q.2))
  | .var => if q.1.1.root then some ((wA.within.put q.1.1 { wA.within.view q.1.1 with th := (wA.within.view q.1.1).th.newVar.1 }, q.1.2), .num (wA.within.view q.1.1).th.newVar.2 :: q.2) else none
  | .rel R l r => if q.1.1.root && linB q.2 l && linB q.2 r then (LRA.newRel R (wA.within.view q.1.1) l r).toOption.map (fun p => ((wA.within.put q.1.1 p.1, q.1.2), .rel R l r p.2 :: q.2)) else none
  | .point => if q.1.1.root then some ((wI.within.put q.1.1 { wI.within.view q.1.1 with th := (wI.within.view q.1.1).th.newVar.1 }, q.1.2), .point (wI.within.view q.1.1).th.newVar.2 :: q.2) else none
  | .apart i j w => if q.1.1.root && decide (i < (wI.within.th q.1.1.th).nv) && decide (j < (wI.within.th q.1.1.th).nv) then
      (DL.newDistance (wI.within.view q.1.1) i j w).toOption.map (fun p => ((wI.within.put q.1.1 p.1, q.1.2), .apart i j w p.2 :: q.2)) else none
  | .between R l r => if q.1.1.root && pointsB (wI.within.th q.1.1.th).nv l && pointsB (wI.within.th q.1.1.th).nv r && decide (R ≠ .gt) then
      (DL.newRel stdEnv R (wI.within.view q.1.1) l r).toOption.map (fun p => ((wI.within.put q.1.1 p.1, q.1.2), .between R l r p.2 :: q.2)) else none

/-- What the state and the notes mean (nothing is imposed directly on linear arithmetic). -/
abbrev Talks (q : Tn) : Prop := Family.SafeTalk fam (q.2.map Note.said) q.1.1 (Lib.dat []) q.1.2

theorem call_spec {q q' : St × Bool} {o : Sat.Op} {out : Sat.Out} (h : call q o = some (q', out)) : q.1.Legal o ∧ LRA.MayCall o q.2 ∧ q.1.step stdEnv fam.safe o = .ok (q'.1, out) ∧ q'.2 = LRA.pendingAfter o q.2 := by
  unfold call at h
  split at h
  · next hc =>
    rw [Bool.and_eq_true] at hc
    obtain ⟨⟨s, u⟩, h1, h2⟩ := Option.map_eq_some_iff.mp h
    injection h2 with h2 h3; subst h2; subst h3
    exact ⟨Sat.legalB_legal hc.1, LRA.mayB_may hc.2, toOption_some h1, rfl⟩
  · cases h

/-- What is kept by the calls of a client: `t`: whether it calls the theories. -/
structure Chat (t : Bool) (P : List (Family.Said fam) → St → Bool → Prop) : Prop where
  search : ∀ {tr S d op S' out}, P tr S d → Family.Searches op → S.Legal op → LRA.MayCall op d → S.step stdEnv fam.safe op = .ok (S', out) → P tr S' (LRA.pendingAfter op d)
  core : ∀ {tr S d op S' out e}, P tr S d → Family.AsksCore fam tr op out e → S.Legal op → LRA.MayCall op d → S.step stdEnv fam.safe op = .ok (S', out) → P (e :: tr) S' (LRA.pendingAfter op d)
  theory : t = true → ∀ {tr S d S' e}, P tr S d → S.dead = false → S.root = true → Family.AsksTheory fam tr S (Lib.dat []) e S' (Lib.dat []) → P (e :: tr) S' d

theorem chat_talk : Chat true (fun tr S d => Family.SafeTalk fam tr S (Lib.dat []) d) := ⟨.search, .core, fun _ => fun h a b c => .theory h a b c (.inr ⟨rfl, rfl⟩)⟩

/-- The call is one of a theory. -/
def Ask.theory : Ask → Bool
  | .var | .rel _ _ _ | .point | .apart _ _ _ | .between _ _ _ => true
  | _ => false

section
variable {t : Bool} {P : List (Family.Said fam) → St → Bool → Prop}

theorem talks_search {q : Tn} {q' : St × Bool} {o : Sat.Op} {out : Sat.Out} (cp : Chat t P) (h : P (q.2.map Note.said) q.1.1 q.1.2) (ho : Family.Searches o) (hc : call q.1 o = some (q', out)) : P (q.2.map Note.said) q'.1 q'.2 := by
  obtain ⟨a, b, c, e⟩ := call_spec hc
  rw [e]
  exact cp.search h ho a b c

theorem talks_core {q : Tn} {q' : St × Bool} {o : Sat.Op} {out : Sat.Out} {n : Note} (cp : Chat t P) (h : P (q.2.map Note.said) q.1.1 q.1.2) (ha : Family.AsksCore fam (q.2.map Note.said) o out n.said) (hc : call q.1 o = some (q', out)) :
    P (n.said :: q.2.map Note.said) q'.1 q'.2 := by
  obtain ⟨a, b, c, e⟩ := call_spec hc
  rw [e]
  exact cp.core h ha a b c

end

theorem Ask.run_closed {P : List (Family.Said fam) → St → Bool → Prop} {a : Ask} (cp : Chat a.theory P) {q q' : Tn} (h : P (q.2.map Note.said) q.1.1 q.1.2) (hr : a.run q = some q') :
    P (q'.2.map Note.said) q'.1.1 q'.1.2 := by
  unfold Ask.run at hr
  split at hr
  · cases hr
  next hd =>
  have hd : q.1.1.dead = false := by simpa using hd
  cases a with
  | bool =>
    simp only at hr
    split at hr
    · next q1 v hc => injection hr with hr; subst hr; exact talks_core (n := .bool v) cp h .bool hc
    · cases hr
  | clause ls =>
    simp only at hr
    split at hr
    · next hk =>
      split at hr
      · next q1 v hc => injection hr with hr; subst hr; exact talks_core (n := .clause ls) cp h (.clause (litsB_known hk)) hc
      · cases hr
    · cases hr
  | assume p =>
    obtain ⟨⟨q1, out⟩, hc, e⟩ := Option.map_eq_some_iff.mp hr
    subst e; exact talks_search (q := q) (o := .assume p) cp h trivial hc
  | pop =>
    obtain ⟨⟨q1, out⟩, hc, e⟩ := Option.map_eq_some_iff.mp hr
    subst e; exact talks_search (q := q) (o := .pop) cp h trivial hc
  | propagate =>
    obtain ⟨⟨q1, out⟩, hc, e⟩ := Option.map_eq_some_iff.mp hr
    subst e; exact talks_search (q := q) (o := .propagate) cp h trivial hc
  | var =>
    simp only at hr
    split at hr
    · next hk => injection hr with hr; subst hr; exact cp.theory rfl h hd hk (.num wA)
    · cases hr
  | point =>
    simp only at hr
    split at hr
    · next hk => injection hr with hr; subst hr; exact cp.theory rfl h hd hk (.point wI)
    · cases hr
  | rel R l r =>
    simp only at hr
    split at hr
    · next hk =>
      rw [Bool.and_eq_true, Bool.and_eq_true] at hk
      obtain ⟨⟨q1, q2⟩, h1, e⟩ := Option.map_eq_some_iff.mp hr
      subst e
      obtain ⟨l1, l2⟩ := linB_known hk.1.2
      obtain ⟨r1, r2⟩ := linB_known hk.2
      exact cp.theory rfl h hd hk.1.1 (.rel wA l1 r1 l2 r2 (toOption_some h1))
    · cases hr
  | apart i j w =>
    simp only at hr
    split at hr
    · next hk =>
      simp only [Bool.and_eq_true, decide_eq_true_eq] at hk
      obtain ⟨⟨q1, q2⟩, h1, e⟩ := Option.map_eq_some_iff.mp hr
      subst e
      exact cp.theory rfl h hd hk.1.1 (.apart wI hk.1.2 hk.2 (toOption_some h1))
    · cases hr
  | between R l r =>
    simp only at hr
    split at hr
    · next hk =>
      simp only [Bool.and_eq_true, decide_eq_true_eq] at hk
      obtain ⟨⟨q1, q2⟩, h1, e⟩ := Option.map_eq_some_iff.mp hr
      subst e
      obtain ⟨l1, l2⟩ := pointsB_points hk.1.1.2
      obtain ⟨r1, r2⟩ := pointsB_points hk.1.2
      exact cp.theory rfl h hd hk.1.1.1 (.between wI l1 r1 l2 r2 (fun e => absurd e hk.2) (toOption_some h1))
    · cases hr

theorem Ask.run_talks {a : Ask} {q q' : Tn} (h : Talks q) (hr : a.run q = some q') : Talks q' :=
  a.run_closed (P := fun tr S d => Family.SafeTalk fam tr S (Lib.dat []) d) ⟨chat_talk.search, chat_talk.core, fun _ => chat_talk.theory rfl⟩ h hr

def asks : List Ask → Tn → Option Tn
  | [], q => some q
  | a :: as, q => (a.run q).bind (asks as)

theorem asks_talks : ∀ (as : List Ask) (q r : Tn), Talks q → asks as q = some r → Talks r
  | [], q, r, h, hr => by injection hr with hr; subst hr; exact h
  | a :: as, q, r, h, hr => by
    obtain ⟨q1, h1, h2⟩ := Option.bind_eq_some_iff.mp hr
    exact asks_talks as _ _ (a.run_talks h h1) h2

def new3 : Tn := ((Lib.new, false), [])

/-- The state and the requests after a client. -/
def asked (as : List Ask) : Tn := (asks as new3).getD new3

theorem asked_talks (as : List Ask) : Talks (asked as) := by
  have h0 : Talks new3 := .init (show lib.Start (LRA.init, DL.init 4, DL.init 4, OV.init) from ⟨rfl, ⟨4, by decide, rfl⟩, ⟨4, by decide, rfl⟩, rfl⟩)
  unfold asked
  match hr : asks as new3 with
  | none => exact h0
  | some q => exact asks_talks as _ _ h0 hr

theorem asked_solved {as : List Ask} (hd : (asked as).1.1.dead = false) {k : Nat} (hk : ((asked as).1.1.nvars + 2) ^ ((asked as).1.1.dl + (asked as).1.1.nvars + 1) ≤ k)
    (ha : excludedB (Sat.solve stdEnv fam.safe firstFree k (asked as).1.1) = false) (hs : (Sat.solve stdEnv lib.ops firstFree k (asked as).1.1).toOption.map (·.2) = some true) :
    ∃ α x, Family.Meets ((asked as).2.map Note.said) α x := by
  obtain ⟨S', b, h1, h2, -⟩ := Family.C84_decides_partial (asked_talks as) hd firstFree_heuristic hk (excludedB_ne ha)
  rw [h1] at hs
  injection hs with hs
  obtain ⟨-, δ, h0, h3⟩ := h2 hs
  obtain ⟨⟨x, hx⟩, h4⟩ := h3 δ h0 le_rfl
  exact ⟨_, x, h4 x hx⟩

theorem asked_none {as : List Ask} (hd : (asked as).1.1.dead = false) {k : Nat} (hk : ((asked as).1.1.nvars + 2) ^ ((asked as).1.1.dl + (asked as).1.1.nvars + 1) ≤ k)
    (ha : excludedB (Sat.solve stdEnv fam.safe firstFree k (asked as).1.1) = false) (hs : (Sat.solve stdEnv lib.ops firstFree k (asked as).1.1).toOption.map (·.2) = some false) :
    ¬ ∃ α x, Family.Meets ((asked as).2.map Note.said) α x := by
  obtain ⟨S', b, h1, -, h3⟩ := Family.C84_decides_partial (asked_talks as) hd firstFree_heuristic hk (excludedB_ne ha)
  rw [h1] at hs
  injection hs with hs
  exact h3 hs

/-- Time points 1, 2 (0 is the origin); `b1`: `x2 - x1 ≤ -1`, `b2`: `x1 - x2 ≤ 3`; a numeric variable, `b3`: `y0 ≤ 3`; either `b1` or the opposite of `b3`; `b2`; a search that is taken back. -/
def talk84 : List Ask := [.point, .point, .apart 1 2 (-1), .apart 2 1 3, .var, .rel .leq ⟨[(0, 1)], 0⟩ ⟨[], 3⟩, .clause [pl 1, (pl 3).neg], .clause [pl 2], .propagate, .assume (pl 3), .pop]

/-- What is returned (`none`: no literal). -/
example : (asks talk84 new3).map (fun q => q.2.map Note.lit?) = some [none, none, some 3, none, some 2, some 1, none, none] := by decide +kernel

/-- C84_decides_partial: solvable. -/
theorem talk84_solved : ∃ α x, Family.Meets ((asked talk84).2.map Note.said) α x := asked_solved (k := 6 ^ 5) (by decide +kernel) (by decide +kernel) (by decide +kernel) (by decide +kernel)

/-- The same with `b4`: `x1 - x2 ≤ 0`, and `b1` required if `b3` is, `b4` required too: then `b3` is impossible, and asking for it leaves no solution. -/
def none84 : List Ask := [.point, .point, .apart 1 2 (-1), .apart 2 1 0, .var, .rel .leq ⟨[(0, 1)], 0⟩ ⟨[], 3⟩, .clause [pl 1, (pl 3).neg], .clause [pl 2, pl 3], .clause [pl 2, (pl 3).neg], .clause [pl 3, (pl 2).neg]]

/-- C84_decides_partial: no solution. -/
theorem none84_none : ¬ ∃ α x, Family.Meets ((asked none84).2.map Note.said) α x := asked_none (k := 6 ^ 5) (by decide +kernel) (by decide +kernel) (by decide +kernel) (by decide +kernel)

/-- C84_distances_partial: after the search, `x1 - x2 ≤ 3` in every solution. -/
example : ∀ α x, Family.Meets ((asked talk84).2.map Note.said) α x → (((wI.val x : Nat → ℤ) 1 - (wI.val x : Nat → ℤ) 2 : ℤ) : WithTop ℤ) ≤ ((3 : ℤ) : WithTop ℤ) := fun α x hm => by
  have e : (asked talk84).1.1.decisions = [] := by decide +kernel
  have := Family.C84_distances_partial (asked_talks talk84) wI (i := 2) (j := 1) (by decide +kernel) (by decide +kernel) (fun l hl => by rw [e] at hl; cases hl) α x hm (fun l hl => by rw [e] at hl; cases hl)
  have e2 : ((wI.within.th (asked talk84).1.1.th).distance 2 1).2 = ((3 : ℤ) : WithTop ℤ) := by decide +kernel
  rw [e2] at this
  exact this

/-- With `b1` decided, and `b2` at root level. -/
def open84 : List Ask := talk84 ++ [.assume (pl 3)]

/-- C84_values_partial: in every solution with `b3`, `b1` holds; the client reads off `x2 < x1`. -/
example : ∀ α x, Family.Meets ((asked open84).2.map Note.said) α x → α.sat (pl 3) → (wI.val x : Nat → ℤ) 2 - (wI.val x : Nat → ℤ) 1 ≤ -1 := fun α x hm h3 => by
  have e : (asked open84).1.1.decUpTo ((asked open84).1.1.level (pl 1).var) = [pl 3] := by decide +kernel
  have k : knownB (asked open84).2 (pl 1).var = true := by decide +kernel
  have k3 : knownB (asked open84).2 (pl 3).var = true := by decide +kernel
  have h1 := Family.C84_values_partial (asked_talks open84) (q := pl 1) (by decide +kernel) (knownB_known k)
    (fun l hl => by rw [e] at hl; rw [List.mem_singleton.mp hl]; exact knownB_known k3) α x hm (fun l hl => by rw [e] at hl; rw [List.mem_singleton.mp hl]; exact h3)
  exact (hm.2 (.apart wI 1 2 (-1) (pl 1)) (List.mem_map.mpr ⟨.apart 1 2 (-1) (pl 1), List.mem_of_getElem? (i := 5) (by decide +kernel), rfl⟩)).mp h1

/-- C84_bounds_partial: and `y0 ≤ 3`. -/
example : ∀ α x, Family.Meets ((asked open84).2.map Note.said) α x → α.sat (pl 3) → ((IQ.ofQ ((wA.val x : Nat → ℚ) 0) : IQ) : WithTop IQ) ≤ ((toLex (3, 0) : IQ) : WithTop IQ) := fun α x hm h3 => by
  have e : (asked open84).1.1.decisions = [pl 3] := by decide +kernel
  have k : knownNumB (asked open84).2 0 = true := by decide +kernel
  have k3 : knownB (asked open84).2 (pl 3).var = true := by decide +kernel
  have := (Family.C84_bounds_partial (asked_talks open84) wA (v := 0) (knownNumB_known k) (fun l hl => by rw [e] at hl; rw [List.mem_singleton.mp hl]; exact knownB_known k3) α x hm
    (fun l hl => by rw [e] at hl; rw [List.mem_singleton.mp hl]; exact h3)).2
  have e2 : (wA.within.th (asked open84).1.1.th).hi 0 = ((toLex (3, 0) : IQ) : WithTop IQ) := by decide +kernel
  rw [e2] at this
  exact this

/-- C84_answered_partial: another distance is answered. -/
example : ∃ s p, DL.newDistance (wI.within.view (asked talk84).1.1) 1 2 (-5) = .ok (s, p) ∧
    Family.SafeTalk fam (.apart wI 1 2 (-5) p :: (asked talk84).2.map Note.said) (wI.within.put (asked talk84).1.1 s) (Lib.dat []) (asked talk84).1.2 :=
  (Family.C84_answered_partial (asked_talks talk84) (by decide +kernel) (by decide +kernel) wI).2 1 2 (-5) (by decide +kernel) (by decide +kernel)

/-- The same requests without the search. -/
def same84 : List Ask := talk84.filter (fun a => match a with | .assume _ | .pop | .propagate => false | _ => true)

/-- C84_same_answer_partial: the same answer. -/
example : ∃ S S' b, Sat.solve stdEnv lib.ops firstFree (6 ^ 5) (asked talk84).1.1 = .ok (S, b) ∧ Sat.solve stdEnv lib.ops firstFree (6 ^ 5) (asked same84).1.1 = .ok (S', b) := by
  have e : (asked talk84).2 = (asked same84).2 := by decide +kernel
  exact Family.C84_same_answer_partial (asked_talks talk84) (by decide +kernel) firstFree_heuristic (by decide +kernel) (excludedB_ne (by decide +kernel)) (asked_talks same84) (by decide +kernel) firstFree_heuristic (by decide +kernel)
    (excludedB_ne (by decide +kernel)) (by rw [e])

/-- Relations of linear expressions over time points: `b1`: `2 x1 < 2 x2 - 2` (over the integers: `x1 - x2 ≤ -2`), `b2`: `x2 ≤ 4`, `b3`: `x1 ≥ 3`. -/
def rel84 : List Ask := [.point, .point, .between .lt ⟨[(1, 2)], 0⟩ ⟨[(2, 2)], -2⟩, .between .leq ⟨[(2, 1)], 0⟩ ⟨[], 4⟩, .between .geq ⟨[(1, 1)], 0⟩ ⟨[], 3⟩, .clause [pl 1], .clause [pl 2], .propagate]

/-- What is returned: `x1 ≥ 3` is the opposite of `x1 ≤ 2`. -/
example : (asks rel84 new3).map (fun q => q.2.map Note.lit?) = some [none, none, some 3, some 2, some 1, none, none] := by decide +kernel

theorem rel84_solved : ∃ α x, Family.Meets ((asked rel84).2.map Note.said) α x := asked_solved (k := 6 ^ 5) (by decide +kernel) (by decide +kernel) (by decide +kernel) (by decide +kernel)

/-- C84_values_partial: after `propagate()`, `x1 ≥ 3` is reported false: in every solution `x1 < 3` (positions counted from the origin). -/
example : ∀ α x, Family.Meets ((asked rel84).2.map Note.said) α x → (((wI.val x : Nat → ℤ) 1 - (wI.val x : Nat → ℤ) 0 : ℤ) : ℚ) < 3 := fun α x hm => by
  obtain ⟨p, hp, hv⟩ : ∃ p : Lit, (asked rel84).2[2]? = some (.between .geq ⟨[(1, 1)], 0⟩ ⟨[], 3⟩ p) ∧ p.var = 3 ∧ (asked rel84).1.1.value p.neg = some true ∧ (asked rel84).1.1.decUpTo ((asked rel84).1.1.level p.neg.var) = [] :=
    ⟨(pl 3), by decide +kernel, by decide +kernel, by decide +kernel, by decide +kernel⟩
  have k : knownB (asked rel84).2 p.neg.var = true := by rw [Lit.neg_var, hv.1]; decide +kernel
  have h1 := Family.C84_values_partial (asked_talks rel84) (q := p.neg) hv.2.1 (knownB_known k) (fun l hl => by rw [hv.2.2] at hl; cases hl) α x hm (fun l hl => by rw [hv.2.2] at hl; cases hl)
  have h2 : α.sat p ↔ DL.Rel.geq.holds _ _ := hm.2 (.between wI .geq ⟨[(1, 1)], 0⟩ ⟨[], 3⟩ p) (List.mem_map.mpr ⟨.between .geq ⟨[(1, 1)], 0⟩ ⟨[], 3⟩ p, List.mem_of_getElem? (i := 2) hp, rfl⟩)
  have h3 : ¬ α.sat p := (Asg.sat_neg α p).mp h1
  rw [h2] at h3
  simpa [DL.Rel.holds, Lin.eval] using h3

/-- C84_relations_partial: `x1 = x2 - 3` is answered. -/
example : ∃ s p, DL.newRel stdEnv .eq (wI.within.view (asked rel84).1.1) ⟨[(1, 1)], 0⟩ ⟨[(2, 1)], -3⟩ = .ok (s, p) ∧
    Family.SafeTalk fam (.between wI .eq ⟨[(1, 1)], 0⟩ ⟨[(2, 1)], -3⟩ p :: (asked rel84).2.map Note.said) (wI.within.put (asked rel84).1.1 s) (Lib.dat []) (asked rel84).1.2 := by
  have l1 := pointsB_points (n := (wI.within.th (asked rel84).1.1.th).nv) (l := ⟨[(1, 1)], 0⟩) (by decide +kernel)
  have r1 := pointsB_points (n := (wI.within.th (asked rel84).1.1.th).nv) (l := ⟨[(2, 1)], -3⟩) (by decide +kernel)
  exact (Family.C84_relations_partial (asked_talks rel84) (by decide +kernel) (by decide +kernel) wI l1.1 r1.1 l1.2 r1.2).2 (.inr (.inr ⟨1, 3, 1, 2, by norm_num, by norm_num, by decide +kernel, fun x => by simp [Lin.eval, Lin.evalT]; ring⟩)) nofun

/-- `b1` and `b2`: `x1 - x2 ≤ 0`, both required: a call fails. -/
def fail84 : List Ask := [.point, .point, .apart 1 2 (-1), .apart 2 1 0, .clause [pl 1], .clause [pl 2], .propagate]

/-- C84_definitive_partial: the call that failed: nothing meets the requests. -/
example : ∀ α x, ¬ Family.Meets ((asked fail84).2.map Note.said) α x := (Family.C84_definitive_partial (S' := (asked fail84).1.1) (asked_talks fail84)).1 (by decide +kernel)

example : (asked fail84).2.length = 6 := by decide +kernel

end Lib3
end Semitone
