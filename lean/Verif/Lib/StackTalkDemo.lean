import Verif.Lib.StackTalkProps
import Verif.Lib.TalkDemo
import Verif.Lib.StacksDemo

/-!
# Concrete transcripts for C83: two theories of linear arithmetic and object variables on a stack of cores
-/
namespace Semitone
namespace Lib2
open Comp

/-- A stack of cores with the requests that make the problem of each, top first, and what was imposed. -/
abbrev Sk := List (List Note × St × Bool) × lib.Dat

/-- What the client of a stack does. -/
inductive Move where
  | ask (a : Ask)
  | push
  | pop

def Move.run : Move → Sk → Option Sk
  | .ask a, ((ns, S, d) :: rest, U) => if !a.theory || rest.isEmpty then (a.run ((S, U, d), ns)).map (fun r => ((r.2, r.1.1, r.1.2.2) :: rest, r.1.2.1)) else none
  | .push, ((ns, S, false) :: rest, U) =>
    if !S.dead && S.propQ.isEmpty && S.decisions.all (fun p => decide (S.value p = some true)) && litsB ns S.decisions then
      match Sat.pushTop stdEnv lib.ops (S :: rest.map (fun r => r.2.1)) with
      | .ok (c :: _) => some ((S.decisions.map (fun p => .clause [p]) ++ ns, c, false) :: (ns, S, false) :: rest, U)
      | _ => none
    else none
  | .pop, ((_, u, _) :: (ns, S, d) :: rest, U) =>
    if u.root then
      match Sat.popTop lib.ops (u :: S :: rest.map (fun r => r.2.1)) with
      | .ok (S' :: _) => some ((ns, S', d) :: rest, U)
      | _ => none
    else none
  | _, _ => none

/-- What the stack means. -/
def Sk.said (l : List (List Note × St × Bool)) : List (List (Family.Said fam) × St × Bool) := l.map (fun r => (r.1.map Note.said, r.2.1, r.2.2))

theorem Sk.cores (l : List (List Note × St × Bool)) : (Sk.said l).map (fun r => r.2.1) = l.map (fun r => r.2.1) := by
  unfold Sk.said; rw [List.map_map]; rfl

theorem said_assuming (ds : List Lit) (ns : List Note) : (ds.map (fun p => Note.clause [p]) ++ ns).map Note.said = Family.assuming ds (ns.map Note.said) := by
  rw [List.map_append, List.map_map]; rfl

/-- With other cores below. -/
theorem chat_stack (rest : List (List (Family.Said fam) × St × Bool)) (U : lib.Dat) : Chat false (fun tr S U' d => U' = U ∧ Family.StackTalk fam ((tr, S, d) :: rest) U) :=
  ⟨fun h a b c e => ⟨h.1, .search h.2 a b c e⟩, fun h a b c e => ⟨h.1, .core h.2 a b c e⟩, fun h a b c d e => ⟨h.1, .next h.2 a b c d e⟩, fun h a b => ⟨h.1, .allows wO h.2 a b⟩, nofun⟩

theorem chat_one : Chat true (fun tr S U d => Family.StackTalk fam [(tr, S, d)] U) := ⟨.search, .core, .next, .allows wO, fun _ => .theory⟩

theorem Move.run_talks {a : Move} {q q' : Sk} (h : Family.StackTalk fam (Sk.said q.1) q.2) (hr : a.run q = some q') : Family.StackTalk fam (Sk.said q'.1) q'.2 := by
  unfold Move.run at hr
  split at hr
  · next a ns S d rest U =>
    split at hr
    · next hc =>
      obtain ⟨r, h1, h2⟩ := Option.map_eq_some_iff.mp hr
      subst h2
      by_cases ht : a.theory = true
      · have hc : rest = [] := by simpa [ht] using hc
        subst hc
        exact Ask.run_closed (P := fun tr S U d => Family.StackTalk fam [(tr, S, d)] U) (by rw [ht]; exact chat_one) (q := ((S, U, d), ns)) h h1
      · have ht : a.theory = false := by simpa using ht
        obtain ⟨k1, k2⟩ := Ask.run_closed (P := fun tr S U' d => U' = U ∧ Family.StackTalk fam ((tr, S, d) :: Sk.said rest) U) (by rw [ht]; exact chat_stack _ _) (q := ((S, U, d), ns)) ⟨rfl, h⟩ h1
        show Family.StackTalk fam _ r.1.2.1
        rw [k1]
        exact k2
    · cases hr
  · next ns S rest U =>
    split at hr
    · next hc =>
      simp only [Bool.and_eq_true, Bool.not_eq_true', List.isEmpty_iff] at hc
      split at hr
      · next c r h1 =>
        injection hr with hr; subst hr
        have e := pushTop_rest h1
        subst e
        have := Family.StackTalkOn.push (c := c) h hc.1.1.1 hc.1.1.2 (fun p hp => by simpa using List.all_eq_true.mp hc.1.2 p hp) (litsB_known hc.2) (by have k := Sk.cores rest; unfold Sk.said at k; rw [k]; exact h1)
        rw [← said_assuming] at this
        exact this
      · cases hr
    · cases hr
  · next rest U =>
    split at hr
    · next hc =>
      split at hr
      · next h1 =>
        injection hr with hr; subst hr
        have e := popTop_rest h1
        subst e
        exact .pop h hc (by have k := Sk.cores rest; unfold Sk.said at k; rw [k]; exact h1)
      · cases hr
    · cases hr
  · cases hr

def moves : List Move → Sk → Option Sk
  | [], q => some q
  | a :: as, q => (a.run q).bind (moves as)

theorem moves_talks : ∀ (as : List Move) (q r : Sk), Family.StackTalk fam (Sk.said q.1) q.2 → moves as q = some r → Family.StackTalk fam (Sk.said r.1) r.2
  | [], q, r, h, hr => by injection hr with hr; subst hr; exact h
  | a :: as, q, r, h, hr => by
    obtain ⟨q1, h1, h2⟩ := Option.bind_eq_some_iff.mp hr
    exact moves_talks as _ _ (a.run_talks h h1) h2

def start : Sk := ([([], new.1, false)], lib.d0)

/-- The stack and the problems after a client. -/
def moved (as : List Move) : Sk := (moves as start).getD start

theorem moved_talks (as : List Move) : Family.StackTalk fam (Sk.said (moved as).1) (moved as).2 := by
  have h0 : Family.StackTalk fam (Sk.said start.1) start.2 := .init (show lib.Start (LRA.init, LRA.init, OV.init) from ⟨rfl, rfl, rfl⟩)
  unfold moved
  match hr : moves as start with
  | none => exact h0
  | some q => exact moves_talks as _ _ h0 hr

/-- The top of the stack: its problem, the core, and whether something is pending there. -/
def peak (as : List Move) : List Note × St × Bool := ((moved as).1.head?).getD ([], new.1, false)

theorem peak_talks (as : List Move) : Family.StackTalk fam (((peak as).1.map Note.said, (peak as).2.1, (peak as).2.2) :: Sk.said (moved as).1.tail) (moved as).2 := by
  have h := moved_talks as
  have e : Sk.said (moved as).1 = ((peak as).1.map Note.said, (peak as).2.1, (peak as).2.2) :: Sk.said (moved as).1.tail := by
    unfold peak
    generalize hl : (moved as).1 = l at h ⊢
    cases l with
    | nil => cases h
    | cons a l => rfl
  rw [e] at h
  exact h

theorem peak_solved {as : List Move} (hd : (peak as).2.1.dead = false) {k : Nat} (hk : ((peak as).2.1.nvars + 2) ^ ((peak as).2.1.dl + (peak as).2.1.nvars + 1) ≤ k)
    (hs : (Sat.solve stdEnv lib.ops firstFree k (peak as).2.1).toOption.map (·.2) = some true) : ∃ α x, Family.Meets ((peak as).1.map Note.said) α x := by
  obtain ⟨S', b, h1, h2, -⟩ := Family.C83_decides plain (peak_talks as) hd firstFree_heuristic hk
  rw [h1] at hs
  injection hs with hs
  obtain ⟨-, δ, e1, e2⟩ := h2 hs
  obtain ⟨⟨x, hx⟩, e3⟩ := e2 δ e1 le_rfl
  exact ⟨_, x, e3 x hx⟩

theorem peak_none {as : List Move} (hd : (peak as).2.1.dead = false) {k : Nat} (hk : ((peak as).2.1.nvars + 2) ^ ((peak as).2.1.dl + (peak as).2.1.nvars + 1) ≤ k)
    (hs : (Sat.solve stdEnv lib.ops firstFree k (peak as).2.1).toOption.map (·.2) = some false) : ¬ ∃ α x, Family.Meets ((peak as).1.map Note.said) α x := by
  obtain ⟨S', b, h1, -, h3⟩ := Family.C83_decides plain (peak_talks as) hd firstFree_heuristic hk
  rw [h1] at hs
  injection hs with hs
  exact h3 hs

/-- `b1`: `x0 ≤ 3` in the first theory of linear arithmetic; `b2`: `x0 ≥ 1` in the second; an object variable with values 10, 11; `b6` of the client; `b2` or `b6`; then `b1` is assumed. -/
def ask83 : List Move := ([.var true, .var false, .rel true .leq ⟨[(0, 1)], 0⟩ ⟨[], 3⟩, .rel false .geq ⟨[(0, 1)], 0⟩ ⟨[], 1⟩, .obj [10, 11], .bool, .clause [pl 2, pl 6], .propagate, .assume (pl 1)] : List Ask).map .ask
/-- On a new core: the first value of the object variable (`b3`), and its negation or `b6` false. -/
def more83 : List Move := ask83 ++ [.push, .ask (.allows 0 10), .ask (.clause [pl 3]), .ask (.clause [(pl 3).neg, (pl 6).neg]), .ask .propagate]
/-- On a third core new variables are asked for, and clauses that have no solution. -/
def none83 : List Move := more83 ++ [.push, .ask .bool, .ask .bool, .ask (.clause [pl 7, pl 8]), .ask (.clause [pl 7, (pl 8).neg]), .ask (.clause [(pl 7).neg, pl 8]), .ask (.clause [(pl 7).neg, (pl 8).neg])]
/-- There `b7` is decided: a contradiction; both cores are dropped, `b1` is taken back, and `x0 ≤ 0` is imposed in the second theory. -/
def dead83 : List Move := none83 ++ [.ask (.assume (pl 7))]
def back83 : List Move := dead83 ++ [.pop, .pop, .ask .pop, .ask (.ub false 0 (toLex (0, 0))), .ask .propagate]

/-- The clients get that far: the height of the stack. -/
example : [ask83, more83, none83, dead83, back83].map (fun as => (moves as start).map (fun q => q.1.length)) = [some 1, some 2, some 3, some 3, some 1] := by decide +kernel

/-- What is returned on top (`none`: no literal). -/
example : [more83, none83, back83].map (fun as => (peak as).1.map Note.lit?) =
    [[none, none, some 3, none, none, some 6, none, some 2, some 1, none, none], [none, none, none, none, some 8, some 7, none, none, some 3, none, none, some 6, none, some 2, some 1, none, none],
      [none, none, some 6, none, some 2, some 1, none, none]] := by decide +kernel

/-- The values of `b1` to `b8` there, and whether a contradiction was found. -/
example : [more83, none83, dead83, back83].map (fun as => ([1, 2, 3, 4, 5, 6, 7, 8].map (peak as).2.1.assigns, (peak as).2.1.dead)) =
    [([some true, some true, some true, some false, some true, some false, none, none], false), ([some true, some true, some true, some false, some true, some false, none, none], false),
      ([some true, some true, some true, some false, some true, some false, some false, some true], true), ([none, some false, none, none, some true, some true, none, none], false)] := by decide +kernel

/-- C83_decides on the second core: solvable; what is asked for on the third has no solution; after both are dropped, the problem below is solvable. -/
theorem more83_solved : ∃ α x, Family.Meets ((peak more83).1.map Note.said) α x := peak_solved (k := 10 ^ 9) (by decide +kernel) (by decide +kernel) (by decide +kernel)
theorem none83_none : ¬ ∃ α x, Family.Meets ((peak none83).1.map Note.said) α x := peak_none (k := 10 ^ 12) (by decide +kernel) (by decide +kernel) (by decide +kernel)
theorem back83_solved : ∃ α x, Family.Meets ((peak back83).1.map Note.said) α x := peak_solved (k := 10 ^ 9) (by decide +kernel) (by decide +kernel) (by decide +kernel)

/-- C83_definitive: the contradiction found on the third core is real. -/
example : ∀ α x, ¬ Family.Meets ((peak dead83).1.map Note.said) α x := (Family.C83_definitive (S' := (peak dead83).2.1) plain (peak_talks dead83)).1 (by decide +kernel)

/-- C83_values: on the second core `b2` is certain; below it was not. -/
example : ∀ α x, Family.Meets ((peak more83).1.map Note.said) α x → α.sat (pl 2) := fun α x hm => by
  have e : (peak more83).2.1.decUpTo ((peak more83).2.1.level (pl 2).var) = [] := by decide +kernel
  have k : knownB (peak more83).1 (pl 2).var = true := by decide +kernel
  exact Family.C83_values plain (peak_talks more83) (q := pl 2) (by decide +kernel) (knownB_known k) (fun l hl => by rw [e] at hl; cases hl) α x hm (fun l hl => by rw [e] at hl; cases hl)

example : (peak ask83).2.1.value (pl 2) = none ∧ (peak back83).2.1.value (pl 2) = some false := by decide +kernel

/-- C83_bounds: `x0 ≤ 3` in the first theory, from the decision below; `x0 ≥ 1` in the second, from `b2`. -/
example : ∀ α x, Family.Meets ((peak more83).1.map Note.said) α x → (wA.val x : Nat → ℚ) 0 ≤ 3 ∧ 1 ≤ (wB.val x : Nat → ℚ) 0 := fun α x hm => by
  have e : (peak more83).2.1.decisions = [] := by decide +kernel
  have kA : knownNumB (peak more83).1 true 0 = true := by decide +kernel
  have kB : knownNumB (peak more83).1 false 0 = true := by decide +kernel
  have h1 := (Family.C83_bounds plain (peak_talks more83) wA (v := 0) (knownNumB_known (b := true) kA) (fun l hl => by rw [e] at hl; cases hl) α x hm (fun l hl => by rw [e] at hl; cases hl)).2
  have h2 := (Family.C83_bounds plain (peak_talks more83) wB (v := 0) (knownNumB_known (b := false) kB) (fun l hl => by rw [e] at hl; cases hl) α x hm (fun l hl => by rw [e] at hl; cases hl)).1
  have e1 : (wA.within.th (peak more83).2.1.th).hi 0 = ((IQ.ofQ 3 : IQ) : WithTop IQ) := by decide +kernel
  have e2 : (wB.within.th (peak more83).2.1.th).lo 0 = ((IQ.ofQ 1 : IQ) : WithBot IQ) := by decide +kernel
  rw [e1, WithTop.coe_le_coe] at h1
  rw [e2, WithBot.coe_le_coe] at h2
  exact ⟨(IQ.ofQ_le _ _).mp h1, (IQ.ofQ_le _ _).mp h2⟩

/-- C83_object: on the second core the object variable has its first value. -/
example : ∀ α x, Family.Meets ((peak more83).1.map Note.said) α x → (wO.val x : Nat → List Nat) 0 = [10] := fun α x hm => by
  have e : (peak more83).2.1.decisions = [] := by decide +kernel
  have k : knownObjB (peak more83).1 0 = true := by decide +kernel
  have e2 : OV.value (peak more83).2.1 (wO.within.th (peak more83).2.1.th) 0 = [10] := by decide +kernel
  obtain ⟨a, h1, h2⟩ := Family.C83_object plain (peak_talks more83) (by decide +kernel) wO (knownObjB_known k) (fun l hl => by rw [e] at hl; cases hl) α x hm (fun l hl => by rw [e] at hl; cases hl)
  rw [e2] at h2
  rw [h1, List.mem_singleton.mp h2]

/-- C83_push_pop: `push` with the decision `b1` open. -/
example : ∃ c, Sat.pushTop stdEnv lib.ops ((peak ask83).2.1 :: (Sk.said (moved ask83).1.tail).map (fun r => r.2.1)) = .ok (c :: (peak ask83).2.1 :: (Sk.said (moved ask83).1.tail).map (fun r => r.2.1)) ∧ c.root = true ∧
    Family.StackTalk fam ((Family.assuming [pl 1] ((peak ask83).1.map Note.said), c, false) :: ((peak ask83).1.map Note.said, (peak ask83).2.1, false) :: Sk.said (moved ask83).1.tail) (moved ask83).2 := by
  have h := peak_talks ask83
  have e : (peak ask83).2.2 = false := by decide +kernel
  have ed : (peak ask83).2.1.decisions = [pl 1] := by decide +kernel
  have k : knownB (peak ask83).1 (pl 1).var = true := by decide +kernel
  rw [e] at h
  obtain ⟨c, h1, h2, -, h3⟩ := (Family.C83_push_pop plain (d := false)).1 h (by decide +kernel) (by decide +kernel) (by decide +kernel) (fun p hp => by rw [ed] at hp; rw [List.mem_singleton.mp hp]; exact knownB_known k)
  rw [ed] at h3
  exact ⟨c, h1, h2, h3⟩

/-- C83_answered on the third core. -/
example : ∃ p S', (peak none83).2.1.step stdEnv lib.ops (.newConj [pl 7, pl 8]) = .ok (S', .lit p) := by
  have k7 : knownB (peak none83).1 7 = true := by decide +kernel
  have k8 : knownB (peak none83).1 8 = true := by decide +kernel
  obtain ⟨-, ⟨p, S', h, -⟩, -⟩ := (Family.C83_answered plain (peak_talks none83) (by decide +kernel) (by decide +kernel)).2 [pl 7, pl 8] (fun l hl => by
    rcases List.mem_cons.mp hl with rfl | hl
    · exact knownB_known k7
    · rw [List.mem_singleton.mp hl]; exact knownB_known k8)
  exact ⟨p, S', h⟩

/-- C83_same_answer: after all that, the answer is the one of a single core that was asked for the same. -/
def plain83 : List Ask := [.var true, .var false, .rel true .leq ⟨[(0, 1)], 0⟩ ⟨[], 3⟩, .rel false .geq ⟨[(0, 1)], 0⟩ ⟨[], 1⟩, .obj [10, 11], .bool, .clause [pl 2, pl 6], .ub false 0 (toLex (0, 0))]

example {pick : St → Option Lit} (hh : Sat.Heuristic pick) (k : Nat) (hk : 10 ^ 12 ≤ k) :
    ∃ S S' b, Sat.solve stdEnv lib.ops firstFree k (peak back83).2.1 = .ok (S, b) ∧ Sat.solve stdEnv lib.ops pick k (asked plain83).1.1 = .ok (S', b) := by
  have e : (peak back83).1 = (asked plain83).2 := by decide +kernel
  exact Family.C83_same_answer plain (peak_talks back83) (by decide +kernel) firstFree_heuristic (le_trans (by decide +kernel) hk) plain (asked_talks plain83) (by decide +kernel) hh (le_trans (by decide +kernel) hk) (by rw [e])

example : (asked plain83).2.length = 8 := by decide +kernel

end Lib2
end Semitone
