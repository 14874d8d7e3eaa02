import Verif.Lib.StackSafe
import Verif.Lib.TalkSafeDemo
import Verif.Lib.StackTalkDemo

/-!
# Concrete transcripts for C85: linear arithmetic, difference logic and object variables on a stack of cores
-/
namespace Semitone
namespace Lib3
open Comp
open Lib (lib St fam excludedB excludedB_ne)

/-- A stack of cores with the requests that make the problem of each, top first. -/
abbrev Sk := List (List Note × St × Bool)

/-- What the client of a stack does. -/
inductive Move where
  | ask (a : Ask)
  | push
  | pop

def Move.run : Move → Sk → Option Sk
  | .ask a, (ns, S, d) :: rest => if !a.theory || rest.isEmpty then (a.run ((S, d), ns)).map (fun r => (r.2, r.1.1, r.1.2) :: rest) else none
  | .push, (ns, S, false) :: rest =>
    if !S.dead && S.propQ.isEmpty && S.decisions.all (fun p => decide (S.value p = some true)) && litsB ns S.decisions then
      match Sat.pushTop stdEnv lib.ops (S :: rest.map (fun r => r.2.1)) with
      | .ok (c :: _) => some ((S.decisions.map (fun p => .clause [p]) ++ ns, c, false) :: (ns, S, false) :: rest)
      | _ => none
    else none
  | .pop, (_, u, _) :: (ns, S, d) :: rest =>
    if u.root then
      match Sat.popTop lib.ops (u :: S :: rest.map (fun r => r.2.1)) with
      | .ok (S' :: _) => some ((ns, S', d) :: rest)
      | _ => none
    else none
  | _, _ => none

/-- What the stack means. -/
def Sk.said (l : List (List Note × St × Bool)) : List (List (Family.Said fam) × St × Bool) := l.map (fun r => (r.1.map Note.said, r.2.1, r.2.2))

theorem Sk.cores (l : List (List Note × St × Bool)) : (Sk.said l).map (fun r => r.2.1) = l.map (fun r => r.2.1) := by
  unfold Sk.said; rw [List.map_map]; rfl

theorem said_assuming (ds : List Lit) (ns : List Note) : (ds.map (fun p => Note.clause [p]) ++ ns).map Note.said = Family.assuming ds (ns.map Note.said) := by
  rw [List.map_append, List.map_map]; rfl

/-- With other cores below. -/
theorem chat_stack (rest : List (List (Family.Said fam) × St × Bool)) : Chat false (fun tr S d => Family.SafeStackTalk fam ((tr, S, d) :: rest) (Lib.dat [])) := ⟨.search, .core, nofun⟩

theorem chat_one : Chat true (fun tr S d => Family.SafeStackTalk fam [(tr, S, d)] (Lib.dat [])) := ⟨.search, .core, fun _ => fun h a b c => .theory h a b c (.inr ⟨rfl, rfl⟩)⟩

theorem Move.run_talks {a : Move} {q q' : Sk} (h : Family.SafeStackTalk fam (Sk.said q) (Lib.dat [])) (hr : a.run q = some q') : Family.SafeStackTalk fam (Sk.said q') (Lib.dat []) := by
  unfold Move.run at hr
  split at hr
  · next a ns S d rest =>
    split at hr
    · next hc =>
      obtain ⟨r, h1, h2⟩ := Option.map_eq_some_iff.mp hr
      subst h2
      by_cases ht : a.theory = true
      · have hc : rest = [] := by simpa [ht] using hc
        subst hc
        exact Ask.run_closed (P := fun tr S d => Family.SafeStackTalk fam [(tr, S, d)] (Lib.dat [])) (by rw [ht]; exact chat_one) (q := ((S, d), ns)) h h1
      · have ht : a.theory = false := by simpa using ht
        exact Ask.run_closed (P := fun tr S d => Family.SafeStackTalk fam ((tr, S, d) :: Sk.said rest) (Lib.dat [])) (by rw [ht]; exact chat_stack _) (q := ((S, d), ns)) h h1
    · cases hr
  · next ns S rest =>
    split at hr
    · next hc =>
      simp only [Bool.and_eq_true, Bool.not_eq_true', List.isEmpty_iff] at hc
      split at hr
      · next c r h1 =>
        injection hr with hr; subst hr
        have e := Lib2.pushTop_rest h1
        subst e
        have := Family.StackTalkOn.push (c := c) h hc.1.1.1 hc.1.1.2 (fun p hp => by simpa using List.all_eq_true.mp hc.1.2 p hp) (litsB_known hc.2) (by have k := Sk.cores rest; unfold Sk.said at k; rw [k]; exact h1)
        rw [← said_assuming] at this
        exact this
      · cases hr
    · cases hr
  · next rest =>
    split at hr
    · next hc =>
      split at hr
      · next h1 =>
        injection hr with hr; subst hr
        have e := Lib2.popTop_rest h1
        subst e
        exact .pop h hc (by have k := Sk.cores rest; unfold Sk.said at k; rw [k]; exact h1)
      · cases hr
    · cases hr
  · cases hr

def moves : List Move → Sk → Option Sk
  | [], q => some q
  | a :: as, q => (a.run q).bind (moves as)

theorem moves_talks : ∀ (as : List Move) (q r : Sk), Family.SafeStackTalk fam (Sk.said q) (Lib.dat []) → moves as q = some r → Family.SafeStackTalk fam (Sk.said r) (Lib.dat [])
  | [], q, r, h, hr => by injection hr with hr; subst hr; exact h
  | a :: as, q, r, h, hr => by
    obtain ⟨q1, h1, h2⟩ := Option.bind_eq_some_iff.mp hr
    exact moves_talks as _ _ (a.run_talks h h1) h2

def start : Sk := [([], Lib.new, false)]

/-- The stack and the problems after a client. -/
def moved (as : List Move) : Sk := (moves as start).getD start

theorem moved_talks (as : List Move) : Family.SafeStackTalk fam (Sk.said (moved as)) (Lib.dat []) := by
  have h0 : Family.SafeStackTalk fam (Sk.said start) (Lib.dat []) := .init (show lib.Start (LRA.init, DL.init 4, DL.init 4, OV.init) from ⟨rfl, ⟨4, by decide, rfl⟩, ⟨4, by decide, rfl⟩, rfl⟩)
  unfold moved
  match hr : moves as start with
  | none => exact h0
  | some q => exact moves_talks as _ _ h0 hr

/-- The top of the stack: its problem, the core, and whether something is pending there. -/
def peak (as : List Move) : List Note × St × Bool := ((moved as).head?).getD ([], Lib.new, false)

theorem peak_talks (as : List Move) : Family.SafeStackTalk fam (((peak as).1.map Note.said, (peak as).2.1, (peak as).2.2) :: Sk.said (moved as).tail) (Lib.dat []) := by
  have h := moved_talks as
  have e : Sk.said (moved as) = ((peak as).1.map Note.said, (peak as).2.1, (peak as).2.2) :: Sk.said (moved as).tail := by
    unfold peak
    generalize hl : (moved as) = l at h ⊢
    cases l with
    | nil => cases h
    | cons a l => rfl
  rw [e] at h
  exact h

theorem peak_solved {as : List Move} (hd : (peak as).2.1.dead = false) {k : Nat} (hk : ((peak as).2.1.nvars + 2) ^ ((peak as).2.1.dl + (peak as).2.1.nvars + 1) ≤ k)
    (ha : excludedB (Sat.solve stdEnv fam.safe firstFree k (peak as).2.1) = false) (hs : (Sat.solve stdEnv lib.ops firstFree k (peak as).2.1).toOption.map (·.2) = some true) : ∃ α x, Family.Meets ((peak as).1.map Note.said) α x := by
  obtain ⟨S', b, h1, h2, -⟩ := Family.C85_decides_partial (peak_talks as) hd firstFree_heuristic hk (excludedB_ne ha)
  rw [h1] at hs
  injection hs with hs
  obtain ⟨-, δ, e1, e2⟩ := h2 hs
  obtain ⟨⟨x, hx⟩, e3⟩ := e2 δ e1 le_rfl
  exact ⟨_, x, e3 x hx⟩

theorem peak_none {as : List Move} (hd : (peak as).2.1.dead = false) {k : Nat} (hk : ((peak as).2.1.nvars + 2) ^ ((peak as).2.1.dl + (peak as).2.1.nvars + 1) ≤ k)
    (ha : excludedB (Sat.solve stdEnv fam.safe firstFree k (peak as).2.1) = false) (hs : (Sat.solve stdEnv lib.ops firstFree k (peak as).2.1).toOption.map (·.2) = some false) : ¬ ∃ α x, Family.Meets ((peak as).1.map Note.said) α x := by
  obtain ⟨S', b, h1, -, h3⟩ := Family.C85_decides_partial (peak_talks as) hd firstFree_heuristic hk (excludedB_ne ha)
  rw [h1] at hs
  injection hs with hs
  exact h3 hs

/-- The requests of `talk84`; then, with `b3` decided, a core is pushed. -/
def base85 : List Move := talk84.map .ask ++ [.ask (.assume (pl 3))]
def up85 : List Move := base85 ++ [.push]

/-- There, with two new variables, clauses are asked that exclude `b1` and `b2` together, but both hold there: nothing meets that. -/
def none85 : List Move := up85 ++ [.ask .bool, .ask .bool, .ask (.clause [(pl 2).neg, pl 4, pl 5]), .ask (.clause [(pl 1).neg, (pl 4).neg, pl 5]), .ask (.clause [(pl 5).neg, pl 4]), .ask (.clause [(pl 5).neg, (pl 4).neg])]

/-- The core above is dropped. -/
def down85 : List Move := none85 ++ [.pop]

/-- The heights of the stacks. -/
example : (moves up85 start).map List.length = some 2 ∧ (moves none85 start).map List.length = some 2 ∧ (moves down85 start).map List.length = some 1 := by decide +kernel

/-- C85_decides_partial: the problem of the pushed core (that of the core below with `b3`) has solutions. -/
theorem up85_solved : ∃ α x, Family.Meets ((peak up85).1.map Note.said) α x := peak_solved (k := 6 ^ 5) (by decide +kernel) (by decide +kernel) (by decide +kernel) (by decide +kernel)

/-- C85_decides_partial: with the clauses above it has none. -/
theorem none85_none : ¬ ∃ α x, Family.Meets ((peak none85).1.map Note.said) α x := peak_none (k := 8 ^ 7) (by decide +kernel) (by decide +kernel) (by decide +kernel) (by decide +kernel)

/-- C85_decides_partial: after `pop` the problem below is as it was, and solvable. -/
theorem down85_solved : ∃ α x, Family.Meets ((peak down85).1.map Note.said) α x := peak_solved (k := 6 ^ 6) (by decide +kernel) (by decide +kernel) (by decide +kernel) (by decide +kernel)

example : (peak down85).1 = (asked talk84).2 := by decide +kernel

/-- C85_distances_partial: on the pushed core, where no decision is open, `x2 - x1 ≤ -1` in every solution of its problem: `b3` is part of it. -/
example : ∀ α x, Family.Meets ((peak up85).1.map Note.said) α x → (((wI.val x : Nat → ℤ) 2 - (wI.val x : Nat → ℤ) 1 : ℤ) : WithTop ℤ) ≤ ((-1 : ℤ) : WithTop ℤ) := fun α x hm => by
  have e : (peak up85).2.1.decisions = [] := by decide +kernel
  have := Family.C85_distances_partial (peak_talks up85) wI (i := 1) (j := 2) (by decide +kernel) (by decide +kernel) (fun l hl => by rw [e] at hl; cases hl) α x hm (fun l hl => by rw [e] at hl; cases hl)
  have e2 : ((wI.within.th (peak up85).2.1.th).distance 1 2).2 = ((-1 : ℤ) : WithTop ℤ) := by decide +kernel
  rw [e2] at this
  exact this

/-- C85_values_partial: `b1` holds in every solution of the pushed problem; the client reads off `x2 < x1`. -/
example : ∀ α x, Family.Meets ((peak up85).1.map Note.said) α x → (wI.val x : Nat → ℤ) 2 - (wI.val x : Nat → ℤ) 1 ≤ -1 := fun α x hm => by
  have e : (peak up85).2.1.decUpTo ((peak up85).2.1.level (pl 1).var) = [] := by decide +kernel
  have k : knownB (peak up85).1 (pl 1).var = true := by decide +kernel
  have h1 := Family.C85_values_partial (peak_talks up85) (q := pl 1) (by decide +kernel) (knownB_known k) (fun l hl => by rw [e] at hl; cases hl) α x hm (fun l hl => by rw [e] at hl; cases hl)
  exact (hm.2 (.apart wI 1 2 (-1) (pl 1)) (List.mem_map.mpr ⟨.apart 1 2 (-1) (pl 1), List.mem_of_getElem? (i := 6) (by decide +kernel), rfl⟩)).mp h1

/-- C85_answered_partial: after the decision is taken back, another distance is answered. -/
def again85 : List Move := down85 ++ [.ask .pop]

example : (moves again85 start).map List.length = some 1 := by decide +kernel

example : ∃ s p, DL.newDistance (wI.within.view (peak again85).2.1) 1 2 (-5) = .ok (s, p) ∧
    Family.SafeStackTalk fam [(.apart wI 1 2 (-5) p :: (peak again85).1.map Note.said, wI.within.put (peak again85).2.1 s, (peak again85).2.2)] (Lib.dat []) := by
  have h := peak_talks again85
  have e : (moved again85).tail.length = 0 := by decide +kernel
  rw [List.length_eq_zero_iff.mp e] at h
  exact (Family.C85_answered_partial h (by decide +kernel) (by decide +kernel) wI).2 1 2 (-5) (by decide +kernel) (by decide +kernel)

/-- C85_relations_partial: and so is a relation. -/
example : ∃ s p, DL.newRel stdEnv .lt (wI.within.view (peak again85).2.1) ⟨[(1, 3)], 0⟩ ⟨[(2, 3)], -6⟩ = .ok (s, p) ∧
    Family.SafeStackTalk fam [(.between wI .lt ⟨[(1, 3)], 0⟩ ⟨[(2, 3)], -6⟩ p :: (peak again85).1.map Note.said, wI.within.put (peak again85).2.1 s, (peak again85).2.2)] (Lib.dat []) := by
  have h := peak_talks again85
  have e : (moved again85).tail.length = 0 := by decide +kernel
  rw [List.length_eq_zero_iff.mp e] at h
  have l1 := pointsB_points (n := (wI.within.th (peak again85).2.1.th).nv) (l := ⟨[(1, 3)], 0⟩) (by decide +kernel)
  have r1 := pointsB_points (n := (wI.within.th (peak again85).2.1.th).nv) (l := ⟨[(2, 3)], -6⟩) (by decide +kernel)
  exact (Family.C85_relations_partial h (by decide +kernel) (by decide +kernel) wI l1.1 r1.1 l1.2 r1.2).2 (.inr (.inr ⟨3, 2, 1, 2, by norm_num, by norm_num, by decide +kernel, fun x => by simp [Lin.eval, Lin.evalT]; ring⟩)) nofun

end Lib3
end Semitone
