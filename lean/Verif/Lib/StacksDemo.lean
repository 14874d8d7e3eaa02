import Verif.Lib.Stacks
import Verif.Lib.FamilyDemo

/-!
# C81: a concrete stack of cores with two theories of linear arithmetic and object variables
-/
namespace Semitone

/-- A session of one core is a session of a stack of one core. -/
theorem Comp.Session.stacked {T : Type} {E : Env} {C : Comp T} {S : Sat T} {U : C.Dat} {d : Bool} (h : Comp.Session E C S U d) : Comp.StackSession E C [(S, d)] U := by
  induction h with
  | init h => exact .init h
  | step _ hl hm hs ih => exact .step ih hl hm hs
  | theory _ hd hc hd' ih => exact .theory ih hd hc hd'

namespace Lib2
open Lin Comp

/-- A stack of cores, top first, with what was imposed. -/
abbrev Pl := List (St × Bool) × lib.Dat

/-- One call of the client of a stack. -/
inductive Do where
  | act (a : Act)
  | push
  | pop

/-- The call is made, if it is allowed (and with no contradiction found, unless it is `pop`). -/
def Do.run : Do → Pl → Option Pl
  | .act (.op o), ((S, d) :: rest, U) => if S.legalB o && LRA.mayB o d then (S.step stdEnv lib.ops o).toOption.map (fun r => ((r.1, LRA.pendingAfter o d) :: rest, U)) else none
  | .act a, ([(S, d)], U) => (a.run (S, U, d)).map (fun r => ([(r.1.1, r.1.2.2)], r.1.2.1))
  | .push, ((S, false) :: rest, U) =>
    if !S.dead && S.propQ.isEmpty && S.decisions.all (fun p => decide (S.value p = some true)) then
      match Sat.pushTop stdEnv lib.ops (S :: rest.map Prod.fst) with
      | .ok (c :: _) => some ((c, false) :: (S, false) :: rest, U)
      | _ => none
    else none
  | .pop, ((u, _) :: (S, d) :: rest, U) =>
    if u.root then
      match Sat.popTop lib.ops (u :: S :: rest.map Prod.fst) with
      | .ok (S' :: _) => some ((S', d) :: rest, U)
      | _ => none
    else none
  | _, _ => none

theorem pushTop_rest {T : Type} {O : TheoryOps T} {st : List (Sat T)} {c : Sat T} {r : List (Sat T)} (h : Sat.pushTop stdEnv O st = .ok (c :: r)) : r = st := by
  cases st with
  | nil => cases h
  | cons a st =>
    simp only [Sat.pushTop] at h
    split at h
    · cases h
    · injection h with h; injection h with h1 h2; exact h2.symm

theorem popTop_rest {T : Type} {O : TheoryOps T} {u S : Sat T} {st : List (Sat T)} {c : Sat T} {r : List (Sat T)} (h : Sat.popTop O (u :: S :: st) = .ok (c :: r)) : r = st := by
  simp only [Sat.popTop] at h
  split at h
  · cases h
  · injection h with h; injection h with h1 h2; exact h2.symm

theorem Do.run_session {a : Do} {q q' : Pl} (h : StackSession stdEnv lib q.1 q.2) (hr : a.run q = some q') : StackSession stdEnv lib q'.1 q'.2 := by
  unfold Do.run at hr
  split at hr
  · split at hr
    · next hc =>
      rw [Bool.and_eq_true] at hc
      obtain ⟨⟨q1, q2⟩, h1, h2⟩ := Option.map_eq_some_iff.mp hr
      subst h2
      exact .step h (Sat.legalB_legal hc.1) (LRA.mayB_may hc.2) (Lib.toOption_some h1)
    · cases hr
  · obtain ⟨⟨q1, q2⟩, h1, h2⟩ := Option.map_eq_some_iff.mp hr
    subst h2
    exact Act.run_closed (P := fun S U d => StackSession stdEnv lib [(S, d)] U) .step .theory h h1
  · split at hr
    · next hc =>
      simp only [Bool.and_eq_true, Bool.not_eq_true', List.isEmpty_iff, List.all_eq_true, decide_eq_true_eq] at hc
      split at hr
      · next h1 =>
        injection hr with hr; subst hr
        have e := pushTop_rest h1
        subst e
        exact .push h hc.1.1 hc.1.2 hc.2 h1
      · cases hr
    · cases hr
  · split at hr
    · next hc =>
      split at hr
      · next h1 =>
        injection hr with hr; subst hr
        have e := popTop_rest h1
        subst e
        exact .pop h hc h1
      · cases hr
    · cases hr
  · cases hr

/-- The stack after a list of calls. -/
def dos : List Do → Pl → Option Pl
  | [], q => some q
  | a :: as, q => (a.run q).bind (dos as)

theorem dos_session : ∀ (as : List Do) (q r : Pl), StackSession stdEnv lib q.1 q.2 → dos as q = some r → StackSession stdEnv lib r.1 r.2
  | [], q, r, h, hr => by injection hr with hr; subst hr; exact h
  | a :: as, q, r, h, hr => by
    obtain ⟨q1, h1, h2⟩ := Option.bind_eq_some_iff.mp hr
    exact dos_session as _ _ (a.run_session h h1) h2

/-- A new core with the three theories. -/
def new1 : Pl := ([(new.1, false)], lib.d0)

def did (as : List Do) : Pl := (dos as new1).getD new1

theorem did_session (as : List Do) : StackSession stdEnv lib (did as).1 (did as).2 := by
  have h0 : StackSession stdEnv lib new1.1 new1.2 := .init (show lib.Start (LRA.init, LRA.init, OV.init) from ⟨rfl, rfl, rfl⟩)
  unfold did
  match hr : dos as new1 with
  | none => exact h0
  | some q => exact dos_session as _ _ h0 hr

/-- The top core, whether something is pending on it, and the cores below. -/
def top (as : List Do) : St := ((did as).1.head?.map Prod.fst).getD new.1
def wait (as : List Do) : Bool := ((did as).1.head?.map Prod.snd).getD false
def below (as : List Do) : List (St × Bool) := (did as).1.tail

theorem top_session (as : List Do) : StackSession stdEnv lib ((top as, wait as) :: below as) (did as).2 := by
  have h := did_session as
  have e : (did as).1 = (top as, wait as) :: below as := by
    unfold top wait below
    generalize (did as).1 = l, (did as).2 = U at h ⊢
    cases h <;> rfl
  rw [e] at h
  exact h

/-- The session of C77 (two theories of arithmetic, object variables); `b1` is assumed; `push`. -/
def on1 : List Do := (pre77 ++ post77).map .act ++ [.act (.op (.assume (pl 1)))]
def on2 : List Do := on1 ++ [.push]
/-- On the new core the first value of the first object variable is excluded; `push` again; there `b1` implies its second value, and then its third value is required: a contradiction. -/
def on3 : List Do := on2 ++ [.act (.op (.newClause [(pl 3).neg])), .act (.op .propagate), .push, .act (.op (.newClause [(pl 1).neg, pl 4])), .act (.op .propagate)]
def on4 : List Do := on3 ++ [.act (.op (.newClause [pl 5]))]
/-- Both cores are dropped and the decision is undone. -/
def on5 : List Do := on4 ++ [.pop, .act (.op .propagate), .pop, .act (.op .pop), .act (.op .propagate)]

/-- The sessions are as described: the sizes of the stacks, the values of `b1`, `b3`, `b4`, `b5` on the top core, and whether a contradiction was found there. -/
example : [on1, on2, on3, on4, on5].map (fun as => ((below as).length, [1, 3, 4, 5].map (top as).assigns, (top as).dead)) =
    [(0, [some true, none, none, none], false), (1, [some true, none, none, none], false), (2, [some true, some false, some true, some false], false), (2, [some true, some false, some true, some false], true), (0, [none, none, none, none], false)] := by decide +kernel

/-- C81_push_succeeds, with a decision on the core below. -/
example : ∃ c, Sat.pushTop stdEnv lib.ops (top on1 :: (below on1).map Prod.fst) = .ok (c :: top on1 :: (below on1).map Prod.fst) ∧ c.posted = (top on1).decisions.map (fun p => [p]) ++ (top on1).posted := by
  have h := top_session on1
  have e : wait on1 = false := by decide +kernel
  rw [e] at h
  obtain ⟨c, h1, -, -, -, h2, -⟩ := Family.C81_push_succeeds plain h (by decide +kernel) (by decide +kernel) (by decide +kernel)
  exact ⟨c, h1, h2⟩

/-- C81_calls_succeed on the top of three cores: the clause that gives the contradiction. -/
example : ∃ S' out, (top on3).step stdEnv lib.ops (.newClause [pl 5]) = .ok (S', out) :=
  Family.C81_calls_succeed plain (top_session on3) (Sat.legalB_legal (by decide +kernel)) (LRA.mayB_may (by decide +kernel))

/-- C81_sound: on the third core the second value of the object variable is certain, and the contradiction after `b5` is required is real. -/
example : ∀ α x, fam.Model (top on3) (did on3).2 α x → α.sat (pl 4) := fun α x hm =>
  (Family.C81_sound plain (top_session on3)).2.1 (pl 4) (by decide +kernel) α x hm (fun l hl => by
    have e : (top on3).decUpTo ((top on3).level (pl 4).var) = [] := by decide +kernel
    rw [e] at hl; cases hl)

example : ∀ α x, ¬ fam.Model (top on4) (did on4).2 α x := (Family.C81_sound plain (top_session on4)).2.2 (by decide +kernel)

theorem stack_model {as : List Do} (hd : (top as).dead = false) {k : Nat} (hk : ((top as).nvars + 2) ^ ((top as).dl + (top as).nvars + 1) ≤ k)
    (hs : (Sat.solve stdEnv lib.ops firstFree k (top as)).toOption.map (·.2) = some true) : ∃ α x, fam.Model (top as) (did as).2 α x := by
  obtain ⟨S', b, h1, h2, -⟩ := Family.C81_decides plain (top_session as) hd firstFree_heuristic hk
  rw [h1] at hs
  injection hs with hs
  obtain ⟨-, δ, e1, e2⟩ := h2 hs
  obtain ⟨⟨x, hx⟩, e3⟩ := e2 δ e1 le_rfl
  exact ⟨_, x, e3 x hx⟩

/-- C81_decides on the third core: there is a solution. -/
theorem model81 : ∃ α x, fam.Model (top on3) (did on3).2 α x := stack_model (k := 10 ^ 9) (by decide +kernel) (by decide +kernel) (by decide +kernel)

/-- C81_pop_succeeds from the core with the contradiction. -/
example : ∃ (S S' : St) (rest : List St), (below on4).map Prod.fst = S :: rest ∧ Sat.popTop lib.ops (top on4 :: (below on4).map Prod.fst) = .ok (S' :: rest) ∧
    S' = { S with th := S'.th, notes := S'.notes } ∧ ∀ α x, fam.Net S'.th (did on4).2 α x ↔ fam.Net S.th (did on4).2 α x := by
  have h := top_session on4
  have hr : (top on4).root = true := by decide +kernel
  have hl : (below on4).length = 2 := by decide +kernel
  match e : below on4 with
  | [] => rw [e] at hl; cases hl
  | (S, d) :: rest =>
    rw [e] at h
    obtain ⟨S', a, b, c⟩ := Family.C81_pop_succeeds plain h hr
    exact ⟨S, S', rest.map Prod.fst, rfl, a, b, c⟩

theorem one_session (as : List Do) (h : (below as).isEmpty = true) : StackSession stdEnv lib [(top as, wait as)] (did as).2 := by
  have k := top_session as
  rw [List.isEmpty_iff.mp h] at k
  exact k

/-- C81_arith: `x0 < 7` asked to the first theory of arithmetic once both cores are dropped: the literal says what it should. -/
theorem rel81 {as : List Do} {R : LRA.Rel4} {l r : Lin} (ho : (below as).isEmpty = true) (hl : LRA.canonB l = true) (hr : LRA.canonB r = true) (hlv : LRA.varsB (wA.within.th (top as).th) l = true) (hrv : LRA.varsB (wA.within.th (top as).th) r = true)
    (h2 : (LRA.newRel R (wA.within.view (top as)) l r).toOption.isSome = true) : ∃ s p, LRA.newRel R (wA.within.view (top as)) l r = .ok (s, p) ∧
    ∀ α x, fam.Model (wA.within.put (top as) s) (did as).2 α x → α.all (top as).decisions → (α.sat p ↔ R.holds (l.eval 1 (wA.val x : Nat → ℚ)) (r.eval 1 (wA.val x : Nat → ℚ))) := by
  match e : LRA.newRel R (wA.within.view (top as)) l r with
  | .error e' => rw [e] at h2; cases h2
  | .ok (s, p) =>
    exact ⟨s, p, rfl, ((Family.C81_arith wA plain (one_session as ho) (s := s) (p := p) (LRA.canonB_canon hl) (LRA.canonB_canon hr) (LRA.varsB_vars hlv) (LRA.varsB_vars hrv)).1 R e).1⟩

example := rel81 (as := on5) (R := .lt) (l := ⟨[(0, 1)], 0⟩) (r := ⟨[], 7⟩) (by decide +kernel) (by decide +kernel) (by decide +kernel) (by decide +kernel) (by decide +kernel) (by decide +kernel)

/-- The values of the first object variable after the pops. -/
example : ∀ α x, fam.Model (top on5) (did on5).2 α x → α.all (top on5).decisions → ∀ a ∈ (wO.val x : Nat → List Nat) 0, a ∈ OV.value (top on5) (wO.within.th (top on5).th) 0 :=
  Family.C81_object_values wO plain (one_session on5 (by decide +kernel)) 0 (by decide +kernel)

/-- On the third core the first object variable has value 11 in every solution, and in the second theory of arithmetic `x0 ≤ 0`. -/
example : ∀ α x, fam.Model (top on3) (did on3).2 α x → (∀ a ∈ (wO.val x : Nat → List Nat) 0, a = 11) ∧ (wB.val x : Nat → ℚ) 0 ≤ 0 := fun α x hm => by
  have hd : α.all (top on3).decisions := by
    have e : (top on3).decisions = [] := by decide +kernel
    rw [e]; intro l hl; cases hl
  refine ⟨fun a ha => ?_, ?_⟩
  · have h := Family.C81_object_values wO plain (top_session on3) 0 (by decide +kernel) α x hm hd a ha
    have e : OV.value (top on3) (wO.within.th (top on3).th) 0 = [11] := by decide +kernel
    rw [e] at h
    exact List.mem_singleton.mp h
  · have h := (Family.C81_arith_bounds wB plain (top_session on3) 0 α x hm hd).2
    have e : (wB.within.th (top on3).th).hi 0 = ((toLex (0, 0) : IQ) : WithTop IQ) := by decide +kernel
    rw [e, WithTop.coe_le_coe] at h
    exact (IQ.ofQ_le _ 0).mp h

example : OV.value (top on5) (wO.within.th (top on5).th) 0 = [10, 11, 12] ∧ OV.value (top on3) (wO.within.th (top on3).th) 0 = [11] := by decide +kernel

end Lib2
end Semitone
