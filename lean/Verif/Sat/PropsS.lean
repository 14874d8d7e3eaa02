import Verif.Sat.Share
import Verif.Sat.PropsB

/-!
# C70: asking again for the same expression gives the same literal

`Reach` (`Sat/Hist.lean`): the states any calls can lead to; `Later` (`Sat/Later.lean`): any continuation. The theories are arbitrary.
-/
namespace Semitone
open Sat
variable {T : Type} {E : Env} {O : TheoryOps T} {C : Contract O} {s s1 s2 : Sat T} {r : Lit}

theorem value_coh (s : Sat T) : Coh s.value := fun q => value_neg s q

/-- C70: `new_conj` asked later, after any other calls, for the same literals (in any order, with any repetitions), their values being the same, returns the same literal and changes nothing. -/
theorem C70_conj {ls ls' : List Lit} (h : Reach E C s) (h1 : s.newConj E ls = .ok (s1, r)) (hd : s1.dead = false) (hl : Later E C s1 s2) (hr : s2.root = true)
    (hs : ∀ l, l ∈ ls' ↔ l ∈ ls) (hv : ∀ l ∈ ls, s2.value l = s.value l) : s2.newConj E ls' = .ok (s2, r) := by
  have h2 : Reach E C s1 := .step (op := .newConj ls) h (fun e => by cases e) (out := .lit r) (by simp only [Sat.step, h1]; rfl)
  obtain ⟨hi, -, -, hc⟩ := newConj_cached h1 hd
  have hg := hl.grows h2
  have hg1 := step_grows (op := .newConj ls) (out := .lit r) h.rinv (fun e => by cases e) (by simp only [Sat.step, h1]; rfl : s.step E O (.newConj ls) = .ok (s1, .lit r))
  have hi2 : ¬ s2.inRange ls' = false := by
    have : s2.inRange ls' = true := by
      simp only [inRange, List.all_eq_true, decide_eq_true_eq] at hi ⊢
      exact fun l hl' => (hi l ((hs l).1 hl')).trans_le (hg1.nv.trans hg.nv)
    rw [this]; simp
  have hf := filt_same E false (value_coh s) hs hv
  unfold newConj
  rw [if_neg (by rw [hr]; simp), if_neg hi2, hf]
  rcases hc with hc | ⟨x, y, zs, hc, hk⟩
  · revert hc
    match filt false s.value none (E.sortVar ls) with
    | none => intro hc; injection hc with hc; rw [hc]
    | some [] => intro hc; injection hc with hc; rw [hc]
    | some [l] => intro hc; injection hc with hc; rw [hc]
    | some (x :: y :: zs) => intro hc; cases hc
  · rw [hc]
    have := hl.keeps h2 _ r (named_key .conj _) hk
    simp only [show s2.findExpr ("&" ++ litsStr (x :: y :: zs)) = some r from this]

/-- C70: the same for `new_disj`. -/
theorem C70_disj {ls ls' : List Lit} (h : Reach E C s) (h1 : s.newDisj E ls = .ok (s1, r)) (hd : s1.dead = false) (hl : Later E C s1 s2) (hr : s2.root = true)
    (hs : ∀ l, l ∈ ls' ↔ l ∈ ls) (hv : ∀ l ∈ ls, s2.value l = s.value l) : s2.newDisj E ls' = .ok (s2, r) := by
  have h0 : s.step E O (.newDisj ls) = .ok (s1, .lit r) := by simp only [Sat.step, h1]; rfl
  have h2 : Reach E C s1 := .step h (fun e => by cases e) h0
  obtain ⟨hi, -, -, hc⟩ := newDisj_cached h1 hd
  have hg := hl.grows h2
  have hg1 := step_grows h.rinv (fun e => by cases e) h0
  have hi2 : ¬ s2.inRange ls' = false := by
    have : s2.inRange ls' = true := by
      simp only [inRange, List.all_eq_true, decide_eq_true_eq] at hi ⊢
      exact fun l hl' => (hi l ((hs l).1 hl')).trans_le (hg1.nv.trans hg.nv)
    rw [this]; simp
  have hf := filt_same E true (value_coh s) hs hv
  unfold newDisj
  rw [if_neg (by rw [hr]; simp), if_neg hi2, hf]
  rcases hc with hc | ⟨x, y, zs, hc, hk⟩
  · revert hc
    match filt true s.value none (E.sortVar ls) with
    | none => intro hc; injection hc with hc; rw [hc]
    | some [] => intro hc; injection hc with hc; rw [hc]
    | some [l] => intro hc; injection hc with hc; rw [hc]
    | some (x :: y :: zs) => intro hc; cases hc
  · rw [hc]
    have := hl.keeps h2 _ r (named_key .disj _) hk
    simp only [show s2.findExpr ("|" ++ litsStr (x :: y :: zs)) = some r from this]

/-- C70: `new_at_most_one` asked later for the same vector of literals, their values being the same. -/
theorem C70_amo {ls : List Lit} (h : Reach E C s) (h1 : s.newAMO E ls = .ok (s1, r)) (hd : s1.dead = false) (hl : Later E C s1 s2) (hr : s2.root = true)
    (hv : ∀ l ∈ ls, s2.value l = s.value l) : s2.newAMO E ls = .ok (s2, r) := by
  have h0 : s.step E O (.newAMO ls) = .ok (s1, .lit r) := by simp only [Sat.step, h1]; rfl
  have h2 : Reach E C s1 := .step h (fun e => by cases e) h0
  obtain ⟨hi, -, -, hc⟩ := newAMOGo_cached _ h1
  have hg := hl.grows h2
  have hg1 := step_grows h.rinv (fun e => by cases e) h0
  have hi2 : ¬ s2.inRange ls = false := by
    have : s2.inRange ls = true := by
      simp only [inRange, List.all_eq_true, decide_eq_true_eq] at hi ⊢
      exact fun l hl' => (hi l hl').trans_le (hg1.nv.trans hg.nv)
    rw [this]; simp
  unfold newAMO newAMOGo
  rw [if_neg (by rw [hr]; simp), if_neg hi2, amoFilt_same E hv]
  replace hc := hc hd
  rcases hc with ⟨hc, rfl⟩ | ⟨hc, rfl⟩ | ⟨x, hc, rfl⟩ | ⟨x, y, zs, hc, hk⟩
  · rw [hc]
  · rw [hc]
  · rw [hc]
  · rw [hc]
    have := hl.keeps h2 _ r (named_key .amo _) hk
    simp only [show s2.findExpr ("amo" ++ litsStr (x :: y :: zs)) = some r from this]

/-- C70: `new_exct_one` asked later for the same vector of literals, their values being the same. -/
theorem C70_exo {ls : List Lit} (h : Reach E C s) (h1 : s.newEXO E ls = .ok (s1, r)) (hd : s1.dead = false) (hl : Later E C s1 s2) (hr : s2.root = true)
    (hv : ∀ l ∈ ls, s2.value l = s.value l) : s2.newEXO E ls = .ok (s2, r) := by
  have h0 : s.step E O (.newEXO ls) = .ok (s1, .lit r) := by simp only [Sat.step, h1]; rfl
  have h2 : Reach E C s1 := .step h (fun e => by cases e) h0
  obtain ⟨hi, -, -, hc⟩ := newEXO_cached h1
  have hg := hl.grows h2
  have hg1 := step_grows h.rinv (fun e => by cases e) h0
  have hi2 : ¬ s2.inRange ls = false := by
    have : s2.inRange ls = true := by
      simp only [inRange, List.all_eq_true, decide_eq_true_eq] at hi ⊢
      exact fun l hl' => (hi l hl').trans_le (hg1.nv.trans hg.nv)
    rw [this]; simp
  unfold newEXO
  rw [if_neg (by rw [hr]; simp), if_neg hi2, amoFilt_same E hv]
  replace hc := hc hd
  rcases hc with ⟨hc, rfl⟩ | ⟨hc, rfl⟩ | ⟨x, zs, hc, ho⟩ | ⟨x, zs, hc, ho, hk⟩
  · rw [hc]
  · rw [hc]
  · rw [hc]; simp only [ho]
  · rw [hc]
    have := hl.keeps h2 _ r (named_key .exo _) hk
    simp only [ho, show s2.findExpr ("^" ++ litsStr (x :: zs)) = some r from this]

/-- C70: `new_eq` asked later for the same two literals in either order, their values being the same. -/
theorem C70_eq {a b a' b' : Lit} (h : Reach E C s) (h1 : s.newEq E a b = .ok (s1, r)) (hd : s1.dead = false) (hl : Later E C s1 s2) (hr : s2.root = true)
    (hs : (a' = a ∧ b' = b) ∨ (a' = b ∧ b' = a)) (ha : s2.value a = s.value a) (hb : s2.value b = s.value b) : s2.newEq E a' b' = .ok (s2, r) := by
  have h0 : s.step E O (.newEq a b) = .ok (s1, .lit r) := by simp only [Sat.step, h1]; rfl
  have h2 : Reach E C s1 := .step h (fun e => by cases e) h0
  have hg := hl.grows h2
  have hg1 := step_grows h.rinv (fun e => by cases e) h0
  have hroot : s.root = true := by
    by_cases hx : s.root = false
    · unfold newEq at h1; rw [if_pos hx] at h1; cases h1
    · simpa using hx
  have hi : s.inRange [a, b] = true := by
    by_cases hx : s.inRange [a, b] = false
    · unfold newEq at h1; rw [if_neg (by rw [hroot]; simp), if_pos hx] at h1; cases h1
    · simpa using hx
  have hi2 : s2.inRange [a', b'] = true := by
    simp only [inRange, List.all_eq_true, decide_eq_true_eq] at hi ⊢
    intro l hl'
    refine (hi l ?_).trans_le (hg1.nv.trans hg.nv)
    rcases hs with ⟨rfl, rfl⟩ | ⟨rfl, rfl⟩ <;> simp at hl' ⊢ <;> tauto
  by_cases hab : a = b
  · have hab' : a' = b' := by rcases hs with ⟨rfl, rfl⟩ | ⟨rfl, rfl⟩ <;> simp [hab]
    unfold newEq at h1 ⊢
    rw [if_neg (by rw [hroot]; simp), if_neg (by rw [hi]; simp), if_pos hab] at h1
    rw [if_neg (by rw [hr]; simp), if_neg (by rw [hi2]; simp), if_pos hab']
    injection h1 with h1; injection h1 with e1 e2; rw [e2]
  · have hab' : a' ≠ b' := by rcases hs with ⟨rfl, rfl⟩ | ⟨rfl, rfl⟩ <;> [exact hab; exact fun e => hab e.symm]
    have hp : eqPlain a' b' (s2.value a') (s2.value b') = eqPlain a b (s.value a) (s.value b) := by
      rcases hs with ⟨rfl, rfl⟩ | ⟨rfl, rfl⟩
      · rw [ha, hb]
      · rw [ha, hb, eqPlain_comm]
    have hk : eqKey a' b' = eqKey a b := (C18_eq_key a' b' a b).2 hs
    rw [newEq_eq E s a b hroot hi hab] at h1
    rw [newEq_eq E s2 a' b' hr hi2 hab', hp, hk]
    revert h1
    cases eqPlain a b (s.value a) (s.value b) with
    | some l => intro h1; injection h1 with h1; injection h1 with e1 e2; rw [← e2]
    | none =>
      dsimp only
      intro h1
      have key : s1.findExpr (eqKey a b) = some r := by
        split at h1
        · next l hl => injection h1 with h1; injection h1 with e1 e2; rw [← e1, ← e2]; exact hl
        · exact (define_cached h1 hd).2.1
      rw [hl.keeps h2 _ r (by rw [eqKey_eq]; exact named_key .eq _) key]

/-- Non-vacuity: the same requests after other constructors, decisions, propagations and a `pop`; the operands are given in another order and with repetitions. -/
example : ((run stdEnv [.newVar, .newVar, .newVar, .newClause [pl 1, pl 2, pl 3], .newConj [pl 2, nl 1, pl 3], .newDisj [pl 2, nl 1], .newEq (pl 1) (nl 3), .newAMO [pl 1, pl 2, pl 3], .newEXO [pl 1, pl 3],
      .assume (pl 1), .assume (nl 2), .pop, .pop, .newConj [pl 3, pl 2, nl 1, pl 3], .newDisj [nl 1, pl 2], .newEq (nl 3) (pl 1), .newAMO [pl 1, pl 2, pl 3], .newEXO [pl 1, pl 3]] (init ())).map (fun r => (r.2.drop 4, r.1.nvars, r.1.dead))) =
    some ([.lit (pl 4), .lit (pl 5), .lit (pl 6), .lit (pl 7), .lit (pl 8), .bool true, .bool true, .unit, .unit, .lit (pl 4), .lit (pl 5), .lit (pl 6), .lit (pl 7), .lit (pl 8)], 9, false) := by decide

end Semitone
