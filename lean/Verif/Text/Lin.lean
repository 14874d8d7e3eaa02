import Verif.Lin.Model
import Verif.Sat.Key

/-!
# The text of a linear expression determines it

Model of `to_string(const lin &)` (`/repo/src/arith/lin.cpp:181-213`). The caches of `lra_theory` use this text as a key. How a rational is printed is
decided by the external library `utils`; `RatText` says what is needed of it, `RatText.std` is the usual way to print a rational.
-/
namespace Semitone
open Sat (numC numC_inj numC_digit toString_toList)

/-- What is assumed of `to_string(const utils::rational &)`: a non-negative rational is printed with digits and `/` only, and determines
the text and is determined by it; a negative one is printed as `-` followed by its opposite. -/
structure RatText where
  str : ℚ → String
  chars : ∀ q, 0 ≤ q → ∀ c ∈ (str q).toList, (c.isDigit || c == '/') = true
  ne : ∀ q, 0 ≤ q → (str q).toList ≠ []
  inj : ∀ q r, 0 ≤ q → 0 ≤ r → str q = str r → q = r
  neg : ∀ q, q < 0 → str q = "-" ++ str (-q)

/-- The usual way: the numerator, then `/` and the denominator unless it is 1. -/
def RatText.stdC (q : ℚ) : List Char := numC q.num.natAbs ++ if q.den = 1 then [] else '/' :: numC q.den

theorem RatText.stdC_inj {q r : ℚ} (hq : 0 ≤ q) (hr : 0 ≤ r) (h : stdC q = stdC r) : q = r := by
  have key : ∀ q : ℚ, Sat.NoDig (if q.den = 1 then [] else '/' :: numC q.den) := by
    intro q c l h
    split at h
    · cases h
    · injection h with h; rw [← h]; decide
  obtain ⟨h1, h2⟩ := Sat.digits_split _ _ _ _ (numC_digit _) (numC_digit _) (key q) (key r) h
  have h3 := numC_inj h1
  have hn : q.num = r.num := by
    have a := Rat.num_nonneg.2 hq
    have b := Rat.num_nonneg.2 hr
    omega
  have hd : q.den = r.den := by
    split at h2 <;> split at h2
    · omega
    · cases h2
    · cases h2
    · injection h2 with _ h2; exact numC_inj h2
  exact Rat.ext hn hd

/-- The usual way of printing rationals meets the assumptions. -/
def RatText.std : RatText where
  str q := if q < 0 then "-" ++ String.ofList (stdC (-q)) else String.ofList (stdC q)
  chars q hq c hc := by
    rw [if_neg (not_lt.2 hq), String.toList_ofList] at hc
    unfold stdC at hc
    rcases List.mem_append.1 hc with h | h
    · rw [numC_digit _ _ h]; rfl
    · split at h
      · cases h
      · rcases List.mem_cons.1 h with h | h
        · rw [h]; rfl
        · rw [numC_digit _ _ h]; rfl
  ne q hq h := by
    rw [if_neg (not_lt.2 hq), String.toList_ofList] at h
    have := (List.append_eq_nil_iff.1 h).1
    have h1 : 0 < (numC q.num.natAbs).length := Nat.length_toDigits_pos
    rw [this] at h1; cases h1
  inj q r hq hr h := by
    rw [if_neg (not_lt.2 hq), if_neg (not_lt.2 hr)] at h
    have := congrArg String.toList h
    rw [String.toList_ofList, String.toList_ofList] at this
    exact stdC_inj hq hr this
  neg q hq := by
    rw [if_pos hq, if_neg (by linarith)]

namespace Lin

/-- `to_string(const lin &)` (`lin.cpp:200-206`): a term that is not the first one. -/
def termStr (R : RatText) (t : Nat × ℚ) : String :=
  if t.2 = 1 then " + x" ++ toString t.1
  else if t.2 = -1 then " - x" ++ toString t.1
  else if 0 < t.2 then " + " ++ R.str t.2 ++ "*x" ++ toString t.1
  else " - " ++ R.str (-t.2) ++ "*x" ++ toString t.1

/-- `to_string(const lin &)` (`lin.cpp:190-195`): the first term. -/
def firstStr (R : RatText) (t : Nat × ℚ) : String :=
  if t.2 = 1 then "x" ++ toString t.1
  else if t.2 = -1 then "-x" ++ toString t.1
  else R.str t.2 ++ "*x" ++ toString t.1

/-- `to_string(const lin &)` (`lin.cpp:209-212`): the known term at the end. -/
def ktStr (R : RatText) (k : ℚ) : String :=
  if 0 < k then " + " ++ R.str k else if k < 0 then " - " ++ R.str (-k) else ""

/-- `to_string(const lin &)` (`lin.cpp:181-213`). -/
def str (R : RatText) (l : Lin) : String :=
  match l.vars with
  | [] => R.str l.kt
  | t :: ts => ts.foldl (fun s t => s ++ termStr R t) (firstStr R t) ++ ktStr R l.kt

/-! ## Characters -/

/-- Characters of the magnitude of a rational. -/
def ratc (c : Char) : Bool := c.isDigit || c == '/'

/-- What does not go on with a character of a rational. -/
def NoRat (l : List Char) : Prop := ∀ c r, l = c :: r → ratc c = false

theorem rat_split : ∀ (a b r q : List Char), (∀ c ∈ a, ratc c = true) → (∀ c ∈ b, ratc c = true) → NoRat r → NoRat q →
    a ++ r = b ++ q → a = b ∧ r = q := by
  intro a
  induction a with
  | nil =>
    intro b r q _ hb hr _ h
    cases b with
    | nil => exact ⟨rfl, h⟩
    | cons x b =>
      have := hr x (b ++ q) h
      rw [hb x (by simp)] at this; cases this
  | cons x a ih =>
    intro b r q ha hb hr hq h
    cases b with
    | nil =>
      have := hq x (a ++ r) h.symm
      rw [ha x (by simp)] at this; cases this
    | cons y b =>
      simp only [List.cons_append, List.cons.injEq] at h
      obtain ⟨rfl, h⟩ := h
      obtain ⟨h1, h2⟩ := ih b r q (fun c hc => ha c (by simp [hc])) (fun c hc => hb c (by simp [hc])) hr hq h
      exact ⟨by rw [h1], h2⟩

/-- Characters of a rational. -/
def rc (R : RatText) (q : ℚ) : List Char := (R.str q).toList

theorem rc_inj (R : RatText) {q r : ℚ} (hq : 0 ≤ q) (hr : 0 ≤ r) (h : rc R q = rc R r) : q = r :=
  R.inj q r hq hr (String.toList_inj.1 h)

/-- Characters after the sign: the magnitude, unless it is 1, and the variable. -/
def magC (R : RatText) (m : ℚ) (v : Nat) : List Char := (if m = 1 then [] else rc R m ++ ['*']) ++ 'x' :: numC v

theorem magC_split (R : RatText) {m m' : ℚ} {v v' : Nat} {r r' : List Char} (hm : 0 ≤ m) (hm' : 0 ≤ m') (hr : Sat.NoDig r) (hr' : Sat.NoDig r')
    (h : magC R m v ++ r = magC R m' v' ++ r') : m = m' ∧ v = v' ∧ r = r' := by
  have nx : ∀ (v : Nat) (r : List Char), NoRat ('x' :: numC v ++ r) := by
    intro v r c l h
    simp only [List.cons_append] at h
    injection h with h; rw [← h]; decide
  have ns : ∀ r : List Char, NoRat ('*' :: r) := by
    intro r c l h
    injection h with h; rw [← h]; decide
  unfold magC at h
  by_cases e : m = 1 <;> by_cases e' : m' = 1
  · rw [if_pos e, if_pos e'] at h
    simp only [List.nil_append, List.cons_append] at h
    injection h with _ h
    obtain ⟨h1, h2⟩ := Sat.digits_split _ _ _ _ (numC_digit v) (numC_digit v') hr hr' h
    exact ⟨by rw [e, e'], numC_inj h1, h2⟩
  · exfalso
    rw [if_pos e, if_neg e'] at h
    obtain ⟨h1, -⟩ := rat_split [] (rc R m') ('x' :: numC v ++ r) ('*' :: ('x' :: numC v' ++ r')) (by simp) (R.chars _ hm') (nx _ _) (ns _) (by simpa using h)
    exact R.ne _ hm' h1.symm
  · exfalso
    rw [if_neg e, if_pos e'] at h
    obtain ⟨h1, -⟩ := rat_split (rc R m) [] ('*' :: ('x' :: numC v ++ r)) ('x' :: numC v' ++ r') (R.chars _ hm) (by simp) (ns _) (nx _ _) (by simpa using h)
    exact R.ne _ hm h1
  · rw [if_neg e, if_neg e'] at h
    obtain ⟨h1, h2⟩ := rat_split (rc R m) (rc R m') ('*' :: ('x' :: numC v ++ r)) ('*' :: ('x' :: numC v' ++ r')) (R.chars _ hm) (R.chars _ hm') (ns _) (ns _) (by simpa using h)
    injection h2 with _ h2
    simp only [List.cons_append] at h2
    injection h2 with _ h2
    obtain ⟨h3, h4⟩ := Sat.digits_split _ _ _ _ (numC_digit v) (numC_digit v') hr hr' h2
    exact ⟨rc_inj R hm hm' h1, numC_inj h3, h4⟩

/-- Characters of a term that is not the first one. -/
def termC (R : RatText) (t : Nat × ℚ) : List Char := (if 0 < t.2 then [' ', '+', ' '] else [' ', '-', ' ']) ++ magC R |t.2| t.1

theorem termStr_toList (R : RatText) (t : Nat × ℚ) : (termStr R t).toList = termC R t := by
  obtain ⟨v, c⟩ := t
  unfold termStr termC magC
  by_cases h1 : c = 1
  · subst h1; simp [String.toList_append, toString_toList]; rfl
  · by_cases h2 : c = -1
    · subst h2; norm_num [String.toList_append, toString_toList]; rfl
    · by_cases h3 : 0 < c
      · have : |c| = c := abs_of_pos h3
        simp [h1, h2, h3, this, String.toList_append, toString_toList, rc]; rfl
      · have h4 : |c| = -c := abs_of_nonpos (not_lt.1 h3)
        have h5 : -c ≠ 1 := fun h => h2 (by linarith)
        simp [h1, h2, h3, h4, h5, String.toList_append, toString_toList, rc]; rfl

/-- Characters of the known term. -/
def ktC (R : RatText) (k : ℚ) : List Char := if k = 0 then [] else (if 0 < k then [' ', '+', ' '] else [' ', '-', ' ']) ++ rc R |k|

theorem ktStr_toList (R : RatText) (k : ℚ) : (ktStr R k).toList = ktC R k := by
  unfold ktStr ktC
  rcases lt_trichotomy k 0 with h | h | h
  · simp [h, h.ne, not_lt.2 h.le, abs_of_neg h, rc]
  · subst h; simp
  · simp [h, h.ne', abs_of_pos h, rc]

/-- Characters of the terms after the first one and of the known term. -/
def tailC (R : RatText) (ts : List (Nat × ℚ)) (k : ℚ) : List Char := ts.flatMap (termC R) ++ ktC R k

theorem tailC_noDig (R : RatText) (ts : List (Nat × ℚ)) (k : ℚ) : Sat.NoDig (tailC R ts k) := by
  intro c r h
  have sp : ∀ {c : Char}, ' ' = c → c.isDigit = false := by rintro _ rfl; rfl
  unfold tailC at h
  cases ts with
  | nil =>
    simp only [List.flatMap_nil, List.nil_append, ktC] at h
    split at h
    · cases h
    · split at h <;> exact sp (by injection h)
  | cons t ts =>
    simp only [List.flatMap_cons, termC] at h
    split at h <;> exact sp (by injection h)

/-- A known term is not the beginning of a term. -/
theorem kt_ne_term (R : RatText) {k : ℚ} {t : Nat × ℚ} {r : List Char} (h : ktC R k = termC R t ++ r) : False := by
  have key : ∀ {m : ℚ} {r : List Char}, rc R m = magC R |t.2| t.1 ++ r → 0 ≤ m → False := by
    intro m r h hm
    have h1 : 'x' ∈ rc R m := by rw [h]; unfold magC; simp
    exact absurd (R.chars _ hm _ h1) (by decide)
  unfold ktC termC at h
  split at h
  · split at h <;> cases h
  · split at h <;> split at h
    · simp only [List.cons_append, List.nil_append, List.cons.injEq, true_and] at h
      exact key h (abs_nonneg _)
    · simp at h
    · simp at h
    · simp only [List.cons_append, List.nil_append, List.cons.injEq, true_and] at h
      exact key h (abs_nonneg _)

theorem ktC_inj (R : RatText) {k k' : ℚ} (h : ktC R k = ktC R k') : k = k' := by
  unfold ktC at h
  by_cases e : k = 0 <;> by_cases e' : k' = 0
  · rw [e, e']
  · rw [if_pos e, if_neg e'] at h; split at h <;> cases h
  · rw [if_neg e, if_pos e'] at h; split at h <;> cases h
  · rw [if_neg e, if_neg e'] at h
    by_cases p : 0 < k <;> by_cases p' : 0 < k'
    · rw [if_pos p, if_pos p'] at h
      simp only [List.cons_append, List.nil_append, List.cons.injEq, true_and] at h
      have := rc_inj R (abs_nonneg _) (abs_nonneg _) h
      rwa [abs_of_pos p, abs_of_pos p'] at this
    · rw [if_pos p, if_neg p'] at h; simp at h
    · rw [if_neg p, if_pos p'] at h; simp at h
    · rw [if_neg p, if_neg p'] at h
      simp only [List.cons_append, List.nil_append, List.cons.injEq, true_and] at h
      have := rc_inj R (abs_nonneg _) (abs_nonneg _) h
      rw [abs_of_nonpos (not_lt.1 p), abs_of_nonpos (not_lt.1 p')] at this
      linarith

theorem tailC_inj (R : RatText) : ∀ {ts ts' : List (Nat × ℚ)} {k k' : ℚ}, tailC R ts k = tailC R ts' k' → ts = ts' ∧ k = k' := by
  intro ts
  induction ts with
  | nil =>
    intro ts' k k' h
    cases ts' with
    | nil =>
      simp only [tailC, List.flatMap_nil, List.nil_append] at h
      exact ⟨rfl, ktC_inj R h⟩
    | cons t' ts' =>
      simp only [tailC, List.flatMap_nil, List.nil_append, List.flatMap_cons, List.append_assoc] at h
      exact (kt_ne_term R h).elim
  | cons t ts ih =>
    intro ts' k k' h
    cases ts' with
    | nil =>
      simp only [tailC, List.flatMap_nil, List.nil_append, List.flatMap_cons, List.append_assoc] at h
      exact (kt_ne_term R h.symm).elim
    | cons t' ts' =>
      have h1 : termC R t ++ tailC R ts k = termC R t' ++ tailC R ts' k' := by
        simpa only [tailC, List.flatMap_cons, List.append_assoc] using h
      have fin : ∀ {r r' : List Char}, magC R |t.2| t.1 ++ tailC R ts k = magC R |t'.2| t'.1 ++ tailC R ts' k' →
          (|t.2| = |t'.2| → t.2 = t'.2) → t :: ts = t' :: ts' ∧ k = k' := by
        intro _ _ h hs
        obtain ⟨a, b, c⟩ := magC_split R (abs_nonneg _) (abs_nonneg _) (tailC_noDig R ts k) (tailC_noDig R ts' k') h
        obtain ⟨d, e⟩ := ih c
        exact ⟨by rw [d, Prod.ext b (hs a)], e⟩
      unfold termC at h1
      by_cases p : 0 < t.2 <;> by_cases p' : 0 < t'.2
      · rw [if_pos p, if_pos p'] at h1
        simp only [List.cons_append, List.nil_append, List.cons.injEq, true_and] at h1
        exact fin (r := []) (r' := []) h1 (fun e => by rwa [abs_of_pos p, abs_of_pos p'] at e)
      · rw [if_pos p, if_neg p'] at h1; simp at h1
      · rw [if_neg p, if_pos p'] at h1; simp at h1
      · rw [if_neg p, if_neg p'] at h1
        simp only [List.cons_append, List.nil_append, List.cons.injEq, true_and] at h1
        exact fin (r := []) (r' := []) h1 (fun e => by rw [abs_of_nonpos (not_lt.1 p), abs_of_nonpos (not_lt.1 p')] at e; linarith)

/-- Characters of the first term. -/
def firstC (R : RatText) (t : Nat × ℚ) : List Char := (if t.2 < 0 then ['-'] else []) ++ magC R |t.2| t.1

theorem firstStr_toList (R : RatText) (t : Nat × ℚ) : (firstStr R t).toList = firstC R t := by
  obtain ⟨v, c⟩ := t
  unfold firstStr firstC magC
  by_cases h1 : c = 1
  · subst h1; norm_num [String.toList_append, toString_toList]; rfl
  · by_cases h2 : c = -1
    · subst h2; norm_num [String.toList_append, toString_toList]; rfl
    · by_cases h3 : c < 0
      · have h4 : |c| = -c := abs_of_neg h3
        have h5 : -c ≠ 1 := fun h => h2 (by linarith)
        simp [h1, h2, h3, h4, h5, R.neg c h3, String.toList_append, toString_toList, rc]; rfl
      · have : |c| = c := abs_of_nonneg (not_lt.1 h3)
        simp [h1, h2, h3, this, String.toList_append, toString_toList, rc]; rfl

theorem str_toList (R : RatText) (t : Nat × ℚ) (ts : List (Nat × ℚ)) (k : ℚ) : (str R ⟨t :: ts, k⟩).toList = firstC R t ++ tailC R ts k := by
  unfold str
  simp only
  have : ∀ (ts : List (Nat × ℚ)) (s : String), (ts.foldl (fun s t => s ++ termStr R t) s).toList = s.toList ++ ts.flatMap (termC R) := by
    intro ts
    induction ts with
    | nil => intro s; simp
    | cons t ts ih => intro s; rw [List.foldl_cons, ih, String.toList_append, termStr_toList]; simp
  rw [String.toList_append, this, firstStr_toList, ktStr_toList, tailC, List.append_assoc]

theorem firstC_head (R : RatText) (t : Nat × ℚ) (r : List Char) : 'x' ∈ firstC R t ++ r := by
  unfold firstC magC; simp

theorem rc_no_x (R : RatText) (k : ℚ) : 'x' ∉ rc R k := by
  intro h
  unfold rc at h
  by_cases hk : k < 0
  · rw [R.neg k hk, String.toList_append] at h
    rcases List.mem_append.1 h with h | h
    · simp at h
    · exact absurd (R.chars _ (by linarith) _ h) (by decide)
  · exact absurd (R.chars _ (not_lt.1 hk) _ h) (by decide)

theorem ratStr_inj (R : RatText) {k k' : ℚ} (h : R.str k = R.str k') : k = k' := by
  have key : ∀ {k k' : ℚ}, k < 0 → ¬ k' < 0 → R.str k = R.str k' → False := by
    intro k k' hk hk' h
    have h1 : '-' ∈ (R.str k').toList := by rw [← h, R.neg k hk, String.toList_append]; simp
    exact absurd (R.chars _ (not_lt.1 hk') _ h1) (by decide)
  by_cases hk : k < 0 <;> by_cases hk' : k' < 0
  · rw [R.neg k hk, R.neg k' hk'] at h
    have h1 := congrArg String.toList h
    rw [String.toList_append, String.toList_append] at h1
    have h2 := String.toList_inj.1 (List.append_cancel_left h1)
    have := R.inj _ _ (by linarith) (by linarith) h2
    linarith
  · exact (key hk hk' h).elim
  · exact (key hk' hk h.symm).elim
  · exact R.inj _ _ (not_lt.1 hk) (not_lt.1 hk') h

/-- **C64.** Two linear expressions with the same text are the same expression, whatever their terms and in whatever order. -/
theorem C64_lin_text (R : RatText) (l l' : Lin) (h : str R l = str R l') : l = l' := by
  obtain ⟨vs, k⟩ := l
  obtain ⟨vs', k'⟩ := l'
  cases vs with
  | nil =>
    cases vs' with
    | nil => rw [ratStr_inj R (show R.str k = R.str k' from h)]
    | cons t ts =>
      exfalso
      have h1 := congrArg String.toList h
      rw [str_toList] at h1
      exact rc_no_x R k (by show 'x' ∈ (R.str k).toList; rw [show (R.str k).toList = _ from h1]; exact firstC_head R t _)
  | cons t ts =>
    cases vs' with
    | nil =>
      exfalso
      have h1 := congrArg String.toList h
      rw [str_toList] at h1
      exact rc_no_x R k' (by show 'x' ∈ (R.str k').toList; rw [show (R.str k').toList = _ from h1.symm]; exact firstC_head R t _)
    | cons t' ts' =>
      have h1 := congrArg String.toList h
      rw [str_toList, str_toList] at h1
      have nodash : ∀ {t' : Nat × ℚ} {r r' : List Char}, '-' :: r = magC R |t'.2| t'.1 ++ r' → False := by
        intro t' r r' h
        unfold magC at h
        split at h
        · simp at h
        · have hne := R.ne |t'.2| (abs_nonneg _)
          have hch := R.chars |t'.2| (abs_nonneg _)
          unfold rc at h
          cases hs : (R.str |t'.2|).toList with
          | nil => exact hne hs
          | cons c cs =>
            rw [hs] at h hch
            simp only [List.cons_append, List.append_assoc] at h
            injection h with h
            have := hch c (by simp)
            rw [← h] at this; exact absurd this (by decide)
      have fin : magC R |t.2| t.1 ++ tailC R ts k = magC R |t'.2| t'.1 ++ tailC R ts' k' →
          (|t.2| = |t'.2| → t.2 = t'.2) → (⟨t :: ts, k⟩ : Lin) = ⟨t' :: ts', k'⟩ := by
        intro h hs
        obtain ⟨a, b, c⟩ := magC_split R (abs_nonneg _) (abs_nonneg _) (tailC_noDig R ts k) (tailC_noDig R ts' k') h
        obtain ⟨d, e⟩ := tailC_inj R c
        rw [d, e, Prod.ext b (hs a)]
      unfold firstC at h1
      by_cases p : t.2 < 0 <;> by_cases p' : t'.2 < 0
      · rw [if_pos p, if_pos p'] at h1
        simp only [List.cons_append, List.nil_append, List.cons.injEq, true_and] at h1
        exact fin h1 (fun e => by rw [abs_of_neg p, abs_of_neg p'] at e; linarith)
      · rw [if_pos p, if_neg p'] at h1
        exact (nodash h1).elim
      · rw [if_neg p, if_pos p'] at h1
        exact (nodash h1.symm).elim
      · rw [if_neg p, if_neg p'] at h1
        simp only [List.nil_append] at h1
        exact fin h1 (fun e => by rwa [abs_of_nonneg (not_lt.1 p), abs_of_nonneg (not_lt.1 p')] at e)

end Lin
end Semitone
