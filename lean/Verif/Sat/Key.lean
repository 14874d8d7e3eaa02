import Verif.Sat.Model
import Mathlib.Tactic.Common

/-!
# Textual keys of the expression cache are injective
-/
namespace Semitone
namespace Sat

/-- The kinds of cached expressions. -/
inductive Kind
  | conj | disj | eq | amo | exo
deriving DecidableEq

/-- Prefix of the key of each kind (`sat_core.cpp:126`, `173`, `218`, `268`, `344`). -/
def Kind.pre : Kind → String
  | .conj => "&"
  | .disj => "|"
  | .eq => "="
  | .amo => "amo"
  | .exo => "^"

/-- The key under which an expression is cached. -/
def key (k : Kind) (ls : List Lit) : String := k.pre ++ litsStr ls

theorem eqKey_eq (l r : Lit) : eqKey l r = key .eq (if litLt l r then [l, r] else [r, l]) := by
  unfold eqKey key litsStr
  split <;> simp [Kind.pre]

/-- A list that does not start with a digit. -/
def NoDig (l : List Char) : Prop := ∀ c r, l = c :: r → c.isDigit = false

theorem digits_split : ∀ (a b r q : List Char), (∀ c ∈ a, c.isDigit = true) → (∀ c ∈ b, c.isDigit = true) → NoDig r → NoDig q →
    a ++ r = b ++ q → a = b ∧ r = q := by
  intro a
  induction a with
  | nil =>
    intro b r q _ hb hr _ h
    cases b with
    | nil => exact ⟨rfl, h⟩
    | cons x b =>
      have := hr x (b ++ q) h
      rw [hb x (by simp)] at this; cases this
  | cons x a ih =>
    intro b r q ha hb hr hq h
    cases b with
    | nil =>
      have := hq x (a ++ r) h.symm
      rw [ha x (by simp)] at this; cases this
    | cons y b =>
      simp only [List.cons_append, List.cons.injEq] at h
      obtain ⟨rfl, h⟩ := h
      obtain ⟨h1, h2⟩ := ih b r q (fun c hc => ha c (by simp [hc])) (fun c hc => hb c (by simp [hc])) hr hq h
      exact ⟨by rw [h1], h2⟩

/-- Characters of a printed number. -/
def numC (n : Nat) : List Char := Nat.toDigits 10 n

theorem toString_toList (n : Nat) : (toString n).toList = numC n := by
  rw [Nat.toString_eq_repr, Nat.toList_repr]; rfl

theorem numC_inj {n m : Nat} (h : numC n = numC m) : n = m := by
  have := congrArg (fun l => Nat.ofDigitChars 10 l 0) h
  simpa [numC, Nat.ofDigitChars_ten_toDigits] using this

theorem numC_digit (n : Nat) : ∀ c ∈ numC n, c.isDigit = true := fun _ hc => Nat.isDigit_of_mem_toDigits (by decide) (by decide) hc

/-- Characters of a printed literal. -/
def litC (l : Lit) : List Char := (if l.sign then ['b'] else ['¬', 'b']) ++ numC l.var

theorem str_toList (l : Lit) : l.str.toList = litC l := by
  unfold Lit.str litC
  split
  · rw [String.toList_append, toString_toList]; rfl
  · rw [String.toList_append, toString_toList]; rfl

/-- Characters of a list of printed literals. -/
def litsC (ls : List Lit) : List Char := ls.flatMap litC

theorem litsStr_toList (ls : List Lit) : (litsStr ls).toList = litsC ls := by
  unfold litsStr
  induction ls with
  | nil => rfl
  | cons l ls ih =>
    rw [List.foldr_cons, String.toList_append, ih, str_toList]; rfl

theorem litsC_noDig (ls : List Lit) : NoDig (litsC ls) := by
  intro c r h
  cases ls with
  | nil => cases h
  | cons l ls =>
    simp only [litsC, List.flatMap_cons, litC] at h
    by_cases hs : l.sign = true
    · simp [hs] at h; rw [← h.1]; decide
    · simp [hs] at h; rw [← h.1]; decide

theorem litC_append_inj {l m : Lit} {r q : List Char} (hr : NoDig r) (hq : NoDig q) (h : litC l ++ r = litC m ++ q) : l = m ∧ r = q := by
  obtain ⟨v, a⟩ := l
  obtain ⟨w, b⟩ := m
  unfold litC at h
  cases a <;> cases b <;> simp at h
  · obtain ⟨h1, h2⟩ := digits_split _ _ _ _ (numC_digit v) (numC_digit w) hr hq h
    exact ⟨by rw [numC_inj h1], h2⟩
  · obtain ⟨h1, h2⟩ := digits_split _ _ _ _ (numC_digit v) (numC_digit w) hr hq h
    exact ⟨by rw [numC_inj h1], h2⟩

theorem litsC_inj : ∀ {ls ms : List Lit}, litsC ls = litsC ms → ls = ms := by
  intro ls
  induction ls with
  | nil =>
    intro ms h
    cases ms with
    | nil => rfl
    | cons m ms =>
      exfalso
      have := congrArg List.length h
      simp [litsC, litC] at this
      split at this <;> simp at this <;> omega
  | cons l ls ih =>
    intro ms h
    cases ms with
    | nil =>
      exfalso
      have := congrArg List.length h
      simp [litsC, litC] at this
      split at this <;> simp at this <;> omega
    | cons m ms =>
      simp only [litsC, List.flatMap_cons] at h
      obtain ⟨h1, h2⟩ := litC_append_inj (litsC_noDig ls) (litsC_noDig ms) h
      rw [h1, ih h2]

/-- Different expressions have different keys. -/
theorem key_inj {k k' : Kind} {ls ms : List Lit} (h : key k ls = key k' ms) : k = k' ∧ ls = ms := by
  have h1 := congrArg String.toList h
  unfold key at h1
  rw [String.toList_append, String.toList_append, litsStr_toList, litsStr_toList] at h1
  have e : ∀ k : Kind, k.pre.toList = match k with
    | .conj => ['&'] | .disj => ['|'] | .eq => ['='] | .amo => ['a', 'm', 'o'] | .exo => ['^'] := by
    intro k; cases k <;> rfl
  rw [e, e] at h1
  cases k <;> cases k' <;> simp at h1 <;> first | exact ⟨rfl, litsC_inj h1⟩

/-- The key of an expression is not the key of a variable (`sat_core.cpp:48`). -/
theorem key_ne_var (k : Kind) (ls : List Lit) (n : Nat) : key k ls ≠ "b" ++ toString n := by
  intro h
  have h1 := congrArg String.toList h
  unfold key at h1
  rw [String.toList_append, String.toList_append] at h1
  cases k <;> simp [Kind.pre] at h1

theorem var_key_inj {n m : Nat} (h : "b" ++ toString n = "b" ++ toString m) : n = m := by
  have h1 := congrArg String.toList h
  rw [String.toList_append, String.toList_append, toString_toList, toString_toList] at h1
  exact numC_inj (List.append_cancel_left h1)

end Sat
end Semitone
