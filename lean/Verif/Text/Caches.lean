import Verif.Text.Lin
import Verif.LRA.Model
import Verif.OV.Model

/-!
# The caches keyed by texts are caches keyed by expressions

`lra_theory::exprs`, `lra_theory::s_asrts` and `ov_theory::exprs` are maps whose keys are texts (`lra_theory.h:221-222`, `ov_theory.h:41`). In the model the keys are
the expressions themselves. Here the texts are modelled, and looking up a text is proved to be the same as looking up the expression.
-/
namespace Semitone
open Sat (numC numC_inj numC_digit toString_toList)

/-- What is assumed of `to_string(const utils::inf_rational &)`: the text determines the number. -/
structure InfText where
  str : IQ → String
  inj : ∀ a b, str a = str b → a = b

theorem sep_split {z : Char} : ∀ {a b r q : List Char}, z ∉ a → z ∉ b → a ++ z :: r = b ++ z :: q → a = b ∧ r = q := by
  intro a
  induction a with
  | nil =>
    intro b r q _ hb h
    cases b with
    | nil => simp at h; exact ⟨rfl, h⟩
    | cons x b => simp at h; rw [h.1] at hb; simp at hb
  | cons x a ih =>
    intro b r q ha hb h
    cases b with
    | nil => simp at h; rw [h.1] at ha; simp at ha
    | cons y b =>
      simp only [List.cons_append, List.cons.injEq] at h
      obtain ⟨rfl, h⟩ := h
      obtain ⟨h1, h2⟩ := ih (fun h => ha (by simp [h])) (fun h => hb (by simp [h])) h
      exact ⟨by rw [h1], h2⟩

/-- There is such a way of printing. -/
def InfText.std : InfText where
  str a := RatText.std.str (ofLex a).1 ++ "x" ++ RatText.std.str (ofLex a).2
  inj a b h := by
    have h1 := congrArg String.toList h
    simp only [String.toList_append, List.append_assoc] at h1
    obtain ⟨h2, h3⟩ := sep_split (z := 'x') (Lin.rc_no_x RatText.std _) (Lin.rc_no_x RatText.std _) h1
    exact ofLex.injective (Prod.ext (Lin.ratStr_inj _ (String.toList_inj.1 h2)) (Lin.ratStr_inj _ (String.toList_inj.1 h3)))

/-- The key of an assertion in `s_asrts` (`lra_theory.cpp:89`, `132`, `175`, `218`): `x<slack> <= <bound>` or `x<slack> >= <bound>`. -/
def asrtStr (I : InfText) (k : Bool × Nat × IQ) : String :=
  "x" ++ toString k.2.1 ++ (if k.1 then " <= " else " >= ") ++ I.str k.2.2

/-- The key of an equality in `ov_theory::exprs` (`ov_theory.cpp:71`). -/
def ovStr (k : Nat × Nat) : String := "=e" ++ toString k.1 ++ "e" ++ toString k.2

/-- **C64.** Two assertions with the same text have the same direction, variable and bound. -/
theorem C64_assertion_text (I : InfText) (k k' : Bool × Nat × IQ) (h : asrtStr I k = asrtStr I k') : k = k' := by
  obtain ⟨b, x, v⟩ := k
  obtain ⟨b', x', v'⟩ := k'
  have h1 := congrArg String.toList h
  have sp : ∀ (b : Bool) (r : List Char), Sat.NoDig ((if b then " <= " else " >= " : String).toList ++ r) := by
    intro b r c l h
    cases b <;> simp at h <;> (rw [← h.1]; rfl)
  simp only [asrtStr, String.toList_append, List.append_assoc, toString_toList] at h1
  have h2 := List.append_cancel_left h1
  obtain ⟨h3, h4⟩ := Sat.digits_split _ _ _ _ (numC_digit x) (numC_digit x') (sp b _) (sp b' _) h2
  have h5 := numC_inj h3
  subst h5
  cases b <;> cases b' <;> simp at h4
  · rw [I.inj _ _ (String.toList_inj.1 h4)]
  · rw [I.inj _ _ (String.toList_inj.1 h4)]

/-- **C64.** Two equalities between object variables with the same text compare the same variables. -/
theorem C64_object_text (k k' : Nat × Nat) (h : ovStr k = ovStr k') : k = k' := by
  obtain ⟨l, r⟩ := k
  obtain ⟨l', r'⟩ := k'
  have h1 := congrArg String.toList h
  have sp : ∀ r : List Char, Sat.NoDig ("e".toList ++ r) := by
    intro r c l h
    simp at h; rw [← h.1]; rfl
  simp only [ovStr, String.toList_append, List.append_assoc, toString_toList] at h1
  have h2 := List.append_cancel_left h1
  obtain ⟨h3, h4⟩ := Sat.digits_split _ _ _ _ (numC_digit l) (numC_digit l') (sp _) (sp _) h2
  rw [numC_inj h3, numC_inj (List.append_cancel_left h4)]

/-- The map from texts that corresponds to a map from expressions. -/
def textMap {K V : Type} (f : K → String) (m : List (K × V)) : List (String × V) := m.map (fun e => (f e.1, e.2))

theorem textMap_lookup {K V : Type} [BEq K] [LawfulBEq K] {f : K → String} (hf : ∀ a b, f a = f b → a = b) (m : List (K × V)) (k : K) :
    (textMap f m).lookup (f k) = m.lookup k := by
  induction m with
  | nil => rfl
  | cons e m ih =>
    obtain ⟨a, v⟩ := e
    simp only [textMap, List.map_cons, List.lookup_cons]
    by_cases h : k = a
    · subst h; simp
    · have h1 : f k ≠ f a := fun e => h (hf _ _ e)
      have e1 : (f k == f a) = false := by simpa using h1
      have e2 : (k == a) = false := by simpa using h
      rw [e1, e2]; exact ih

/-- **C64.** In any state of the linear arithmetic, looking for the text of an expression finds what looking for the expression finds. -/
theorem C64_expression_cache (R : RatText) (t : LRA) (l : Lin) : (textMap (Lin.str R) t.exprs).lookup (Lin.str R l) = t.exprs.lookup l :=
  textMap_lookup (Lin.C64_lin_text R) _ _

/-- **C64.** The same for the assertions. -/
theorem C64_assertion_cache (I : InfText) (t : LRA) (k : Bool × Nat × IQ) : (textMap (asrtStr I) t.sas).lookup (asrtStr I k) = t.sas.lookup k :=
  textMap_lookup (C64_assertion_text I) _ _

/-- **C64.** The same for the equalities between object variables. -/
theorem C64_object_cache {V : Type} (o : OV V) (k : Nat × Nat) : (textMap ovStr o.exprs).lookup (ovStr k) = o.exprs.lookup k :=
  textMap_lookup C64_object_text _ _

/-- The key under which a new variable is cached (`lra_theory.cpp:35`) is the text of the expression made of that variable. -/
theorem C64_variable_text (R : RatText) (n : Nat) : Lin.str R (Lin.ofVar n 1) = "x" ++ toString n := by
  simp [Lin.str, Lin.ofVar, Lin.firstStr, Lin.ktStr]

/-- A text, spelt out. -/
example : Lin.str RatText.std ⟨[(0, -3 / 2), (2, 1), (3, -1), (10, 5)], -7⟩ = "-3/2*x0 + x2 - x3 + 5*x10 - 7" := by decide +kernel
/-- Expressions that a sloppier printer would confuse. -/
example : Lin.str RatText.std ⟨[(1, 1), (0, 1)], 0⟩ = "x1 + x0" ∧ Lin.str RatText.std ⟨[(1, 1)], 0⟩ = "x1" ∧ Lin.str RatText.std ⟨[(1, 2)], 3⟩ = "2*x1 + 3" ∧
    Lin.str RatText.std ⟨[(1, 2), (3, 1)], 0⟩ = "2*x1 + x3" := by decide +kernel
example : asrtStr InfText.std (true, 3, IQ.mk (5 / 2) (-1)) = "x3 <= 5/2x-1" := by decide +kernel

end Semitone
