import Verif.LRA.PropsB
import Verif.LRA.PropsC
import Verif.Sat.Demo

/-!
# Linear arithmetic: where the code is wrong, and examples

Every witness is a history that the code accepts; evaluated by the kernel.
-/
namespace Semitone

/-- The state in which the theory ends when nothing is recorded. -/
def TAct.state? {T : Type} : TAct T → Option T
  | .ok t => some t
  | .confl t _ => some t
  | _ => none

/-- The first clause recorded. -/
def TAct.first? {T : Type} : TAct T → Option (List Lit)
  | .record cl _ => some cl
  | _ => none

namespace LRA
open Lin

/-- The traversal order of insertion. -/
def stdL : LEnv := ⟨fun l => l, fun _ => .refl _⟩

/-- `TRUE_lit` is true, nothing else is assigned. -/
def val0 : Lit → Option Bool := fun p => if p.var = 0 then some (p.sign == false) else none

theorem val0_coh : Coh val0 := by
  intro q
  unfold val0
  simp only [Lit.neg_var, Lit.neg_sign]
  by_cases h : q.var = 0
  · simp only [h, if_true, Option.map_some, Option.some.injEq]
    cases q.sign <;> rfl
  · simp only [h, if_false, Option.map_none]

/-- Three variables `x0`, `x1`, `x2`. -/
def three : LRA := init.newVar.1.newVar.1.newVar.1

/-- The state of a successful `new_var(l)` at root level. -/
def defd (t : LRA) (l : Lin) : LRA :=
  match t.newVarL true l with
  | .ok r => r.1
  | .error _ => t

/-- `x0 + x1` -/
def l01 : Lin := ⟨[(0, 1), (1, 1)], 0⟩
/-- `x2 + x3`, where `x3 = x0 + x1` is basic. -/
def l23 : Lin := ⟨[(2, 1), (3, 1)], 0⟩

/-- C38 is false of the code when `new_var(l)` is called on an expression with a basic variable: `x3 = new_var(x0 + x1)`, `x4 = new_var(x2 + x3)`, then
`set_lb(x0, 1)`: `value(x3) = 1`, `value(x2) = 0`, but `value(x4) = 0` (only the rows in which `x0` occurs are updated). -/
theorem C38_witness : (three.newVarL true l01).map (·.2) = .ok 3 ∧ ((defd three l01).newVarL true l23).map (·.2) = .ok 4 ∧
    ((defd (defd three l01) l23).setLb stdL val0 0 (IQ.ofQ 1) TRUE_lit).state?.map (fun t => (t.vals 4, t.valL l23)) = some (IQ.ofQ 0, IQ.ofQ 1) := by
  decide +kernel

/-- `x0 + 10`, a definition with a known term. -/
def l0k : Lin := ⟨[(0, 1)], 10⟩
/-- `x3 = x0 + 10`, with the literal of variable 1 controlling `x3 <= 5`. -/
def tk : LRA := (defd three l0k).addAsrt ⟨true, 1, 3, IQ.ofQ 5⟩

/-- C42 is false of the code when a definition has a known term: with `x3 = new_var(x0 + 10)` and a literal `b` controlling `x3 <= 5`, `set_ub(x0, 0)` records the clause
that says that `b` is true (the row is bounded by `0`, without the known term), although `x0 = -1`, `x3 = 9` satisfies everything with `b` false. -/
theorem C42_witness : (tk.setUb stdL val0 0 (IQ.ofQ 0) TRUE_lit).first? = some [⟨1, true⟩, TRUE_lit.neg] ∧
    ¬ Lemma { tk with facts := .hi TRUE_lit 0 ((IQ.ofQ 0 : IQ) : WithTop IQ) :: tk.facts } [⟨1, true⟩, TRUE_lit.neg] := by
  refine ⟨by decide +kernel, fun h => ?_⟩
  have := h (fun _ => false) (fun v => if v = 3 then IQ.ofQ 9 else IQ.ofQ (-1)) ⟨rfl, fun b a hb => ?_, fun d hd => ?_, fun f hf => ?_⟩
  · obtain ⟨q, hq, hs⟩ := this
    simp only [List.mem_cons, List.not_mem_nil, or_false] at hq
    rcases hq with rfl | rfl
    · cases hs
    · cases hs
  · have hb : upd (fun _ => none) 1 (some ⟨true, 1, 3, IQ.ofQ 5⟩) b = some a := hb
    by_cases e : b = 1
    · subst e; rw [upd_self] at hb; cases hb
      show IQ.ofQ 5 + IQ.eps ≤ IQ.ofQ 9
      decide +kernel
    · rw [upd_ne _ _ e] at hb; cases hb
  · have hd : d ∈ [(3, l0k)] := hd
    rw [List.mem_singleton] at hd
    subst hd
    decide +kernel
  · have hf : f ∈ [Fact.hi TRUE_lit 0 ((IQ.ofQ 0 : IQ) : WithTop IQ), .lo TRUE_lit 3 (three.lbL l0k), .hi TRUE_lit 3 (three.ubL l0k)] := hf
    simp only [List.mem_cons, List.not_mem_nil, or_false] at hf
    rcases hf with rfl | rfl | rfl
    · intro _
      show ((IQ.ofQ (-1) : IQ) : WithTop IQ) ≤ ((IQ.ofQ 0 : IQ) : WithTop IQ)
      exact WithTop.coe_le_coe.mpr (by decide +kernel)
    · intro _
      have : three.lbL l0k = ⊥ := by decide +kernel
      rw [this]
      exact bot_le
    · intro _
      have : three.ubL l0k = ⊤ := by decide +kernel
      rw [this]
      exact le_top

end LRA
end Semitone
