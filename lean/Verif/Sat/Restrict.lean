import Verif.Sat.Spec

/-!
# A theory beside something else

The contract of a theory when the solutions are also restricted by something the theory knows nothing about (for instance by other theories on the same core).
-/
namespace Semitone

theorem ActOK.restrict {T : Type} {Th : T → Asg → Prop} {TI : T → Nat → (Nat → Lit → Prop) → Prop} {t0 : T} {n : Nat} {A : Nat → Lit → Prop} {a : TAct T} (Z : Asg → Prop)
    (h : ActOK Th TI t0 n A a) : ActOK (fun t α => Th t α ∧ Z α) TI t0 n A a := by
  induction h with
  | ok a b => exact .ok a (fun α => and_congr_left' (b α))
  | confl a b c d => exact .confl a (fun α => and_congr_left' (b α)) (fun α h => c α h.1) d
  | record a _ ih => exact .record (fun α h => a α h.1) ih
  | fail => exact .fail

/-- The same contract when the solutions are also restricted by `Z`. -/
def Contract.restrict {T : Type} {O : TheoryOps T} (C : Contract O) (Z : Asg → Prop) : Contract O where
  Th := fun t α => C.Th t α ∧ Z α
  TI := C.TI
  mono := C.mono
  prop := fun i t n A val p hi h1 h2 h3 => (C.prop i t n A val p hi h1 h2 h3).restrict Z
  check := fun i t n A val t' r hi h1 h2 h3 => by
    obtain ⟨a, b, c⟩ := C.check i t n A val t' r hi h1 h2 h3
    exact ⟨a, fun α => and_congr_left' (b α), fun cl hcl => ⟨fun α hα => (c cl hcl).1 α hα.1, (c cl hcl).2⟩⟩
  push := fun t n A hi hA => ⟨(C.push t n A hi hA).1, fun α => and_congr_left' ((C.push t n A hi hA).2 α)⟩
  pop := fun t t' n A hi hp => ⟨(C.pop t t' n A hi hp).1, fun α => and_congr_left' ((C.pop t t' n A hi hp).2 α)⟩

/-- Nothing else. -/
abbrev anyAsg : Asg → Prop := fun _ => True

end Semitone
