import Verif.DL.Sys

/-!
# What every call of a theory keeps, every call of the core keeps
-/
namespace Semitone

/-- Every state that the action can leave the theory in satisfies `P`. -/
def TAct.All {T : Type} (P : T → Prop) : TAct T → Prop
  | .ok t => P t
  | .confl t _ => P t
  | .record _ k => ∀ v, (k v).All P
  | .fail _ => True

theorem TAct.All.mono {T : Type} {P Q : T → Prop} (h : ∀ t, P t → Q t) : ∀ {a : TAct T}, a.All P → a.All Q
  | .ok _, ha => h _ ha
  | .confl _ _, ha => h _ ha
  | .record _ _, ha => fun v => TAct.All.mono h (ha v)
  | .fail _, _ => trivial

theorem ActOK.with {T : Type} {Th : T → Asg → Prop} {TI : T → Nat → (Nat → Lit → Prop) → Prop} {P : T → Prop} {t0 : T} {n : Nat} {A : Nat → Lit → Prop} {a : TAct T} (h : ActOK Th TI t0 n A a)
    (hp : a.All P) : ActOK Th (fun t n A => TI t n A ∧ P t) t0 n A a := by
  induction h with
  | ok a b => exact .ok ⟨a, hp⟩ b
  | confl a b c d => exact .confl ⟨a, hp⟩ b c d
  | record a _ ih => exact .record a (fun A' v h1 h2 h3 => ih A' v h1 h2 h3 (hp v))
  | fail => exact .fail

/-- Every call of the theories keeps `P`. -/
structure Keeps {T : Type} (O : TheoryOps T) (P : T → Prop) : Prop where
  prop : ∀ i t val p, P t → (O.propagate i t val p).All P
  check : ∀ i t val t' r, P t → O.check i t val = .ok (t', r) → P t'
  push : ∀ t, P t → P (O.push t)
  pop : ∀ t t', P t → O.pop t = .ok t' → P t'

/-- The same contract with `P` in the invariant. -/
def Contract.with {T : Type} {O : TheoryOps T} (C : Contract O) {P : T → Prop} (h : Keeps O P) : Contract O where
  Th := C.Th
  TI := fun t n A => C.TI t n A ∧ P t
  mono := fun t n A A' hi hA => ⟨C.mono t n A A' hi.1 hA, hi.2⟩
  prop := fun i t n A val p hi h1 h2 h3 => (C.prop i t n A val p hi.1 h1 h2 h3).with (h.prop i t val p hi.2)
  check := fun i t n A val t' r hi h1 h2 h3 => by
    obtain ⟨a, b, c⟩ := C.check i t n A val t' r hi.1 h1 h2 h3
    exact ⟨⟨a, h.check i t val t' r hi.2 h3⟩, b, c⟩
  push := fun t n A hi hA => ⟨⟨(C.push t n A hi.1 hA).1, h.push t hi.2⟩, (C.push t n A hi.1 hA).2⟩
  pop := fun t t' n A hi hp => ⟨⟨(C.pop t t' n A hi.1 hp).1, h.pop t t' hi.2 hp⟩, (C.pop t t' n A hi.1 hp).2⟩

namespace Sat
variable {T : Type} {E : Env} {O : TheoryOps T} {C : Contract O} {P : T → Prop} {s s' : Sat T}

theorem RInv.with (h : s.RInv C) (hk : Keeps O P) (hp : P s.th) : s.RInv (C.with hk) :=
  RInv.theory (C' := C.with hk) (t := s.th) h (fun _ h => h) ⟨h.inv.ti, hp⟩

/-- Every call of the core keeps what every call of the theories keeps. -/
theorem step_keeps {op : Op} {out} (h : s.RInv C) (hk : Keeps O P) (hp : P s.th) (hsf : op = .simplify → ∀ u, s.propagate E O = .ok (u, true) → u.Fix u.okQ)
    (hs : s.step E O op = .ok (s', out)) : P s'.th := (step_rinv (h.with hk hp) hsf hs).inv.ti.2


theorem runAct_all : ∀ {a : TAct T} {s s' : Sat T} {r}, a.All P → runAct E a s = .ok (s', r) → P s'.th
  | .ok t, s, s', r, ha, h => by
    injection h with h; injection h with e1 e2; subst e1; exact ha
  | .confl t cl, s, s', r, ha, h => by
    injection h with h; injection h with e1 e2; subst e1; exact ha
  | .record cl k, s, s', r, ha, h => by
    unfold runAct at h
    split at h
    · cases h
    · exact runAct_all (ha _) h
  | .fail e, s, s', r, ha, h => by cases h

end Sat
end Semitone
