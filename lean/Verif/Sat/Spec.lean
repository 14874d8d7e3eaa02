import Verif.Sat.Model

/-!
# Specification vocabulary for the propositional core

Truth assignments, satisfaction, and what "implied by the posted clauses, the theories and the decisions" means.
Nothing here mentions watches, trails, reasons or queues.
-/
namespace Semitone

/-- A total truth assignment. -/
abbrev Asg := Nat → Bool

/-- `p` is true under `α`. -/
def Asg.sat (α : Asg) (p : Lit) : Prop := α p.var = p.sign

/-- The clause `C` holds under `α`: some literal is true. -/
def Asg.clause (α : Asg) (C : List Lit) : Prop := ∃ l ∈ C, α.sat l

/-- All the literals of `L` hold under `α`. -/
def Asg.all (α : Asg) (L : List Lit) : Prop := ∀ l ∈ L, α.sat l

/-- At most one of the literals of `L` (taken as a set) is true under `α`. -/
def Asg.atMostOne (α : Asg) (L : List Lit) : Prop := ∀ x ∈ L, ∀ y ∈ L, α.sat x → α.sat y → x = y

/-- Exactly one of the literals of `L` (taken as a set) is true under `α`. -/
def Asg.exactlyOne (α : Asg) (L : List Lit) : Prop := α.clause L ∧ α.atMostOne L

/-- The two assignments agree on the first `n` variables. -/
def Asg.agree (n : Nat) (α β : Asg) : Prop := ∀ v, v < n → α v = β v

theorem Asg.sat_neg (α : Asg) (p : Lit) : α.sat p.neg ↔ ¬ α.sat p := by
  simp only [Asg.sat, Lit.neg_var, Lit.neg_sign]
  cases α p.var <;> cases p.sign <;> simp

/-- A valuation of the literals is coherent: a literal and its negation have opposite values. -/
def Coh (v : Lit → Option Bool) : Prop := ∀ q : Lit, v q.neg = (v q).map not

/-- What the core expects of the behaviour `act` of a theory in state `t0`, at decision level `n`, when `A i` is the set of the
literals made true at levels `≤ i`: every recorded clause is valid for the theory, a reported conflict is a valid clause
all of whose literals are false now, and the meaning of the theory atoms does not change. `Th t α`: the truth assignment
`α` is consistent with the atoms registered in `t`; `TI t n A` is the theories' own invariant. -/
inductive ActOK {T : Type} (Th : T → Asg → Prop) (TI : T → Nat → (Nat → Lit → Prop) → Prop) (t0 : T) (n : Nat) :
    (Nat → Lit → Prop) → TAct T → Prop
  | ok {A t} : TI t n A → (∀ α, Th t α ↔ Th t0 α) → ActOK Th TI t0 n A (.ok t)
  | confl {A t cl} : TI t n A → (∀ α, Th t α ↔ Th t0 α) → (∀ α, Th t0 α → α.clause cl) → (∀ q ∈ cl, A n q.neg) →
      ActOK Th TI t0 n A (.confl t cl)
  | record {A cl k} : (∀ α, Th t0 α → α.clause cl) →
      (∀ A' v, (∀ i, i ≤ n → ∀ q, A i q → A' i q) → (∀ q, A' n q ↔ v q = some true) → Coh v → ActOK Th TI t0 n A' (k v)) →
      ActOK Th TI t0 n A (.record cl k)
  | fail {A e} : ActOK Th TI t0 n A (.fail e)

/-- Contract between the core and the theories. -/
structure Contract {T : Type} (O : TheoryOps T) where
  Th : T → Asg → Prop
  TI : T → Nat → (Nat → Lit → Prop) → Prop
  mono : ∀ t n A A', TI t n A → (∀ i, i ≤ n → ∀ q, A i q → A' i q) → TI t n A'
  prop : ∀ i t n A val p, TI t n A → (∀ q, A n q ↔ val q = some true) → Coh val → val p = some true →
    ActOK Th TI t n A (O.propagate i t val p)
  check : ∀ i t n A val t' r, TI t n A → (∀ q, A n q ↔ val q = some true) → Coh val → O.check i t val = .ok (t', r) →
    TI t' n A ∧ (∀ α, Th t' α ↔ Th t α) ∧ (∀ cl, r = some cl → (∀ α, Th t α → α.clause cl) ∧ ∀ q ∈ cl, A n q.neg)
  push : ∀ t n A, TI t n A → (∀ q, A n q → A (n + 1) q) → TI (O.push t) (n + 1) A ∧ ∀ α, Th (O.push t) α ↔ Th t α
  pop : ∀ t t' n A, TI t (n + 1) A → O.pop t = .ok t' → TI t' n A ∧ ∀ α, Th t' α ↔ Th t α

/-- The empty family of theories satisfies the contract. -/
def noContract : Contract noTheory where
  Th := fun _ _ => True
  TI := fun _ _ _ => True
  mono := fun _ _ _ _ _ _ => trivial
  prop := fun _ _ _ _ _ _ _ _ _ _ => .ok trivial (fun _ => Iff.rfl)
  check := fun _ _ _ _ _ _ r _ _ _ h => by simp [noTheory] at h; simp [← h]
  push := fun _ _ _ _ _ => ⟨trivial, fun _ => Iff.rfl⟩
  pop := fun _ _ _ _ _ _ => ⟨trivial, fun _ => Iff.rfl⟩

/-- The literals made true at levels `≤ i`. -/
def Sat.tru {T : Type} (s : Sat T) (i : Nat) (q : Lit) : Prop := s.value q = some true ∧ s.level q.var ≤ i

/-- The theories' invariant holds in the state `s` of the core. -/
def Sat.TInv {T : Type} {O : TheoryOps T} (C : Contract O) (s : Sat T) : Prop := C.TI s.th s.dl s.tru

section
variable {T : Type} (Th : T → Asg → Prop)

/-- `α` is a solution of the network: it makes `FALSE_lit` false, satisfies every clause posted by the user and is
consistent with the theories. -/
def Sat.Sol (s : Sat T) (α : Asg) : Prop :=
  α 0 = false ∧ (∀ C ∈ s.posted, α.clause C) ∧ Th s.th α

/-- The clause `C` is a consequence of the posted clauses and the theories. -/
def Sat.Ent (s : Sat T) (C : List Lit) : Prop := ∀ α, s.Sol Th α → α.clause C

/-- The first `n` decisions currently on the stack (`decisions` holds the newest first). -/
def Sat.decUpTo (s : Sat T) (n : Nat) : List Lit := s.decisions.drop (s.decisions.length - n)

/-- `p` is a consequence of the posted clauses, the theories and the decisions of the first `n` levels. -/
def Sat.EntD (s : Sat T) (n : Nat) (p : Lit) : Prop := ∀ α, s.Sol Th α → α.all (s.decUpTo n) → α.sat p

/-- There is no solution. -/
def Sat.Unsat (s : Sat T) : Prop := ∀ α, ¬ s.Sol Th α

/-- There is no solution in which all the literals of `L` are true. -/
def Sat.UnsatWith (s : Sat T) (L : List Lit) : Prop := ∀ α, s.Sol Th α → ¬ α.all L

/-- `α` is compatible with what the network really stores: it satisfies the stored clauses, makes every literal reported true
at root level true, and is consistent with the theories. -/
def Sat.Net (s : Sat T) (α : Asg) : Prop :=
  α 0 = false ∧ (∀ c ∈ s.constrs, α.clause (s.db c)) ∧ (∀ p, s.value p = some true → s.level p.var = 0 → α.sat p) ∧ Th s.th α

/-- The truth assignment reported by `value` (unassigned variables count as false). -/
def Sat.asg (s : Sat T) : Asg := fun v => (s.assigns v).getD false

end
end Semitone
