import Verif.Sat.LiveOps

/-!
# After a call that propagates and returns true
-/
namespace Semitone
namespace Sat
variable {T : Type} {E : Env} {O : TheoryOps T} {C : Contract O} {V : Live C} {s s' : Sat T}

/-- The calls that propagate. -/
def Propagates (op : Sat.Op) : Prop :=
  match op with
  | .propagate | .assume _ | .next | .simplify => True
  | _ => False

/-- After a call that propagates and returns true nothing is queued and the core is not inconsistent. -/
theorem step_quiet {op : Sat.Op} (hi : s.Inv C) (ha : s.LiveInv V) (hl : s.Legal op) (hop : Propagates op) (hs : s.step E O op = .ok (s', .bool true)) :
    s'.propQ = [] ∧ s'.dead = false := by
  have nd : ∀ {A : Prop}, (s'.dead = true → s.dead = true ∨ (true = false ∧ A)) → s'.dead = false := by
    intro A hb
    cases e : s'.dead with
    | false => rfl
    | true =>
      rcases hb e with h1 | ⟨h1, -⟩
      · rw [hl.1] at h1; cases h1
      · cases h1
  cases op with
  | propagate =>
    simp only [Sat.step] at hs
    match hp : s.propagate E O with
    | .error e => rw [hp] at hs; cases hs
    | .ok (u, b) =>
      rw [hp] at hs
      injection hs with hs; injection hs with e1 e2; injection e2 with e2
      subst e1 e2
      have d := Sat.propagate_spec hi hp
      exact ⟨d.queue, by rw [d.dead rfl]; exact hl.1⟩
  | assume p =>
    simp only [Sat.step] at hs
    match hp : s.assume E O p with
    | .error e => rw [hp] at hs; cases hs
    | .ok (u, b) =>
      rw [hp] at hs
      injection hs with hs; injection hs with e1 e2; injection e2 with e2
      subst e1 e2
      have d := (Sat.assume_spec hi hp).facts hi
      exact ⟨d.queue, nd d.bad⟩
  | next =>
    simp only [Sat.step] at hs
    match hp : s.next E O with
    | .error e => rw [hp] at hs; cases hs
    | .ok (u, b) =>
      rw [hp] at hs
      injection hs with hs; injection hs with e1 e2; injection e2 with e2
      subst e1 e2
      rcases Sat.next_spec hi hp with ⟨-, -, h3⟩ | ⟨-, d⟩
      · cases h3
      · exact ⟨d.queue, nd d.bad⟩
  | simplify =>
    simp only [Sat.step] at hs
    match hp : s.simplifyDb E O with
    | .error e => rw [hp] at hs; cases hs
    | .ok (u, b) =>
      rw [hp] at hs
      injection hs with hs; injection hs with e1 e2; injection e2 with e2
      subst e1 e2
      have d := Sat.simplifyDb_spec hi (fun u hu => by
        rcases Sat.propagate_live (E := E) hi ha with ⟨e, -, h1⟩ | ⟨u', b, h1, h2, -⟩
        · rw [hu] at h1; cases h1
        · rw [hu] at h1
          injection h1 with h1; injection h1 with e1 e2
          subst e1 e2
          exact (h2 rfl).1.live.fix) hp
      exact ⟨d.queue, nd d.bad⟩
  | _ => exact hop.elim

end Sat
end Semitone
