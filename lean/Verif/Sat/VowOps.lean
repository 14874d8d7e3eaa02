import Verif.Sat.VowAmo
import Verif.DL.Play

/-!
# Every call keeps what the literals of the core mean

`step_onw`: a legal call that returns, with any firm theory, forgets no posted clause and no literal that is true at root level, and keeps the meaning of every remembered expression; `Calm.rt`: the assignment the core ends with
is one of the assignments `Rt` speaks of.
-/
namespace Semitone

theorem ActFirm.root {T : Type} {Q : T → (Nat → Lit → Prop) → (Lit → Prop) → Prop} {R : T → (Nat → Lit → Prop) → Prop} {n : Nat} {q : Lit} {A P val act}
    (h : ActFirm Q R n A P val act) : A 0 q → ActFirm (fun t A P => Q t A P ∧ A 0 q) (fun t A => R t A ∧ A 0 q) n A P val act := by
  induction h with
  | ok a => exact fun hp => .ok ⟨a, hp⟩
  | confl a => exact fun hp => .confl ⟨a, hp⟩
  | record _ ih => exact fun hp => .record (fun l0 rest e h1 h2 A' P' v h3 h4 h5 h6 h7 h8 h9 h10 => ih l0 rest e h1 h2 A' P' v h3 h4 h5 h6 h7 h8 h9 h10 (h3 0 q (Nat.zero_le _) hp))

/-- The same theory, with a literal that is true at root level in the invariant. -/
def Firm.root {T : Type} {O : TheoryOps T} (K : Firm O) (q : Lit) : Firm O where
  LI := fun t nv b n A P => K.LI t nv b n A P ∧ A 0 q
  Done := K.Done
  adv := fun h h1 h2 h3 h4 h5 => ⟨K.adv h.1 h1 h2 h3 h4 h5, h2 0 q (Nat.zero_le _) h.2⟩
  pop := fun h hp => ⟨K.pop h.1 hp, h.2⟩
  pop_ok := fun h => K.pop_ok h.1
  push := fun h h1 h2 => ⟨K.push h.1 h1 h2, h.2⟩
  prop := fun h h1 h2 h3 h4 => by
    rcases K.prop h.1 h1 h2 h3 h4 with ⟨a, b⟩ | ⟨i, a, b⟩
    · exact .inl ⟨a, b, h.2⟩
    · exact .inr ⟨i, a, (b.root h.2).mono (fun _ _ _ x => ⟨⟨x.1.1, x.2⟩, fun h0 => ⟨x.1.2 h0, x.2⟩⟩) (fun _ _ x => x)⟩
  check := fun h h1 h2 h3 h4 => by
    obtain ⟨a, b⟩ := K.check h.1 h1 h2 h3 h4
    exact ⟨fun e => ⟨⟨(a e).1, h.2⟩, (a e).2⟩, fun cl e => ⟨b cl e, h.2⟩⟩
  check_ok := fun h h1 h2 h3 => K.check_ok h.1 h1 h2 h3

namespace Sat
variable {T : Type} {O : TheoryOps T} {K : Firm O} {E : Env}

/-- A literal that is true at root level stays so. -/
theorem step_root {s s' : Sat T} {op : Op} {out : Out} (h : s.Calm K) (hl : s.Legal op) (hop : ∀ v i, op ≠ .bind v i) (he : s.step E O op = .ok (s', out)) {q : Lit} (hq : s.tru 0 q) :
    s'.dead = true ∨ s'.tru 0 q := by
  have h' : s.Calm (K.root q) := ⟨⟨h.tw, ⟨h.li, hq⟩, h.lk⟩, h.qr⟩
  exact (step_calm h' hl hop he).1.imp_right (fun x => x.li.2)

theorem newClause_grown {s s' : Sat T} {ls : List Lit} {b : Bool} (h : s.Steady K) (hv : s.Vow) (hr : s.root = true) (he : s.newClause E ls = .ok (s', b)) :
    s'.dead = true ∨ (Grown K s s' ∧ ls ∈ s'.posted) := by
  have A := (newClause_adds (K := K) he).1
  have hp := newClause_posted he
  have sub : ∀ D ∈ s.posted, D ∈ s'.posted := fun D hD => by rw [hp]; exact List.mem_cons_of_mem _ hD
  refine (A.ok hr h).imp_right (fun x => ?_)
  have o := x.2.onw sub
  exact ⟨⟨o, x.1, hv.onw o (newClause_exprs he).1, A.lim⟩, by rw [hp]; exact List.mem_cons_self⟩

/-- **A call forgets nothing.** -/
theorem step_onw {s s' : Sat T} {op : Op} {out : Out} (h : s.Calm K) (hv : s.Vow) (hl : s.Legal op) (hop : ∀ v i, op ≠ .bind v i) (he : s.step E O op = .ok (s', out)) :
    s'.dead = true ∨ (s'.Calm K ∧ Onw s s' ∧ s'.Vow) := by
  rcases (step_calm h hl hop he).1 with hd | hc
  · exact .inl hd
  by_cases hd : s'.dead = true
  · exact .inl hd
  have keep : ∀ q, s.tru 0 q → s'.tru 0 q := fun q hq => (step_root h hl hop he hq).resolve_left hd
  have fx : Fx s s' → s'.dead = true ∨ (s'.Calm K ∧ Onw s s' ∧ s'.Vow) := fun f =>
    have o : Onw s s' := ⟨Nat.le_of_eq f.nv.symm, f.post, keep⟩
    .inr ⟨hc, o, hv.onw o f.ex⟩
  have gr : ∀ {P : Prop}, s'.dead = true ∨ (Grown K s s' ∧ P) → s'.dead = true ∨ (s'.Calm K ∧ Onw s s' ∧ s'.Vow) := fun g =>
    g.imp_right (fun g => ⟨hc, g.1.toOnw, g.1.vow⟩)
  obtain ⟨-, hl⟩ := hl
  cases op with
  | newVar =>
    injection he with he; injection he with h1 h2; subst h1
    have g := newVar_grown h.toSteady hv
    exact .inr ⟨hc, g.toOnw, g.vow⟩
  | newClause ls =>
    obtain ⟨⟨s1, b⟩, h1, h2⟩ := map_ok he
    injection h2 with h2 h3; subst h2
    exact gr (newClause_grown h.toSteady hv hl.1 h1)
  | newEq a b =>
    obtain ⟨⟨s1, b⟩, h1, h2⟩ := map_ok he
    injection h2 with h2 h3; subst h2
    exact gr (newEq_vow h.toSteady hv h1)
  | newConj ls =>
    obtain ⟨⟨s1, b⟩, h1, h2⟩ := map_ok he
    injection h2 with h2 h3; subst h2
    exact gr (newConj_vow h.toSteady hv h1)
  | newDisj ls =>
    obtain ⟨⟨s1, b⟩, h1, h2⟩ := map_ok he
    injection h2 with h2 h3; subst h2
    exact gr (newDisj_vow h.toSteady hv h1)
  | newAMO ls =>
    obtain ⟨⟨s1, b⟩, h1, h2⟩ := map_ok he
    injection h2 with h2 h3; subst h2
    exact gr (newAMO_vow h.toSteady hv h1)
  | newEXO ls =>
    obtain ⟨⟨s1, b⟩, h1, h2⟩ := map_ok he
    injection h2 with h2 h3; subst h2
    exact gr (newEXO_vow h.toSteady hv h1)
  | assume p =>
    obtain ⟨⟨s1, b⟩, h1, h2⟩ := map_ok he
    injection h2 with h2 h3; subst h2
    exact fx (assume_fx h1)
  | pop =>
    simp only [step] at he
    match hp : s.pop O with
    | .error _ => rw [hp] at he; cases he
    | .ok s1 =>
      rw [hp] at he
      injection he with he; injection he with h1 h2; subst h1
      exact fx (pop_fx hp)
  | propagate =>
    obtain ⟨⟨s1, b⟩, h1, h2⟩ := map_ok he
    injection h2 with h2 h3; subst h2
    exact fx (propagate_fx h1)
  | next =>
    obtain ⟨⟨s1, b⟩, h1, h2⟩ := map_ok he
    injection h2 with h2 h3; subst h2
    exact fx (next_fx h1)
  | check ls =>
    obtain ⟨⟨s1, b⟩, h1, h2⟩ := map_ok he
    injection h2 with h2 h3; subst h2
    exact fx (check_fx h1)
  | simplify =>
    obtain ⟨⟨s1, b⟩, h1, h2⟩ := map_ok he
    injection h2 with h2 h3; subst h2
    exact fx (simplifyDb_fx h1)
  | bind v i => exact absurd rfl (hop v i)
  | listen v l =>
    injection he with he; injection he with h1 h2; subst h1
    exact fx (by unfold listen; split <;> exact ⟨rfl, rfl, fun _ h => h⟩)

/-- The same of a call that propagates and returns true. -/
theorem quiet_onw {s s' : Sat T} {op : Op} (h : s.Calm K) (hv : s.Vow) (hl : s.Legal op) (hop : Propagating op) (he : s.step E O op = .ok (s', .bool true)) :
    s'.Calm K ∧ s'.propQ = [] ∧ K.Done s'.th ∧ Onw s s' ∧ s'.Vow := by
  have hb : ∀ v i, op ≠ .bind v i := fun v i e => by rw [e] at hop; exact hop
  obtain ⟨a, b, c⟩ := (step_calm h hl hb he).2 hop rfl
  have keep : ∀ q, s.tru 0 q → s'.tru 0 q := fun q hq =>
    ((step_calm (K := K.root q) ⟨⟨h.tw, ⟨h.li, hq⟩, h.lk⟩, h.qr⟩ hl hb he).2 hop rfl).1.li.2
  have fx : Fx s s' → s'.Calm K ∧ s'.propQ = [] ∧ K.Done s'.th ∧ Onw s s' ∧ s'.Vow := fun f =>
    have o : Onw s s' := ⟨Nat.le_of_eq f.nv.symm, f.post, keep⟩
    ⟨a, b, c, o, hv.onw o f.ex⟩
  cases op with
  | assume p =>
    obtain ⟨⟨s1, b⟩, h1, h2⟩ := map_ok he
    injection h2 with h2 h3; subst h2
    exact fx (assume_fx h1)
  | propagate =>
    obtain ⟨⟨s1, b⟩, h1, h2⟩ := map_ok he
    injection h2 with h2 h3; subst h2
    exact fx (propagate_fx h1)
  | next =>
    obtain ⟨⟨s1, b⟩, h1, h2⟩ := map_ok he
    injection h2 with h2 h3; subst h2
    exact fx (next_fx h1)
  | simplify =>
    obtain ⟨⟨s1, b⟩, h1, h2⟩ := map_ok he
    injection h2 with h2 h3; subst h2
    exact fx (simplifyDb_fx h1)
  | _ => exact hop.elim

/-- The assignment the core ends with. -/
theorem Calm.rt {s : Sat T} (h : s.Calm K) (hq : s.propQ = []) (hall : ∀ v, v < s.nvars → s.assigns v ≠ none) : s.Rt (fun v => s.assigns v = some true) := by
  refine ⟨by simp [h.tw.fv], fun D hD => h.sat hq hall D hD, fun q hq => ?_⟩
  have hv := hq.1
  rw [value_true] at hv
  unfold Asg.sat
  simp only [hv]
  cases q.sign <;> rfl

theorem init_vow {t : T} : (Sat.init t).Vow := by
  intro k ls r hm
  rcases List.mem_cons.1 hm with e | hmem
  · injection e with e1 e2; exact absurd e1 (key_ne_var k ls _)
  · cases hmem

/-! ### What a call promises -/

/-- What the client may expect of the answer `out` of the call `op` on the core `s`, in a truth assignment `α`: the clause posted holds; the literal of a conjunction, of a disjunction is true exactly when they are; the literal of
an equality (C15: two literals both unassigned, or both assigned, or of the same sign) implies it, and is implied by the truth of both; the literal of an at-most-one, of an exactly-one constraint (C16, C17: none of
the literals already true) implies it. -/
def Promise (s : Sat T) (op : Op) (out : Out) (α : Asg) : Prop :=
  match op, out with
  | .newClause ls, _ => α.clause ls
  | .newConj ls, .lit r => α.sat r ↔ ∀ l ∈ ls, α.sat l
  | .newDisj ls, .lit r => α.sat r ↔ ∃ l ∈ ls, α.sat l
  | .newEq a b, .lit r => (a.sign = b.sign ∨ (s.value a = none ↔ s.value b = none)) → (α.sat r → (α.sat a ↔ α.sat b)) ∧ (α.sat a → α.sat b → α.sat r)
  | .newAMO ls, .lit r => (∀ l ∈ ls, s.value l ≠ some true) → α.sat r → ∀ l ∈ ls, ∀ k ∈ ls, α.sat l → α.sat k → l = k
  | .newEXO ls, .lit r => (∀ l ∈ ls, s.value l ≠ some true) → α.sat r → (∃ l ∈ ls, α.sat l) ∧ ∀ l ∈ ls, ∀ k ∈ ls, α.sat l → α.sat k → l = k
  | _, _ => True

/-- **A call keeps its promise** in every assignment considered. -/
theorem step_promise {s s' : Sat T} {op : Op} {out : Out} (h : s.Calm K) (hv : s.Vow) (hl : s.Legal op) (he : s.step E O op = .ok (s', out)) :
    s'.dead = true ∨ ∀ α, s'.Rt α → s.Promise op out α := by
  obtain ⟨-, hl⟩ := hl
  cases op with
  | newClause ls =>
    obtain ⟨⟨s1, b⟩, h1, h2⟩ := map_ok he
    injection h2 with h2 h3; subst h2; subst h3
    exact (newClause_grown h.toSteady hv hl.1 h1).imp_right (fun x α hα => hα.cls _ x.2)
  | newEq a b =>
    obtain ⟨⟨s1, b⟩, h1, h2⟩ := map_ok he
    injection h2 with h2 h3; subst h2; subst h3
    refine (newEq_vow h.toSteady hv h1).imp_right (fun x α hα hc => ?_)
    obtain ⟨a1, a2, -⟩ := x.2.2 hc α hα
    exact ⟨a1, a2⟩
  | newConj ls =>
    obtain ⟨⟨s1, b⟩, h1, h2⟩ := map_ok he
    injection h2 with h2 h3; subst h2; subst h3
    exact (newConj_vow h.toSteady hv h1).imp_right (fun x α hα => x.2.2 α hα)
  | newDisj ls =>
    obtain ⟨⟨s1, b⟩, h1, h2⟩ := map_ok he
    injection h2 with h2 h3; subst h2; subst h3
    exact (newDisj_vow h.toSteady hv h1).imp_right (fun x α hα => x.2.2 α hα)
  | newAMO ls =>
    obtain ⟨⟨s1, b⟩, h1, h2⟩ := map_ok he
    injection h2 with h2 h3; subst h2; subst h3
    exact (newAMO_vow h.toSteady hv h1).imp_right (fun x α hα hc hr => x.2.2 hc α hα hr)
  | newEXO ls =>
    obtain ⟨⟨s1, b⟩, h1, h2⟩ := map_ok he
    injection h2 with h2 h3; subst h2; subst h3
    exact (newEXO_vow h.toSteady hv h1).imp_right (fun x α hα hc hr => x.2 hc α hα hr)
  | newVar | assume | pop | propagate | next | check | simplify | bind | listen => exact .inr (fun _ _ => trivial)

end Sat
end Semitone
