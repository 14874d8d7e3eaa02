import Verif.LRA.Total
import Verif.LRA.PropsB

/-!
# The core with the linear-arithmetic theory: sessions

The calls a client may make, and what holds after them.
-/
namespace Semitone
namespace LRA
open Lin
variable {E : Env} {L : LEnv} {Z : Asg → Prop} {s s' : Sat LRA} {U : List Fact} {d : Bool}

/-- Whether a decision may be taken next: bounds imposed with `set_lb` or `set_ub` must be propagated before. -/
def MayCall (op : Sat.Op) (d : Bool) : Prop :=
  match op with
  | .assume _ | .check _ => d = false
  | .bind _ _ => False
  | _ => True

/-- Whether bounds are still to be propagated after the call. -/
def pendingAfter (op : Sat.Op) (d : Bool) : Bool :=
  match op with
  | .propagate | .simplify => false
  | _ => d

/-- Sessions: the states of a core with the linear-arithmetic theory that sequences of legal calls lead to; `U`: the bounds imposed with `set_lb` and `set_ub`; `d`: whether
some were imposed since the last `propagate()` or `simplify_db()`. The calls of the core are legal as in C10 (`Sat.Legal`), and no decision is taken nor `check` called before imposed bounds are
propagated. `new_var(l)` is called without a known term and over variables that are not basic. The relational constructors are called on any expressions over existing
variables. Bounds are imposed at root level, and are those of relations over the rationals (`r`, `r + ε` from below; `r`, `r - ε` from above). A call that reports a conflict at root level ends the session. -/
inductive ZReach (E : Env) (L : LEnv) : Sat LRA → List Fact → Bool → Prop
  | init : ZReach E L (Sat.init LRA.init) [] false
  | step {s s' : Sat LRA} {U : List Fact} {d op out} : ZReach E L s U d → s.Legal op → MayCall op d → s.step E (ops L) op = .ok (s', out) → ZReach E L s' U (pendingAfter op d)
  | newVar {s : Sat LRA} {U : List Fact} {d} : ZReach E L s U d → s.dead = false → ZReach E L { s with th := s.th.newVar.1 } U d
  | newVarL {s : Sat LRA} {U : List Fact} {d l t y} : ZReach E L s U d → s.dead = false → l.Canon → (∀ w ∈ keys l.vars, s.th.row w = none) → l.kt = 0 → s.th.newVarL s.root l = .ok (t, y) →
      ZReach E L { s with th := t } U d
  | newRel {s s' : Sat LRA} {U : List Fact} {d R l r p} : ZReach E L s U d → s.dead = false → l.Canon → r.Canon → (∀ w ∈ keys l.vars, w < s.th.n) → (∀ w ∈ keys r.vars, w < s.th.n) →
      newRel R s l r = .ok (s', p) → ZReach E L s' U d
  | newEq {s s' : Sat LRA} {U : List Fact} {d l r p} : ZReach E L s U d → s.dead = false → l.Canon → r.Canon → (∀ w ∈ keys l.vars, w < s.th.n) → (∀ w ∈ keys r.vars, w < s.th.n) →
      newEqL E s l r = .ok (s', p) → ZReach E L s' U d
  | setLb {s s' : Sat LRA} {U : List Fact} {d x v p} : ZReach E L s U d → s.dead = false → s.root = true → x < s.th.n → s.value p = some true → 0 ≤ (ofLex v).2 →
      setLbC E L s x v p = .ok (s', none) → ZReach E L s' (.lo p x v :: U) true
  | setUb {s s' : Sat LRA} {U : List Fact} {d x v p} : ZReach E L s U d → s.dead = false → s.root = true → x < s.th.n → s.value p = some true → (ofLex v).2 ≤ 0 →
      setUbC E L s x v p = .ok (s', none) → ZReach E L s' (.hi p x v :: U) true
  | listen {s : Sat LRA} {U : List Fact} {d v l t} : ZReach E L s U d → s.dead = false → s.th.listen v l = .ok t → ZReach E L { s with th := t } U d

/-- Invariant of the sessions. -/
structure ZInv (E : Env) (L : LEnv) (s : Sat LRA) (U : List Fact) (d : Bool) : Prop where
  reach : AReach E L s U
  live : s.dead = true ∨ ALive L s d
  user : ∀ f ∈ U, f ∈ s.th.facts

theorem ZInv.alive (h : ZInv E L s U d) (hd : s.dead = false) : ALive L s d := h.live.resolve_left (by rw [hd]; simp)

theorem newVarL_facts (h : SInv L Z s U) {l : Lin} {t : LRA} {y : Nat} (hn : s.th.newVarL s.root l = .ok (t, y)) : ∀ f ∈ s.th.facts, f ∈ t.facts := by
  obtain ⟨Fs, hg⟩ := h.ti.good
  rcases newVarL_cases hg hn with ⟨e, -⟩ | ⟨-, -, -, -, e, -⟩
  · subst e; exact fun _ h => h
  · subst e
    intro f hf
    exact List.mem_cons_of_mem _ (List.mem_cons_of_mem _ hf)

theorem newRel_facts (h : SInv L Z s U) {R : Rel4} {l r : Lin} {p : Lit} (hn : newRel R s l r = .ok (s', p)) : ∀ f ∈ s.th.facts, f ∈ s'.th.facts := by
  unfold newRel at hn
  simp only at hn
  split at hn
  · cases hn
  · split at hn
    · injection hn with hn; injection hn with e1 e2; subst e1; exact fun _ h => h
    · injection hn with hn; injection hn with e1 e2; subst e1; exact fun _ h => h
    · split at hn
      · cases hn
      · next t y hnv =>
        have ha := newVarL_facts h hnv
        split at hn
        · injection hn with hn; injection hn with e1 e2; subst e1; exact ha
        · injection hn with hn; injection hn with e1 e2; subst e1; exact ha
        · split at hn
          · injection hn with hn; injection hn with e1 e2; subst e1; exact ha
          · injection hn with hn; injection hn with e1 e2; subst e1; exact ha

theorem newEqL_facts (h : SInv L Z s U) {l r : Lin} {p : Lit} (hl : l.Canon) (hr : r.Canon) (hvl : ∀ w ∈ keys l.vars, w < s.th.n)
    (hvr : ∀ w ∈ keys r.vars, w < s.th.n) (hn : newEqL E s l r = .ok (s', p)) : ∀ f ∈ s.th.facts, f ∈ s'.th.facts := by
  unfold newEqL at hn
  split at hn
  · cases hn
  · next s1 p1 h1 =>
    have a1 := newRel_adds h hl hr hvl hvr h1
    split at hn
    · cases hn
    · next s2 p2 h2 =>
      have hvl1 : ∀ w ∈ keys l.vars, w < s1.th.n := fun w hw => (hvl w hw).trans_le a1.n
      have hvr1 : ∀ w ∈ keys r.vars, w < s1.th.n := fun w hw => (hvr w hw).trans_le a1.n
      have a2 := newRel_adds a1.sinv hl hr hvl1 hvr1 h2
      obtain ⟨hroot, hv⟩ := Sat.newConj_pre hn
      obtain ⟨s3, q, a, b⟩ := Sat.newConj_spec (E := E) a2.sinv.rinv.inv hroot hv
      rw [hn] at a
      injection a with a; injection a with e1 e2
      subst e1 e2
      rw [b.defd.rstep.th]
      exact fun f hf => newRel_facts a1.sinv h2 f (newRel_facts h h1 f hf)

/-- The state of a new core is live. -/
theorem init_alive : ALive L (Sat.init LRA.init) false := by
  have hI : SInv L anyAsg (Sat.init LRA.init) [] := init_sinv
  have h0 : (Sat.init LRA.init).dl = 0 := rfl
  have hT : (Sat.init LRA.init).tru 0 TRUE_lit := by
    refine ⟨?_, Nat.le_refl _⟩
    decide
  have hv : ∀ b a, (Sat.init LRA.init).th.vas b = some a → False := by
    intro b a hb
    have hb : (none : Option Asrt) = some a := hb
    cases hb
  refine ⟨⟨Sat.init_fix _, ?_, fun i hi => by rw [h0] at hi; omega⟩, fun _ _ => ⟨fun _ => false, ⟨fun _ => 0, ?_⟩, fun q hq => ?_⟩⟩
  · refine ⟨rfl, ?_, ?_, ?_, [[]], Good.init hT, ?_, ?_, ?_, ?_⟩
    · exact fun i j q hij _ h => ⟨h.1, h.2.trans hij⟩
    · exact fun v hv => absurd hv (Nat.not_lt_zero v)
    · exact ⟨fun v => ⟨(fun w hw => by cases hw), Or.inl hT⟩, fun v => ⟨(fun w hw => by cases hw), Or.inl hT⟩, (fun L hL => by cases hL), fun L hL => by cases hL⟩
    · exact fun i _ v sg a ha => (hv v a ha).elim
    · exact ⟨fun v _ => rfl, fun v a ha => (hv v a ha).elim, fun v a ha => (hv v a ha).elim, fun v a ha => (hv v a ha).elim, fun v a ha => (hv v a ha).elim⟩
    · exact fun f hf => by cases hf
    · exact fun f hf => by cases hf
  · exact ⟨rfl, fun b a ha => (hv b a ha).elim, (fun d hd => by cases hd), fun f hf => by cases hf⟩
  · have hq0 := tru_lt hI hq
    have h1 : (Sat.init LRA.init).nvars = 1 := rfl
    have e : q.var = 0 := by omega
    have := hq.1
    rw [Sat.value_true, e] at this
    have this : some false = some q.sign := this
    unfold Asg.sat
    injection this

/-- A step keeps the invariant. -/
theorem ZInv.step {op : Sat.Op} {out : Sat.Out} (h : ZInv E L s U d) (hl : s.Legal op) (hm : MayCall op d) (hs : s.step E (ops L) op = .ok (s', out)) :
    ZInv E L s' U (pendingAfter op d) ∧ (match op with
      | .propagate | .assume _ | .next | .simplify => out = .bool true → ∀ v, InB (s'.th.lo v) (s'.th.hi v) (s'.th.vals v)
      | _ => True) := by
  have ha := h.alive hl.1
  have hsf : op = .simplify → ∀ u, s.propagate E (ops L) = .ok (u, true) → u.Fix u.okQ := by
    rintro rfl u hu
    obtain ⟨u', b, h1, h2, -⟩ := (Sat.propagate_live (E := E) h.reach.rinv.inv ha.live).resolve_left (fun ⟨_, h, _⟩ => h)
    rw [hu] at h1
    injection h1 with h1; injection h1 with e1 e2
    subst e1 e2
    exact (h2 rfl).1.live.fix
  have hsig := (step_sinv h.reach.sinv hsf hs).2.2
  obtain ⟨s1, o1, h1, h2, h3⟩ := (Sat.step_live (E := E) (op := op) h.reach.rinv.inv ha hl (by cases op <;> exact hm)).resolve_left (fun ⟨_, h, _⟩ => h)
  rw [hs] at h1
  injection h1 with h1; injection h1 with e1 e2
  subst e1 e2
  refine ⟨⟨.step h.reach hsf hs, ?_, by rw [show s'.th.facts = s.th.facts from congrArg Sig.facts hsig]; exact h.user⟩, ?_⟩
  · refine h3.imp_right (fun h3 => ?_)
    have e : pendingAfter op d = (match op with
        | .propagate | .simplify => false
        | _ => d) := by cases op <;> rfl
    unfold ALive
    rw [hsig, e]
    cases op <;> exact h3
  · cases op <;> exact h2

theorem ZReach.zinv (h : ZReach E L s U d) : ZInv E L s U d := by
  induction h with
  | init => exact ⟨.init, Or.inr init_alive, fun f hf => by cases hf⟩
  | step _ hl hm hs ih => exact (ih.step hl hm hs).1
  | newVar _ hd ih => exact ⟨.newVar ih.reach, Or.inr (newVar_alive ih.reach.sinv (ih.alive hd)), ih.user⟩
  | newVarL _ hd hc hb hk hn ih =>
    exact ⟨.newVarL ih.reach hc hb hk hn, Or.inr (newVarL_alive ih.reach.sinv (ih.alive hd) hc hb hk hn), fun f hf => newVarL_facts ih.reach.sinv hn f (ih.user f hf)⟩
  | newRel _ hd hl hr hvl hvr hn ih =>
    exact ⟨.newRel ih.reach hl hr hvl hvr hn, Or.inr (newRel_alive ih.reach.sinv (ih.alive hd) hl hr hvl hvr hn), fun f hf => newRel_facts ih.reach.sinv hn f (ih.user f hf)⟩
  | newEq _ hd hl hr hvl hvr hn ih =>
    exact ⟨.newEq ih.reach hl hr hvl hvr hn, Or.inr (newEqL_alive ih.reach.sinv (ih.alive hd) hl hr hvl hvr hn), fun f hf => newEqL_facts ih.reach.sinv hl hr hvl hvr hn f (ih.user f hf)⟩
  | setLb _ hd hr hx hp hv hn ih =>
    obtain ⟨s1, r, h1, h2⟩ := setLbC_alive (E := E) ih.reach.sinv (ih.alive hd) hr hx hp hv
    rw [hn] at h1
    injection h1 with h1; injection h1 with e1 e2
    subst e1 e2
    refine ⟨.setLb ih.reach hr hx hp hn, Or.inr (h2 rfl), fun f hf => ?_⟩
    rw [(setLbC_sinv ih.reach.sinv hr hx hp hn).2.2.2.2.1]
    rcases List.mem_cons.mp hf with e | hf
    · rw [e]; exact List.mem_cons_self
    · exact List.mem_cons_of_mem _ (ih.user f hf)
  | setUb _ hd hr hx hp hv hn ih =>
    obtain ⟨s1, r, h1, h2⟩ := setUbC_alive (E := E) ih.reach.sinv (ih.alive hd) hr hx hp hv
    rw [hn] at h1
    injection h1 with h1; injection h1 with e1 e2
    subst e1 e2
    refine ⟨.setUb ih.reach hr hx hp hn, Or.inr (h2 rfl), fun f hf => ?_⟩
    rw [(setUbC_sinv ih.reach.sinv hr hx hp hn).2.2.2.2.1]
    rcases List.mem_cons.mp hf with e | hf
    · rw [e]; exact List.mem_cons_self
    · exact List.mem_cons_of_mem _ (ih.user f hf)
  | listen _ hd hn ih =>
    refine ⟨.listen ih.reach hn, Or.inr (listen_alive (ih.alive hd) hn), ?_⟩
    obtain ⟨f, e⟩ := listen_eq hn
    subst e
    exact ih.user

end LRA
end Semitone
