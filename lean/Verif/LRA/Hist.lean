import Verif.LRA.Build
import Verif.DL.Hist

/-!
# Histories of the linear-arithmetic theory

The calls that the core and the user make, in any order. `Fs` is the stack of the bounds asserted at each decision level, newest level first.
-/
namespace Semitone

/-- The theory ends in state `t`, answering "consistent" (`none`) or reporting a conflict, possibly after having recorded some clauses; the values of the
literals after each clause are arbitrary. -/
inductive TAct.Final {T : Type} : TAct T → T → Option (List Lit) → Prop
  | ok {t} : TAct.Final (.ok t) t none
  | confl {t cl} : TAct.Final (.confl t cl) t (some cl)
  | record {cl k v t r} : TAct.Final (k v) t r → TAct.Final (.record cl k) t r

/-- The theory records the clause or reports it as a conflict. -/
inductive TAct.Emits {T : Type} : TAct T → List Lit → Prop
  | confl {t cl} : TAct.Emits (.confl t cl) cl
  | here {cl k} : TAct.Emits (.record cl k) cl
  | later {cl cl' k v} : TAct.Emits (k v) cl → TAct.Emits (.record cl' k) cl

/-- The theory fails (undefined behaviour, violated `assert`). -/
inductive TAct.Fails {T : Type} : TAct T → Prop
  | here {e} : TAct.Fails (.fail e)
  | later {cl k v} : TAct.Fails (k v) → TAct.Fails (.record cl k)

namespace LRA
open Lin

/-- One call. -/
inductive Call (E : LEnv) : LRA × List (List BF) → LRA × List (List BF) → Prop
  /-- `new_var()` -/
  | newVar {t Fs} : Call E (t, Fs) (t.newVar.1, Fs)
  /-- `new_var(l)`: at root level when the expression is new, over variables that are not basic -/
  | newVarL {t t' Fs l x} : l.Canon → (∀ w ∈ keys l.vars, t.row w = none) → t.newVarL (decide (t.layers = [])) l = .ok (t', x) → Call E (t, Fs) (t', Fs)
  /-- a relational constructor creates an assertion on an existing variable, with a fresh literal -/
  | assertion {t Fs a} : t.vas a.b = none → a.x < t.n → Call E (t, Fs) (t.addAsrt a, Fs)
  /-- the core propagates a literal of an assertion, and the theory finds no inconsistency -/
  | lit {t t' F Fs val p a} : t.vas p.var = some a → Coh val → val p = some true → (t.propagate E val p).Final t' none →
      Call E (t, F :: Fs) (t', (a.bf p.sign :: F) :: Fs)
  /-- the core propagates a literal of an assertion, and the theory reports a conflict -/
  | refused {t t' F Fs val p a cl} : t.vas p.var = some a → Coh val → val p = some true → (t.propagate E val p).Final t' (some cl) → Call E (t, F :: Fs) (t', F :: Fs)
  /-- `set_lb` on an existing variable with a true literal succeeds -/
  | setLb {t t' F Fs val x v p} : x < t.n → Coh val → val p = some true → (t.setLb E val x v p).Final t' none → Call E (t, F :: Fs) (t', (.lo x v :: F) :: Fs)
  | setLbNo {t t' F Fs val x v p cl} : x < t.n → Coh val → val p = some true → (t.setLb E val x v p).Final t' (some cl) → Call E (t, F :: Fs) (t', F :: Fs)
  /-- `set_ub` -/
  | setUb {t t' F Fs val x v p} : x < t.n → Coh val → val p = some true → (t.setUb E val x v p).Final t' none → Call E (t, F :: Fs) (t', (.hi x v :: F) :: Fs)
  | setUbNo {t t' F Fs val x v p cl} : x < t.n → Coh val → val p = some true → (t.setUb E val x v p).Final t' (some cl) → Call E (t, F :: Fs) (t', F :: Fs)
  /-- `check`, whatever its answer -/
  | check {t t' Fs r} : t.check E = .ok (t', r) → Call E (t, Fs) (t', Fs)
  /-- a value listener is registered -/
  | listen {t t' Fs v l} : t.listen v l = .ok t' → Call E (t, Fs) (t', Fs)
  | push {t Fs} : Call E (t, Fs) (t.push, [] :: Fs)
  | pop {t t' F Fs} : Fs ≠ [] → t.pop = .ok t' → Call E (t, F :: Fs) (t', Fs)

/-- The state `t` with the asserted bounds `Fs` is reachable from a fresh theory. -/
inductive Hist (E : LEnv) : LRA × List (List BF) → Prop
  | init : Hist E (init, [[]])
  | call {x y} : Hist E x → Call E x y → Hist E y

/-- Sequences of calls. -/
inductive Calls (E : LEnv) : LRA × List (List BF) → LRA × List (List BF) → Prop
  | refl {x} : Calls E x x
  | call {x y z} : Calls E x y → Call E y z → Calls E x z

/-- Calls that never return below a stack of `n` levels. -/
inductive Within (E : LEnv) (n : Nat) : LRA × List (List BF) → LRA × List (List BF) → Prop
  | refl {x} : n ≤ x.2.length → Within E n x x
  | call {x y z} : Within E n x y → Call E y z → n ≤ z.2.length → Within E n x z

/-! ### The invariant -/

/-- No requirement on the reasons. -/
abbrev Any : Nat → Lit → Prop := fun _ _ => True

/-- Expressions, assertions and known terms. -/
structure Exp (t : LRA) : Prop where
  ex : ∀ l x, (l, x) ∈ t.exprs → x < t.n ∧ ∀ X, Defs t.defs X → X x = l.eval IQ.one X
  sa : ∀ le x v q, ((le, x, v), q) ∈ t.sas → q.sign = true ∧ t.vas q.var = some ⟨le, q.var, x, v⟩
  kk : (∀ d ∈ t.defs, d.2.kt = 0) → K0 t

variable {E : LEnv} {t t' : LRA} {A A' : Nat → Lit → Prop} {Fs : List (List BF)} {F : List BF}

theorem Exp.congr (h : Exp t) (hn : t'.n = t.n) (he : t'.exprs = t.exprs) (hd : t'.defs = t.defs) (hs : t'.sas = t.sas) (hv : t'.vas = t.vas) (hk : K0 t → K0 t') : Exp t' :=
  ⟨by rw [hn, he, hd]; exact h.ex, by rw [hs, hv]; exact h.sa, by rw [hd]; exact fun hd => hk (h.kk hd)⟩

theorem Exp.same (h : Exp t) (hs : Same t t') : Exp t' := h.congr hs.n hs.exprs hs.defs hs.sas hs.vas (fun hk v l hl => hk v l (by rw [← hs.row]; exact hl))

theorem Exp.psame (h : Exp t) (hs : PSame t t') (hk : K0 t → K0 t') : Exp t' := h.congr hs.n hs.exprs hs.defs hs.sas hs.vas hk

theorem Exp.init : Exp init := by
  refine ⟨fun _ _ h => ?_, fun _ _ _ _ h => ?_, fun _ _ _ h => ?_⟩ <;> cases h

theorem eval_ofVar (v : Nat) (X : Nat → IQ) : (Lin.ofVar v 1).eval IQ.one X = X v := by
  simp [Lin.ofVar, Lin.eval]

theorem Exp.newVar (h : Exp t) (hg : Good t A Fs) : Exp t.newVar.1 := by
  rw [newVar_eq hg]
  refine ⟨fun l x hx => ?_, h.sa, h.kk⟩
  rcases List.mem_cons.mp hx with hx | hx
  · cases hx
    exact ⟨Nat.lt_succ_self _, fun X _ => (eval_ofVar _ X).symm⟩
  · exact ⟨Nat.lt_succ_of_lt (h.ex l x hx).1, (h.ex l x hx).2⟩

theorem Exp.defVar (h : Exp t) (hg : Good t A Fs) (l : Lin) : Exp (t.defVar l) := by
  refine ⟨fun l' x hx => ?_, h.sa, fun hd v l' hl => ?_⟩
  · rcases List.mem_cons.mp hx with hx | hx
    · cases hx
      exact ⟨Nat.lt_succ_self _, fun X hX => hX (t.n, l) List.mem_cons_self⟩
    · rcases List.mem_cons.mp hx with hx | hx
      · cases hx
        exact ⟨Nat.lt_succ_self _, fun X _ => (eval_ofVar _ X).symm⟩
      · exact ⟨Nat.lt_succ_of_lt (h.ex l' x hx).1, fun X hX => (h.ex l' x hx).2 X (fun d hd => hX d (List.mem_cons_of_mem _ hd))⟩
  · have hl : upd t.row t.n (some l) v = some l' := hl
    by_cases e : v = t.n
    · subst e; rw [upd_self] at hl; cases hl
      exact hd (t.n, l) List.mem_cons_self
    · rw [upd_ne _ _ e] at hl
      exact h.kk (fun d hd' => hd d (List.mem_cons_of_mem _ hd')) v l' hl

theorem Exp.addAsrt (h : Exp t) {a : Asrt} (hf : t.vas a.b = none) : Exp (t.addAsrt a) := by
  refine ⟨h.ex, fun le x v q hq => ?_, h.kk⟩
  show q.sign = true ∧ upd t.vas a.b (some a) q.var = some ⟨le, q.var, x, v⟩
  rcases List.mem_cons.mp hq with hq | hq
  · cases hq
    exact ⟨rfl, by rw [upd_self]⟩
  · obtain ⟨h1, h2⟩ := h.sa le x v q hq
    refine ⟨h1, ?_⟩
    have : q.var ≠ a.b := fun e => by rw [e, hf] at h2; cases h2
    rw [upd_ne _ _ this]; exact h2

theorem emit_final : ∀ (js : List (Lit × List Lit)) (val : Lit → Option Bool) {t' : LRA} {r : Option (List Lit)}, (emit t js val).Final t' r → t' = t
  | [], _, _, _, h => by unfold emit at h; cases h; rfl
  | (q, L) :: js, val, _, _, h => by
    unfold emit at h
    split at h
    · cases h; rfl
    · cases h with
      | record h => exact emit_final js _ h
    · exact emit_final js _ h

theorem assertLower_final (h : Good t A (F :: Fs)) {val : Lit → Option Bool} {x : Nat} {v : IQ} {p : Lit} (hx : x < t.n) (hp : A t.layers.length p) (hv : val p ≠ none)
    (hj : ∀ α X, Mod t α X → α.sat p → v ≤ X x) {r : Option (List Lit)} (hf : (t.assertLower E val x v p).Final t' r) :
    Same t t' ∧ (r = none → Good t' A ((.lo x v :: F) :: Fs)) ∧ Good t' A (F :: Fs) := by
  rcases assertLower_cases E h hx hp hv hj with ⟨e, h1⟩ | ⟨e, h1⟩ | ⟨t1, J, hg, hs, h1, h2, hJ, e⟩
  · rw [e] at hf; cases hf
    exact ⟨Same.refl t, fun _ => h.enforced_add h1, h⟩
  · rw [e] at hf; cases hf
    exact ⟨Same.refl t, fun h => (by cases h), h⟩
  · rw [e] at hf
    rw [emit_final _ _ hf]
    exact ⟨hs, fun _ => hg, hg.forget⟩

theorem assertUpper_final (h : Good t A (F :: Fs)) {val : Lit → Option Bool} {x : Nat} {v : IQ} {p : Lit} (hx : x < t.n) (hp : A t.layers.length p) (hv : val p ≠ none)
    (hj : ∀ α X, Mod t α X → α.sat p → X x ≤ v) {r : Option (List Lit)} (hf : (t.assertUpper E val x v p).Final t' r) :
    Same t t' ∧ (r = none → Good t' A ((.hi x v :: F) :: Fs)) ∧ Good t' A (F :: Fs) := by
  rcases assertUpper_cases E h hx hp hv hj with ⟨e, h1⟩ | ⟨e, h1⟩ | ⟨t1, J, hg, hs, h1, h2, hJ, e⟩
  · rw [e] at hf; cases hf
    exact ⟨Same.refl t, fun _ => h.enforced_add h1, h⟩
  · rw [e] at hf; cases hf
    exact ⟨Same.refl t, fun h => (by cases h), h⟩
  · rw [e] at hf
    rw [emit_final _ _ hf]
    exact ⟨hs, fun _ => hg, hg.forget⟩

/-- The bound that a propagated literal asserts. -/
theorem propagate_eq {val : Lit → Option Bool} {p : Lit} {a : Asrt} (h : Good t A Fs) (ha : t.vas p.var = some a) (hc : Coh val) (hp : val p = some true) :
    a.x < t.n ∧ (∀ α X, Mod t α X → α.sat p → (a.bf p.sign).holds X) ∧
    t.propagate E val p = match a.bf p.sign with
      | .lo x v => t.assertLower E val x v p
      | .hi x v => t.assertUpper E val x v p := by
  obtain ⟨hb, hx⟩ := h.tab.regs _ _ ha
  refine ⟨hx, fun α X hm hs => ?_, ?_⟩
  · have := hm.asrt _ _ ha
    have hs : α p.var = p.sign := hs
    rw [hs] at this
    exact (bf_holds a p.sign X).mpr this
  · unfold propagate
    rw [ha]
    simp only
    obtain ⟨pv, ps⟩ := p
    simp only at hb
    subst hb
    cases ps with
    | true =>
      rw [hp]
      cases hle : a.le <;> simp [Asrt.bf, hle]
    | false =>
      have hv' : val ⟨a.b, true⟩ = some false := by
        have := hc ⟨a.b, false⟩
        rw [hp] at this
        exact this
      rw [hv']
      cases hle : a.le <;> simp [Asrt.bf, hle]

theorem propagate_final (h : Good t Any (F :: Fs)) {val : Lit → Option Bool} {p : Lit} {a : Asrt} (ha : t.vas p.var = some a) (hc : Coh val) (hp : val p = some true)
    {r : Option (List Lit)} (hf : (t.propagate E val p).Final t' r) :
    Same t t' ∧ (r = none → Good t' Any ((a.bf p.sign :: F) :: Fs)) ∧ Good t' Any (F :: Fs) := by
  obtain ⟨hx, hm, e⟩ := propagate_eq (E := E) h ha hc hp
  rw [e] at hf
  have hxx : ∀ x v, a.bf p.sign = .lo x v ∨ a.bf p.sign = .hi x v → x = a.x := by
    intro x v
    unfold Asrt.bf
    cases a.le <;> cases p.sign <;> simp <;> (intros; simp_all)
  have hpn : val p ≠ none := by rw [hp]; simp
  cases hbf : a.bf p.sign with
  | lo x v =>
    rw [hbf] at hf hm
    have ex := hxx x v (Or.inl hbf)
    exact assertLower_final h (by rw [ex]; exact hx) trivial hpn hm hf
  | hi x v =>
    rw [hbf] at hf hm
    have ex := hxx x v (Or.inr hbf)
    exact assertUpper_final h (by rw [ex]; exact hx) trivial hpn hm hf

theorem setLb_final (h : Good t Any (F :: Fs)) {val : Lit → Option Bool} {x : Nat} {v : IQ} {p : Lit} (hx : x < t.n) (hp : val p = some true)
    {r : Option (List Lit)} (hf : (t.setLb E val x v p).Final t' r) :
    Same { t with facts := .lo p x v :: t.facts } t' ∧ (r = none → Good t' Any ((.lo x v :: F) :: Fs)) ∧ Good t' Any (F :: Fs) :=
  assertLower_final (h.fact (f := .lo p x v)) hx trivial (by rw [hp]; simp) (fun _ _ hm hs => WithBot.coe_le_coe.mp (hm.fact (.lo p x v) List.mem_cons_self hs)) hf

theorem setUb_final (h : Good t Any (F :: Fs)) {val : Lit → Option Bool} {x : Nat} {v : IQ} {p : Lit} (hx : x < t.n) (hp : val p = some true)
    {r : Option (List Lit)} (hf : (t.setUb E val x v p).Final t' r) :
    Same { t with facts := .hi p x v :: t.facts } t' ∧ (r = none → Good t' Any ((.hi x v :: F) :: Fs)) ∧ Good t' Any (F :: Fs) :=
  assertUpper_final (h.fact (f := .hi p x v)) hx trivial (by rw [hp]; simp) (fun _ _ hm hs => WithTop.coe_le_coe.mp (hm.fact (.hi p x v) List.mem_cons_self hs)) hf

theorem Exp.fact {f : Fact} (h : Exp t) : Exp { t with facts := f :: t.facts } := ⟨h.ex, h.sa, h.kk⟩

/-- The invariant of the reachable states. -/
structure HInv (x : LRA × List (List BF)) : Prop where
  good : Good x.1 Any x.2
  exp : Exp x.1

theorem Call.inv {x y : LRA × List (List BF)} (h : Call E x y) (hi : HInv x) : HInv y := by
  obtain ⟨hg, he⟩ := hi
  cases h with
  | newVar => exact ⟨hg.newVar, he.newVar hg⟩
  | newVarL hc hb hn =>
    rcases newVarL_cases hg hn with ⟨e, _⟩ | ⟨_, _, hr, hv, e, _⟩
    · subst e; exact ⟨hg, he⟩
    · subst e
      refine ⟨hg.defVar (by simpa using hr) trivial hc (fun w hw => ⟨?_, hb w hw⟩), he.defVar hg _⟩
      obtain ⟨y, hy, e⟩ := List.mem_map.mp hw
      exact e ▸ hv y hy
  | assertion hf hx => exact ⟨hg.addAsrt hf hx, he.addAsrt hf⟩
  | lit ha hc hp hf =>
    obtain ⟨h1, h2, h3⟩ := propagate_final hg ha hc hp hf
    exact ⟨h2 rfl, he.same h1⟩
  | refused ha hc hp hf =>
    obtain ⟨h1, h2, h3⟩ := propagate_final hg ha hc hp hf
    exact ⟨h3, he.same h1⟩
  | setLb hx _ hp hf =>
    obtain ⟨h1, h2, h3⟩ := setLb_final hg hx hp hf
    exact ⟨h2 rfl, he.fact.same h1⟩
  | setLbNo hx _ hp hf =>
    obtain ⟨h1, h2, h3⟩ := setLb_final hg hx hp hf
    exact ⟨h3, he.fact.same h1⟩
  | setUb hx _ hp hf =>
    obtain ⟨h1, h2, h3⟩ := setUb_final hg hx hp hf
    exact ⟨h2 rfl, he.fact.same h1⟩
  | setUbNo hx _ hp hf =>
    obtain ⟨h1, h2, h3⟩ := setUb_final hg hx hp hf
    exact ⟨h3, he.fact.same h1⟩
  | check hc =>
    obtain ⟨t1, r1, e, h1⟩ := check_total E hg
    rw [hc] at e
    injection e with e; injection e with e1 e2
    subst e1 e2
    exact ⟨h1.good, he.psame h1.same h1.k0⟩
  | listen hl =>
    obtain ⟨f, e⟩ := listen_eq hl
    subst e
    exact ⟨hg.lst, ⟨he.ex, he.sa, he.kk⟩⟩
  | push => exact ⟨hg.push (fun _ h => h), ⟨he.ex, he.sa, he.kk⟩⟩
  | pop hne hp =>
    refine ⟨hg.pop hp, ?_⟩
    obtain ⟨L, Ls, hl, e⟩ := pop_cases hp
    subst e
    exact ⟨he.ex, he.sa, he.kk⟩

theorem Hist.inv {x : LRA × List (List BF)} (h : Hist E x) : HInv x := by
  induction h with
  | init => exact ⟨Good.init trivial, Exp.init⟩
  | call _ h ih => exact h.inv ih

theorem Calls.inv {x y : LRA × List (List BF)} (h : Calls E x y) (hi : HInv x) : HInv y := by
  induction h with
  | refl => exact hi
  | call _ h ih => exact h.inv ih

end LRA
end Semitone
