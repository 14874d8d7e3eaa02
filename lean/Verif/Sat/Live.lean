import Verif.Sat.Total

/-!
# Theories that keep the propagation loop going: it terminates, never fails, and ends in a state the theories accept

`Contract` says what a theory must do for the answers of the core to be right; `Live` says what it must do for the core not to fail.
-/
namespace Semitone

/-- What the core needs from the behaviour of a theory told that `p` is true, at decision level `n` with `nv` variables. `A i` are the literals made true at
levels `≤ i`, `P` the literals still to be told. A recorded clause has an unassigned first literal, the others are false, `p.neg` is
among them, and only literals false at root level are repeated; a conflict contains `p.neg` and another literal. `F` are the failures that are permitted (see
`Err.excluded`). -/
inductive ActLive {T : Type} (F : Err → Prop) (Q : T → (Nat → Lit → Prop) → (Lit → Prop) → Prop) (R : T → (Nat → Lit → Prop) → Prop) (n nv : Nat) (p : Lit) :
    (Nat → Lit → Prop) → (Lit → Prop) → (Lit → Option Bool) → TAct T → Prop
  | ok {A P val t} : Q t A P → ActLive F Q R n nv p A P val (.ok t)
  | confl {A P val t cl} : R t A → p.neg ∈ cl → 2 ≤ cl.length → ActLive F Q R n nv p A P val (.confl t cl)
  | fail {A P val e} : F e → ActLive F Q R n nv p A P val (.fail e)
  | record {A P val l0 rest k} : val l0 = none → l0.var < nv → (∀ q ∈ rest, val q = some false) → p.neg ∈ rest →
      rest.Pairwise (fun a b => a = b → A 0 a.neg) →
      (∀ A' P' v, (∀ i q, i ≤ n → A i q → A' i q) → (∀ i q, i < n → A' i q → A i q) → (∀ q, A' n q → A n q ∨ q = l0) → A' n l0 → (∀ q, P q → P' q) → P' l0 →
        (∀ q, A' n q ↔ v q = some true) → Coh v → ActLive F Q R n nv p A' P' v (k v)) →
      ActLive F Q R n nv p A P val (.record (l0 :: rest) k)

/-- The `check`s of the theories `is`, up to the first conflict: what the core does when nothing is left to propagate (`sat_core.cpp:453-465`), seen from the theories. -/
def checkAll {T : Type} (O : TheoryOps T) : List Nat → T → (Lit → Option Bool) → Except Err (T × Option (List Lit))
  | [], t, _ => .ok (t, none)
  | i :: is, t, val =>
    match O.check i t val with
    | .error e => .error e
    | .ok (t, some cl) => .ok (t, some cl)
    | .ok (t, none) => checkAll O is t val

theorem checkAll_spec {T : Type} {O : TheoryOps T} (C : Contract O) {n : Nat} {A : Nat → Lit → Prop} {val : Lit → Option Bool} (hv : ∀ q, A n q ↔ val q = some true) (hc : Coh val) :
    ∀ (is : List Nat) {t t' : T} {r}, C.TI t n A → checkAll O is t val = .ok (t', r) →
      C.TI t' n A ∧ (∀ α, C.Th t' α ↔ C.Th t α) ∧ (∀ cl, r = some cl → (∀ α, C.Th t α → α.clause cl) ∧ ∀ q ∈ cl, A n q.neg) := by
  intro is
  induction is with
  | nil =>
    intro t t' r hT h
    injection h with h; injection h with h1 h2; subst h1 h2
    exact ⟨hT, fun _ => Iff.rfl, fun _ h => by cases h⟩
  | cons i is ih =>
    intro t t' r hT h
    simp only [checkAll] at h
    match hk : O.check i t val with
    | .error e => simp [hk] at h
    | .ok (t1, some cl) =>
      simp only [hk] at h
      injection h with h; injection h with h1 h2; subst h1 h2
      exact C.check i t n A val _ _ hT hv hc hk
    | .ok (t1, none) =>
      simp only [hk] at h
      obtain ⟨a, b, -⟩ := C.check i t n A val _ _ hT hv hc hk
      obtain ⟨a', b', c'⟩ := ih a h
      refine ⟨a', fun α => (b' α).trans (b α), fun cl hcl => ?_⟩
      obtain ⟨x, y⟩ := c' cl hcl
      exact ⟨fun α hα => x α ((b α).2 hα), y⟩

theorem checkAll_one {T : Type} {O : TheoryOps T} {i : Nat} {t t' : T} {val : Lit → Option Bool} {r} (h : O.check i t val = .ok (t', r)) : checkAll O [i] t val = .ok (t', r) := by
  simp only [checkAll, h]
  cases r <;> rfl

theorem runChecks_all {T : Type} {O : TheoryOps T} (is : List Nat) : ∀ {s : Sat T} {t'} {r}, checkAll O is s.th s.value = .ok (t', r) → Sat.runChecks O is s = .ok ({ s with th := t' }, r) := by
  induction is with
  | nil =>
    intro s t' r h
    injection h with h; injection h with h1 h2; subst h1 h2
    rfl
  | cons i is ih =>
    intro s t' r h
    simp only [checkAll] at h
    simp only [Sat.runChecks]
    match hk : O.check i s.th s.value with
    | .error e => simp [hk] at h
    | .ok (t1, some cl) =>
      simp only [hk] at h
      injection h with h; injection h with h1 h2; subst h1 h2
      rfl
    | .ok (t1, none) =>
      simp only [hk] at h
      exact ih (s := { s with th := t1 }) h

/-- What the core needs from a theory in order not to fail. `LI t nv b n A P`: the theory is in state `t`, there are `nv` propositional variables, `b` are the
theories listening to each of them, `n` is the decision level, `A i` the literals made true at levels `≤ i`, `P` the literals the theory has not been told yet.
`Done t`: what the theory achieves when it finds no conflict. `F`: the failures that are permitted. -/
structure Live {T : Type} {O : TheoryOps T} (C : Contract O) where
  F : Err → Prop
  Done : T → Prop
  LI : T → Nat → (Nat → List Nat) → Nat → (Nat → Lit → Prop) → (Lit → Prop) → Prop
  adv : ∀ {t nv nv' b n A A' P P'}, LI t nv b n A P → nv ≤ nv' → (∀ i q, i ≤ n → A i q → A' i q) → (∀ i q, i < n → A' i q → A i q) →
    (∀ q, A' n q → A n q ∨ P' q) → (∀ q, P q → P' q) → LI t nv' b n A' P'
  pop : ∀ {t nv b n A P}, LI t nv b (n + 1) A P → ∃ t', O.pop t = .ok t' ∧ LI t' nv b n A (fun _ => False)
  push : ∀ {t nv b n A P}, LI t nv b n A P → (∀ q, ¬ P q) → (∀ q, A (n + 1) q ↔ A n q) → LI (O.push t) nv b (n + 1) A (fun _ => False)
  prop : ∀ {t nv b n A P P1 val p}, LI t nv b n A P1 → C.TI t n A → (∀ q, P1 q → P q ∨ q = p) → (∀ q, A n q ↔ val q = some true) → Coh val → val p = some true →
    (b p.var = [] ∧ LI t nv b n A P) ∨
    ∃ i, b p.var = [i] ∧ ActLive F (fun t A P => LI t nv b n A P ∧ (n = 0 → LI t nv (upd b p.var []) n A P)) (fun t A => LI t nv b n A (fun _ => True)) n nv p
      A P val (O.propagate i t val p)
  check : ∀ {t nv b n A P val}, LI t nv b n A P → C.TI t n A → (∀ q, ¬ P q) → (∀ q, A n q ↔ val q = some true) → Coh val →
    ∃ t' r, checkAll O O.ids t val = .ok (t', r) ∧
      (r = none → LI t' nv b n A (fun _ => False) ∧ Done t' ∧ ∃ α, C.Th t' α ∧ ∀ q, A n q → α.sat q) ∧
      (∀ cl, r = some cl → LI t' nv b n A (fun _ => True) ∧ 2 ≤ cl.length)

namespace Sat
variable {T : Type} {O : TheoryOps T} {C : Contract O}

/-- The literals true at levels up to `i` are consistent with the theories. -/
def Cons (C : Contract O) (s : Sat T) (i : Nat) : Prop := ∃ α, C.Th s.th α ∧ ∀ q, s.tru i q → α.sat q

/-- The state of the core is one from which it cannot fail. -/
structure LiveInv (V : Live C) (s : Sat T) : Prop where
  fix : s.Fix s.okQ
  li : V.LI s.th s.nvars s.bounds s.dl s.tru (fun q => q ∈ s.propQ)
  cons : ∀ i, i < s.dl → s.Cons C i

theorem Live.popTh (V : Live C) (k : Nat) : ∀ {t nv b n A P}, V.LI t nv b n A P → k ≤ n →
    ∃ t', popTh O k t = .ok t' ∧ (0 < k → V.LI t' nv b (n - k) A (fun _ => False)) := by
  induction k with
  | zero => intro t nv b n A P h _; exact ⟨t, rfl, fun h => absurd h (Nat.lt_irrefl _)⟩
  | succ k ih =>
    intro t nv b n A P h hk
    obtain ⟨m, rfl⟩ : ∃ m, n = m + 1 := ⟨n - 1, by omega⟩
    obtain ⟨t1, h1, h2⟩ := V.pop h
    obtain ⟨t2, h3, h4⟩ := ih h2 (by omega)
    refine ⟨t2, by simp only [Sat.popTh, h1]; exact h3, fun _ => ?_⟩
    have e : m + 1 - (k + 1) = m - k := by omega
    rw [e]
    cases k with
    | zero =>
      simp only [Sat.popTh] at h3
      injection h3 with h3; subst h3; exact h2
    | succ k => exact h4 (by omega)

/-- Literals true at lower levels stay, when the decision level does not change. -/
theorem Evo.tru_keep {s s' : Sat T} (h : Evo s s') {i : Nat} {q : Lit} (hi : i ≤ s'.dl) (hq : s.tru i q) : s'.tru i q := by
  obtain ⟨a, b⟩ := hq
  have h3 := h.low q.var (by rw [(value_true _ _).1 a]; simp) (by omega)
  exact ⟨by rw [value_true, h3.1]; exact (value_true _ _).1 a, by rw [h3.2.1]; exact b⟩

theorem Evo.tru_low {s s' : Sat T} (h : Evo s s') {i : Nat} {q : Lit} (hi : i < s'.dl) (hq : s'.tru i q) : s.tru i q := by
  obtain ⟨a, b⟩ := hq
  rcases h.new q.var (by rw [(value_true _ _).1 a]; simp) with h3 | h3
  · exact ⟨by rw [value_true, h3.1]; exact (value_true _ _).1 a, by rw [h3.2.1]; exact b⟩
  · omega

theorem Evo.cons {s s' : Sat T} (h : Evo s s') (hth : ∀ α, C.Th s'.th α ↔ C.Th s.th α) (hc : ∀ i, i < s.dl → s.Cons C i) : ∀ i, i < s'.dl → s'.Cons C i := by
  intro i hi
  obtain ⟨α, a, b⟩ := hc i (by have := h.dl; omega)
  exact ⟨α, (hth α).2 a, fun q hq => b q (h.tru_low hi hq)⟩

theorem Fix.toC {s : Sat T} (hw : s.WF noEx) (h : s.Fix s.okQ) : s.Fix s.okC :=
  h.weaken (fun c _ w _ hw' => by
    have := (hw.que _ hw').2
    simpa [okC] using this)

/-- Resolution of a conflict that involves the current level. -/
theorem resolve_live {E : Env} (V : Live C) {s : Sat T} {cl : List Lit} (hw : s.WF noEx) (hS : s.Sem C) (hT : s.TInv C) (hq : s.propQ = []) (hd : 0 < s.dl)
    (hF : s.Fix s.okC) (hL : V.LI s.th s.nvars s.bounds s.dl s.tru (fun _ => True)) (hc : ∀ i, i < s.dl → s.Cons C i)
    (hE : s.Ent C.Th cl) (hf : ∀ q ∈ cl, s.value q = some false) (hl : ∃ q ∈ cl, s.level q.var = s.dl) :
    ∃ s', s.resolveConflict E O cl = .ok s' ∧ s'.WF noEx ∧ s'.Sem C ∧ s'.TInv C ∧ s'.LiveInv V ∧ s'.dl < s.dl ∧ s'.propQ.length = 1 ∧ s'.nvars = s.nvars := by
  obtain ⟨s', h1⟩ := resolve_ok (E := E) C hw hq hd hf hl (fun k hk => by
    obtain ⟨t', h, -⟩ := Live.popTh V k hL hk
    exact ⟨t', h⟩)
  have R := (resolve_spec C hw hq hd True (fun _ => hS) (fun _ => hT) (fun _ => hE) h1).1
  obtain ⟨a, b, c⟩ := R.sem trivial
  obtain ⟨l0, p1, p2, p3, p4⟩ := R.pops
  refine ⟨s', h1, R.wf, a, b, ⟨R.fix hF, ?_, R.evo.cons c hc⟩, R.dl, by rw [p1]; rfl, R.evo.nv⟩
  obtain ⟨t', h2, h3⟩ := Live.popTh V (s.dl - s'.dl) hL (Nat.sub_le _ _)
  rw [p2] at h2
  injection h2 with h2; subst h2
  have h4 := h3 (by have := R.dl; omega)
  have e : s.dl - (s.dl - s'.dl) = s'.dl := by have := R.dl; omega
  rw [e] at h4
  rw [R.bounds]
  refine V.adv h4 (Nat.le_of_eq R.evo.nv.symm) (fun i q hi hq => p4 i q hi hq) (fun i q hi hq => ?_) (fun q hq => ?_) (fun q h => h.elim)
  · rcases p3 i q (by omega) hq with h | h
    · exact h
    · omega
  · rcases p3 _ q (Nat.le_refl _) hq with h | h
    · exact Or.inl h
    · right; rw [p1, h.2]; simp

theorem analyzeAndBackjump_long {E : Env} {s : Sat T} {cl : List Lit} (hw : s.WF noEx) (hl : 2 ≤ cl.length) (hf : ∀ q ∈ cl, s.value q = some false) :
    s.analyzeAndBackjump E O cl = s.resolveConflict E O cl := by
  have hr : s.inRange cl = true := by
    simp only [inRange, List.all_eq_true, decide_eq_true_eq]
    intro q hq
    exact hw.rng _ (by rw [(value_false _ _).1 (hf q hq)]; simp)
  match cl, hl, hr with
  | a :: b :: c, _, hr =>
    simp only [analyzeAndBackjump, hr, if_true]

/-- The theory acts. -/
theorem runAct_live {E : Env} (C : Contract O) {F : Err → Prop} {Q : T → (Nat → Lit → Prop) → (Lit → Prop) → Prop} {R : T → (Nat → Lit → Prop) → Prop} {p : Lit} (act : TAct T) :
    ∀ (s : Sat T), s.WF noEx → s.Fix s.okQ → s.value p = some true → s.level p.var = s.dl →
      ActLive F Q R s.dl s.nvars p s.tru (fun q => q ∈ s.propQ) s.value act →
      (∃ e, F e ∧ runAct E act s = .error e) ∨ ∃ s' r, runAct E act s = .ok (s', r) ∧ s'.Fix s'.okQ ∧ (∃ new, s'.propQ = s.propQ ++ new ∧ s'.trail = new.reverse ++ s.trail) ∧
        (r = none → Q s'.th s'.tru (fun q => q ∈ s'.propQ)) ∧ (∀ cl, r = some cl → R s'.th s'.tru ∧ p.neg ∈ cl ∧ 2 ≤ cl.length) := by
  induction act with
  | ok t =>
    intro s hw hF hp hl h
    cases h with
    | ok h => exact .inr ⟨_, _, rfl, ⟨hF.nd, hF.fx⟩, ⟨[], by simp⟩, fun _ => h, by simp⟩
  | confl t cl =>
    intro s hw hF hp hl h
    cases h with
    | confl h1 h2 h3 =>
      refine .inr ⟨_, _, rfl, ⟨hF.nd, hF.fx⟩, ⟨[], by simp⟩, by simp, ?_⟩
      intro cl' e
      injection e with e; subst e
      exact ⟨h1, h2, h3⟩
  | record cl k ih =>
    intro s hw hF hp hl h
    cases h with
    | @record A P val l0 rest k h1 h2 h3 h4 h5 h6 =>
      have hrng : ∀ l ∈ l0 :: rest, l.var < s.nvars := by
        intro l hl
        rcases List.mem_cons.1 hl with rfl | hl
        · exact h2
        · exact hw.rng _ (by rw [(value_false _ _).1 (h3 l hl)]; simp)
      obtain ⟨s1, hr⟩ := record_ok (E := E) hrng h1 h3 (fun e => by rw [e] at h4; cases h4)
      have hass := record_assigns hr
      obtain ⟨l0', rest', hlits, hv0, hfl, -, hw1, hevo, hdl, hth, hpq, htr, hdead, hbounds, hdec, hv0', -, hfix, -, -⟩ := record_spec C hw hr
      injection hlits with e1 e2
      subst e1 e2
      have hF1 : s1.Fix s1.okQ := by
        refine hfix hF (h5.imp (fun {a b} hab e => ?_)) (Or.inr ⟨p.neg, h4, hl⟩)
        obtain ⟨x, y⟩ := hab e
        exact ⟨by rw [value_neg_true] at x; exact x, Nat.le_zero.1 y⟩
      have hpv : s1.value p = some true := (hevo.tru_keep (i := s1.dl) (Nat.le_refl _) ⟨hp, by omega⟩).1
      have hnew : ∀ q, s1.tru s.dl q → s.tru s.dl q ∨ q = l0 := by
        rintro q ⟨a, b⟩
        have hqa := (value_true _ _).1 a
        rw [hass] at hqa
        by_cases e : q.var = l0.var
        · rw [e, upd_self] at hqa
          injection hqa with hqa
          exact Or.inr (lit_ext e hqa.symm)
        · rw [upd_ne _ _ e] at hqa
          exact Or.inl ((hw.tru_iff q).2 ((value_true _ _).2 hqa))
      have hpl : s1.level p.var = s1.dl := by
        rw [hdl, ← hl]
        exact (hevo.low p.var (by rw [(value_true _ _).1 hp]; simp) (by omega)).2.1
      have key := ih s1.value s1 hw1 hF1 hpv hpl (by
        rw [hevo.nv, hdl]
        refine h6 _ _ _ (fun i q hi hq => hevo.tru_keep (by omega) hq) (fun i q hi hq => hevo.tru_low (by omega) hq) hnew (by rw [← hdl]; exact (hw1.tru_iff l0).mpr hv0') ?_ ?_ ?_ (fun q => value_neg s1 q)
        · intro q hq; rw [hpq]; simp [hq]
        · rw [hpq]; simp
        · intro q; rw [← hdl]; exact hw1.tru_iff q)
      rcases key with ⟨e, he, g⟩ | ⟨s', r, g1, g2, ⟨new, g3, g4⟩, g5, g6⟩
      · exact .inl ⟨e, he, by simp only [runAct, hr]; exact g⟩
      refine .inr ⟨s', r, by simp only [runAct, hr]; exact g1, g2, ⟨l0 :: new, by rw [g3, hpq]; simp, by rw [g4, htr]; simp⟩, g5, g6⟩
  | fail e =>
    intro s _ _ _ _ h
    cases h with
    | fail h => exact .inl ⟨e, h, rfl⟩

/-- The state in which a contradiction was found at root level: the theories can still be undone (their levels are those of the core). -/
def Gone (V : Live C) (s : Sat T) : Prop := s.dead = true ∧ ∃ P, V.LI s.th s.nvars s.bounds s.dl s.tru P

/-- Propagation with live theories terminates, never fails (except for the permitted failures), and a positive answer means that the theories accept the literals assigned. -/
theorem propLoop_gone {E : Env} (V : Live C) (n : Nat) : ∀ (s : Sat T), s.WF noEx → s.Sem C → s.TInv C → s.LiveInv V → s.measure < n →
    (∃ e, V.F e ∧ propLoop E O n s = .error e) ∨ ∃ s' b, propLoop E O n s = .ok (s', b) ∧ (b = true → s'.LiveInv V ∧ s'.Cons C s'.dl ∧ V.Done s'.th) ∧ (b = false → s'.Gone V) := by
  induction n with
  | zero => intro s _ _ _ _ h; omega
  | succ n ih =>
    intro s hw hS hT hI hm
    unfold propLoop
    match hq : s.propQ with
    | p :: q =>
      simp only
      obtain ⟨s1, r, he, hst, hdl, hpv, hpl, hFx, hC, ⟨new, hnew, htr, hasg⟩, hth1, hb1⟩ := visit_stepd C hw hq
      rw [he]
      have hnv : s1.nvars = s.nvars := hst.evo.nv
      obtain ⟨hS1, hT1, hTh1, -⟩ := hst.sem hS hT
      have hc1 := hst.evo.cons hTh1 hI.cons
      have htnew : ∀ x, s1.tru s1.dl x → s.tru s.dl x ∨ x ∈ s1.propQ := by
        rintro x ⟨a, b⟩
        rcases hst.wf.true_cases a with hx | hx
        · rw [htr, List.mem_append, List.mem_reverse] at hx
          rcases hx with hx | hx
          · right; rw [hnew]; simp [hx]
          · left; exact (hw.tru_iff x).2 (hw.trail_true hx)
        · left
          rw [hw.tru_iff]
          rcases hasg x.var (by rw [(value_true _ _).1 a]; simp) with h | ⟨y, hy, e⟩
          · rw [value_true]
            rw [← (hst.evo.low x.var h (by rw [hdl]; exact hw.level_le _)).1]
            exact (value_true _ _).1 a
          · exact absurd e (hx.2 y (by rw [htr]; simp [hy]))
      have hL1 : V.LI s1.th s1.nvars s1.bounds s1.dl s1.tru (fun x => x ∈ s1.propQ ∨ x = p) := by
        have := hI.li
        rw [hth1, hb1, hdl]
        refine V.adv this (Nat.le_of_eq hnv.symm) (fun i x hi hx => hst.evo.tru_keep (by omega) hx) (fun i x hi hx => hst.evo.tru_low (by omega) hx) (fun x hx => ?_) (fun x hx => ?_)
        · rw [← hdl] at hx
          rcases htnew x hx with h | h
          · exact Or.inl h
          · exact Or.inr (Or.inl h)
        · rw [hq] at hx
          rcases List.mem_cons.1 hx with h | h
          · exact Or.inr h
          · left; rw [hnew]; simp [h]
      have hmr : s1.dl * (2 * s1.nvars + 2) ≤ n := by
        rw [hdl, hnv]
        unfold measure at hm; rw [hq] at hm; simp at hm; omega
      match r, hFx, hC with
      | some c, hFx, hC =>
        simp only
        obtain ⟨hcm, hcf, hcp⟩ := hC c rfl
        have hFC := (hFx hI.fix).2 (by simp)
        by_cases hr : ({ s1 with propQ := [] } : Sat T).root = true
        · rw [if_pos hr]
          exact .inr ⟨_, _, rfl, by simp, fun _ => ⟨rfl, _, hL1⟩⟩
        · rw [if_neg hr]
          have hpos : 0 < ({ s1 with propQ := [] } : Sat T).dl := not_root hr
          obtain ⟨s2, h2, hw2, hS2, hT2, hI2, d2, q2, n2⟩ := resolve_live (E := E) V (s := { s1 with propQ := [] }) (cl := s1.db c) hst.wf.clearQ ⟨hS1.cls, hS1.val⟩ hT1 rfl hpos
            ⟨hFC.nd, hFC.fx⟩ (V.adv hL1 (Nat.le_refl _) (fun _ _ _ h => h) (fun _ _ _ h => h) (fun _ h => Or.inl h) (fun _ _ => trivial)) hc1 (hS1.cls c hcm) hcf ⟨p.neg, hcp, hpl⟩
          rw [h2]
          exact ih s2 hw2 hS2 hT2 hI2 (measure_conflict (s := { s1 with propQ := [] }) d2 n2 q2 n hmr)
      | none, hFx, hC =>
        simp only
        have hFQ := (hFx hI.fix).1 rfl
        have hmeas : ∀ {s2 : Sat T} {m : List Lit}, s2.WF noEx → s2.dl = s1.dl → s2.nvars = s1.nvars → s2.propQ = s1.propQ ++ m → s2.trail = m.reverse ++ s1.trail → s2.measure < n := by
          intro s2 m hw2 h1 h2 h3 h4
          unfold measure at hm ⊢
          have := hw2.trail_le
          rw [h1, h2, h3, h4, hnew, htr, hdl, hnv]
          rw [h2, h4, hnv, htr] at this
          rw [hq] at hm
          simp only [List.length_append, List.length_reverse, List.length_cons] at *
          omega
        rcases V.prop (P := fun x => x ∈ s1.propQ) hL1 hT1 (fun _ h => h) hst.wf.tru_iff (fun x => value_neg s1 x) hpv with ⟨hb, hL2⟩ | ⟨i, hb, hA⟩
        · rw [hb]
          simp only [runBinds]
          have e : upd s1.bounds p.var [] = s1.bounds := by
            funext v
            by_cases h : v = p.var
            · rw [h, upd_self, hb]
            · rw [upd_ne _ _ h]
          have e2 : (if s1.root then { s1 with bounds := upd s1.bounds p.var [] } else s1) = s1 := by
            rw [e]; split <;> rfl
          rw [e2]
          exact ih s1 hst.wf hS1 hT1 ⟨hFQ, hL2, hc1⟩ (hmeas (m := []) hst.wf rfl rfl (by simp) (by simp))
        · rw [hb]
          rcases runAct_live (E := E) C _ s1 hst.wf hFQ hpv hpl hA with ⟨e, he, g⟩ | ⟨s2, r, g1, g2, ⟨m, g3, g4⟩, g5, g6⟩
          · exact .inl ⟨e, he, by simp only [runBinds, g]⟩
          have k := runAct_spec (E := E) C True _ s1 s2 r hst.wf (fun _ => ⟨hS1, C.prop i s1.th s1.dl s1.tru s1.value p hT1 hst.wf.tru_iff (fun q => value_neg s1 q) hpv⟩) g1
          obtain ⟨hS2, hT2, hTh2⟩ := k.sem trivial
          have hc2 := k.evo.cons hTh2 hc1
          simp only [runBinds, g1]
          match r, g5, g6, k with
          | some cl, g5, g6, k =>
            simp only
            obtain ⟨hE2, hf2⟩ := k.cl trivial cl rfl
            obtain ⟨hR2, hpm, hlen⟩ := g6 cl rfl
            by_cases hr : ({ s2 with propQ := [] } : Sat T).root = true
            · rw [if_pos hr]
              refine .inr ⟨_, _, rfl, by simp, fun _ => ⟨rfl, fun _ => True, ?_⟩⟩
              have e1 := k.bounds
              have e2 := k.evo.nv
              have e3 := k.dl
              show V.LI s2.th s2.nvars s2.bounds s2.dl s2.tru _
              rw [e1, e2, e3]; exact hR2
            · rw [if_neg hr]
              have hpos : 0 < ({ s2 with propQ := [] } : Sat T).dl := not_root hr
              have hpl2 : s2.level p.neg.var = s2.dl := by
                rw [Lit.neg_var, k.dl, ← hpl]
                exact (k.evo.low p.var (by rw [(value_true _ _).1 hpv]; simp) (by rw [k.dl]; omega)).2.1
              have hFC := g2.toC k.wf
              obtain ⟨s3, h3, hw3, hS3, hT3, hI3, d3, q3, n3⟩ := resolve_live (E := E) V (s := { s2 with propQ := [] }) (cl := cl) k.wf.clearQ ⟨hS2.cls, hS2.val⟩ hT2 rfl hpos
                ⟨hFC.nd, hFC.fx⟩ (by
                  have e1 := k.bounds
                  have e2 := k.evo.nv
                  have e3 := k.dl
                  show V.LI s2.th s2.nvars s2.bounds s2.dl s2.tru _
                  rw [e1, e2, e3]; exact hR2) hc2 hE2 hf2 ⟨p.neg, hpm, hpl2⟩
              rw [analyzeAndBackjump_long k.wf.clearQ hlen hf2, h3]
              simp only
              refine ih s3 hw3 hS3 hT3 hI3 (measure_conflict (s := { s2 with propQ := [] }) d3 n3 q3 n ?_)
              show s2.dl * (2 * s2.nvars + 2) ≤ n
              rw [k.dl, k.evo.nv]; exact hmr
          | none, g5, g6, k =>
            simp only
            obtain ⟨a, b⟩ := g5 rfl
            have hlt : s2.measure < n := hmeas k.wf k.dl k.evo.nv g3 g4
            by_cases hr : s2.root = true
            · rw [if_pos hr]
              refine ih { s2 with bounds := upd s2.bounds p.var [] } (k.wf.congr rfl rfl rfl rfl rfl rfl rfl rfl rfl rfl rfl rfl) ⟨hS2.cls, hS2.val⟩ hT2 ⟨⟨g2.nd, g2.fx⟩, ?_, hc2⟩ hlt
              show V.LI s2.th s2.nvars (upd s2.bounds p.var []) s2.dl s2.tru _
              rw [k.bounds, k.evo.nv, k.dl]
              apply b
              rw [← k.dl]; exact (root_iff s2).1 hr
            · rw [if_neg hr]
              refine ih s2 k.wf hS2 hT2 ⟨g2, ?_, hc2⟩ hlt
              rw [k.bounds, k.evo.nv, k.dl]; exact a
    | [] =>
      simp only
      have hL := hI.li
      obtain ⟨t', r, h1, h2, h3⟩ := V.check hL hT (by rw [hq]; simp) hw.tru_iff (fun q => value_neg s q)
      have hrc : runChecks O O.ids s = .ok ({ s with th := t' }, r) := runChecks_all _ h1
      obtain ⟨k1, k2, k3⟩ := checkAll_spec C hw.tru_iff (fun q => value_neg s q) _ hT h1
      have k := (runChecks_spec C _ s _ r hw hrc).1
      obtain ⟨hS1, hT1, hTh1⟩ := k.sem ⟨hS, hT⟩
      have hc1 : ∀ i, i < ({ s with th := t' } : Sat T).dl → ({ s with th := t' } : Sat T).Cons C i := k.evo.cons hTh1 hI.cons
      rw [hrc]
      match r, h2, h3, k3, k with
      | none, h2, h3, k3, k =>
        simp only
        refine .inr ⟨_, _, rfl, fun _ => ?_, by simp⟩
        obtain ⟨a, c, b⟩ := h2 rfl
        refine ⟨⟨⟨hI.fix.nd, hI.fix.fx⟩, ?_, hc1⟩, b, c⟩
        show V.LI t' s.nvars s.bounds s.dl s.tru (fun q => q ∈ s.propQ)
        exact V.adv a (Nat.le_refl _) (fun _ _ _ h => h) (fun _ _ _ h => h) (fun _ h => Or.inl h) (fun _ h => h.elim)
      | some cl, h2, h3, k3, k =>
        simp only
        obtain ⟨c1, c2⟩ := k3 cl rfl
        obtain ⟨hL1, hlen⟩ := h3 cl rfl
        by_cases hr : ({ s with th := t' } : Sat T).root = true
        · rw [if_pos hr]
          exact .inr ⟨_, _, rfl, by simp, fun _ => ⟨rfl, _, hL1⟩⟩
        · rw [if_neg hr]
          have hpos : 0 < s.dl := not_root (s := { s with th := t' }) hr
          obtain ⟨hE1, hf1⟩ := k.cl ⟨hS, hT⟩ cl rfl
          have hlev : ∃ q ∈ cl, s.level q.var = s.dl := by
            by_contra hx
            push Not at hx
            obtain ⟨α, a, b⟩ := hI.cons (s.dl - 1) (by omega)
            obtain ⟨q, hq', hs⟩ := c1 α a
            have h4 := hx q hq'
            have h5 := hw.level_le q.var
            have := b q.neg ⟨(c2 q hq').1, by rw [Lit.neg_var]; omega⟩
            exact (Asg.sat_neg α q).1 this hs
          have hFC := hI.fix.toC hw
          obtain ⟨s3, g3, hw3, hS3, hT3, hI3, d3, q3, n3⟩ := resolve_live (E := E) V (s := { s with th := t' }) (cl := cl) k.wf hS1 hT1 hq hpos
            ⟨hFC.nd, hFC.fx⟩ hL1 hc1 hE1 hf1 hlev
          rw [analyzeAndBackjump_long k.wf hlen hf1, g3]
          simp only
          refine ih s3 hw3 hS3 hT3 hI3 (measure_conflict (s := { s with th := t' }) d3 n3 q3 n ?_)
          show s.dl * (2 * s.nvars + 2) ≤ n
          unfold measure at hm; omega

theorem propLoop_live {E : Env} (V : Live C) (n : Nat) (s : Sat T) (hw : s.WF noEx) (hS : s.Sem C) (hT : s.TInv C) (hI : s.LiveInv V) (hm : s.measure < n) :
    (∃ e, V.F e ∧ propLoop E O n s = .error e) ∨ ∃ s' b, propLoop E O n s = .ok (s', b) ∧ (b = true → s'.LiveInv V ∧ s'.Cons C s'.dl ∧ V.Done s'.th) := by
  rcases propLoop_gone (E := E) V n s hw hS hT hI hm with h | ⟨s', b, h1, h2, -⟩
  · exact .inl h
  · exact .inr ⟨s', b, h1, h2⟩

end Sat
end Semitone
