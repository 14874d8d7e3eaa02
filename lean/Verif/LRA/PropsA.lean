import Verif.LRA.Hist

/-!
# Linear arithmetic: C38, C39, C40, C41, C42, C43

The histories are those of `LRA/Hist.lean`: `new_var(l)` is called on expressions over variables that are not basic (all the other calls are unrestricted). What goes wrong
otherwise is shown in `LRA/Witness.lean`.
-/
namespace Semitone
namespace LRA
open Lin
variable {E : LEnv} {t t' : LRA} {Fs : List (List BF)} {F : List BF}

theorem HInv.defs {x : LRA × List (List BF)} (h : HInv x) : Defs x.1.defs x.1.vals := (h.good.tab.equiv _).mp h.good.tab.rows

theorem Call.exprs {x y : LRA × List (List BF)} (h : Call E x y) (hi : HInv x) : ∀ e ∈ x.1.exprs, e ∈ y.1.exprs := by
  obtain ⟨hg, he⟩ := hi
  cases h with
  | newVar => intro e h; rw [newVar_eq hg]; exact List.mem_cons_of_mem _ h
  | newVarL hc hb hn =>
    intro e h
    rcases newVarL_cases hg hn with ⟨e', _⟩ | ⟨_, _, hr, hv, e', _⟩
    · subst e'; exact h
    · subst e'; exact List.mem_cons_of_mem _ (List.mem_cons_of_mem _ h)
  | assertion hf hx => exact fun _ h => h
  | lit ha hc hp hf => intro e h; rw [(propagate_final hg ha hc hp hf).1.exprs]; exact h
  | refused ha hc hp hf => intro e h; rw [(propagate_final hg ha hc hp hf).1.exprs]; exact h
  | setLb hx _ hp hf => intro e h; rw [(setLb_final hg hx hp hf).1.exprs]; exact h
  | setLbNo hx _ hp hf => intro e h; rw [(setLb_final hg hx hp hf).1.exprs]; exact h
  | setUb hx _ hp hf => intro e h; rw [(setUb_final hg hx hp hf).1.exprs]; exact h
  | setUbNo hx _ hp hf => intro e h; rw [(setUb_final hg hx hp hf).1.exprs]; exact h
  | check hc =>
    obtain ⟨t1, r1, e, h1⟩ := check_total E hg
    rw [hc] at e
    injection e with e; injection e with e1 e2
    subst e1 e2
    intro e h; rw [h1.same.exprs]; exact h
  | listen hl =>
    obtain ⟨f, e⟩ := listen_eq hl
    subst e
    exact fun _ h => h
  | push => exact fun _ h => h
  | pop hne hp =>
    obtain ⟨L, Ls, hl, e⟩ := pop_cases hp
    subst e
    exact fun _ h => h

theorem Calls.exprs {x y : LRA × List (List BF)} (h : Calls E x y) (hi : HInv x) : HInv y ∧ ∀ e ∈ x.1.exprs, e ∈ y.1.exprs := by
  induction h with
  | refl => exact ⟨hi, fun _ h => h⟩
  | call _ h ih => exact ⟨h.inv ih.1, fun e he => h.exprs ih.1 e (ih.2 e he)⟩

theorem lookup_mem' {α β : Type} [BEq α] [LawfulBEq α] {l : List (α × β)} {a : α} {b : β} (h : l.lookup a = some b) : (a, b) ∈ l := by
  induction l with
  | nil => simp at h
  | cons x l ih =>
    obtain ⟨a', b'⟩ := x
    rw [List.lookup_cons] at h
    split at h
    · next e => rw [beq_iff_eq] at e; cases h; subst e; exact List.mem_cons_self
    · exact List.mem_cons_of_mem _ (ih h)

/-- C38 (partial): after `s = new_var(l)`, whatever calls follow, `value(s) = value(l)`. Missing: expressions `l` with basic variables, for which the code is wrong
(`C38_witness`). -/
theorem C38_values_satisfy_definitions_partial (h : Hist E (t, Fs)) {l : Lin} {s : Nat} (hc : l.Canon) (hb : ∀ w ∈ keys l.vars, t.row w = none)
    (hn : t.newVarL (decide (t.layers = [])) l = .ok (t', s)) {t'' : LRA} {Fs' : List (List BF)} (hl : Calls E (t', Fs) (t'', Fs')) : t''.vals s = t''.valL l := by
  have hi' := (Call.newVarL (E := E) (Fs := Fs) hc hb hn).inv h.inv
  have hmem : (l, s) ∈ t'.exprs := by
    rcases newVarL_cases h.inv.good hn with ⟨e, e2⟩ | ⟨_, _, _, _, e, e2⟩
    · subst e; exact lookup_mem' e2
    · subst e e2; exact List.mem_cons_self
  obtain ⟨hi, hm⟩ := hl.exprs hi'
  rw [valL_eq]
  exact (hi.exp.ex l s (hm _ hmem)).2 _ hi.defs

/-- C39 (partial, see C38): when `check` succeeds every value is within the bounds, every definition holds, and every bound asserted holds. -/
theorem C39_check_gives_solution_partial (h : Hist E (t, Fs)) (hc : t.check E = .ok (t', none)) :
    (∀ v, v < t'.n → t'.lo v ≤ ((t'.vals v : IQ) : WithBot IQ) ∧ ((t'.vals v : IQ) : WithTop IQ) ≤ t'.hi v) ∧
    t'.n = t.n ∧ t'.lo = t.lo ∧ t'.hi = t.hi ∧
    (∀ d ∈ t.defs, t'.vals d.1 = t'.valL d.2) ∧ ∀ f ∈ Fs.flatten, f.holds t'.vals := by
  obtain ⟨t1, r1, e, h1⟩ := check_total E h.inv.good
  rw [hc] at e
  injection e with e; injection e with e1 e2
  subst e1 e2
  have hin : ∀ v, v < t'.n → InB (t'.lo v) (t'.hi v) (t'.vals v) := by
    intro v hv
    by_cases hr : (t'.row v).isSome
    · exact h1.sol rfl v hr
    · exact h1.good.inb v hv (by simpa using hr)
  refine ⟨hin, h1.same.n, h1.same.lo, h1.same.hi, fun d hd => ?_, fun f hf => ?_⟩
  · rw [valL_eq]
    have := (h1.good.tab.equiv _).mp h1.good.tab.rows
    rw [h1.same.defs] at this
    exact this d hd
  · refine BF.ok_holds (h1.good.lev.enforced f hf) (fun v => ?_)
    by_cases hv : v < t'.n
    · exact hin v hv
    · have ho := h1.good.bok.out v (Nat.not_lt.mp hv)
      rw [ho.1, ho.2.1]
      exact ⟨bot_le, le_top⟩

/-- C40 (partial, see C38): when `check` fails, the conflict clause is made of negated reasons of current bounds and no compatible assignment and valuation
falsifies it. -/
theorem C40_check_conflict_partial (h : Hist E (t, Fs)) {cl : List Lit} (hc : t.check E = .ok (t', some cl)) :
    Lemma t cl ∧ ∀ q ∈ cl, ∃ v, q = (t.loR v).neg ∨ q = (t.hiR v).neg := by
  obtain ⟨t1, r1, e, h1⟩ := check_total E h.inv.good
  rw [hc] at e
  injection e with e; injection e with e1 e2
  subst e1 e2
  exact h1.lem cl rfl

/-- C41 (partial, see C38): `check` answers, after at most `4 ^ n` pivoting iterations. -/
theorem C41_check_terminates_partial (h : Hist E (t, Fs)) : ∃ t' r, t.check E = .ok (t', r) := by
  obtain ⟨t1, r1, e, _⟩ := check_total E h.inv.good
  exact ⟨t1, r1, e⟩

/-! ### C40, C42: clauses recorded and reported while a bound is asserted -/

theorem emit_emits {V : List Lit → Prop} : ∀ (js : List (Lit × List Lit)) (val : Lit → Option Bool), (∀ j ∈ js, V (j.1 :: j.2)) → ∀ cl, (emit t js val).Emits cl → V cl
  | [], _, _, _, h => by unfold emit at h; cases h
  | (q, L) :: js, val, hj, cl, h => by
    have ih := fun v cl => emit_emits (V := V) js v (fun j hj' => hj j (List.mem_cons_of_mem _ hj')) cl
    unfold emit at h
    split at h
    · cases h; exact hj (q, L) List.mem_cons_self
    · cases h with
      | here => exact hj (q, L) List.mem_cons_self
      | later h => exact ih _ _ h
    · exact ih _ _ h

theorem assertLower_emits {A : Nat → Lit → Prop} (h : Good t A (F :: Fs)) (hk : K0 t) {val : Lit → Option Bool} {x : Nat} {v : IQ} {p : Lit} (hx : x < t.n) (hp : A t.layers.length p)
    (hv : val p ≠ none) (hj : ∀ α X, Mod t α X → α.sat p → v ≤ X x) {cl : List Lit} (hf : (t.assertLower E val x v p).Emits cl) : Lemma t cl := by
  rcases assertLower_cases E h hx hp hv hj with ⟨e, h1⟩ | ⟨e, h1⟩ | ⟨t1, J, hg, hs, h1, h2, hJ, e⟩
  · rw [e] at hf; cases hf
  · rw [e] at hf; cases hf
    intro α X hm
    by_contra hcl
    simp only [Asg.clause, not_exists, not_and] at hcl
    have a1 := hj α X hm (sat_of_neg (hcl _ List.mem_cons_self))
    have a2 : ((X x : IQ) : WithTop IQ) ≤ t.hi x := h.bok.jhi x α X hm (sat_of_neg (hcl (t.hiR x).neg (by simp)))
    have := a2.trans_lt h1
    rw [WithTop.coe_lt_coe] at this
    exact absurd a1 (not_le.mpr this)
  · rw [e] at hf
    obtain ⟨J', hJ1, hJ2⟩ := rowsJobs_ok (f := t1.rowJobsLb x) (E.ord (t1.tw x)) (fun r hr => rowJobsLb_ok hg.tab.wat ((E.perm _).mem_iff.mp hr))
    rw [hJ] at hJ1
    injection hJ1 with hJ1
    subst hJ1
    have hk1 : K0 t1 := fun w l hl => hk w l (by rw [← hs.row]; exact hl)
    refine emit_emits (V := Lemma t) _ _ (fun j hj' α X hm => ?_) cl hf
    have hm1 := (hs.mod α X).mpr hm
    rcases List.mem_append.mp hj' with hj' | hj'
    · exact (unateLo_valid hg h1 j hj').1 hk1 α X hm1
    · obtain ⟨r, hr, K, hK1, hK2⟩ := hJ2 j hj'
      exact (rowJobsLb_valid hg hK1 j hK2).1 hk1 α X hm1

theorem assertUpper_emits {A : Nat → Lit → Prop} (h : Good t A (F :: Fs)) (hk : K0 t) {val : Lit → Option Bool} {x : Nat} {v : IQ} {p : Lit} (hx : x < t.n) (hp : A t.layers.length p)
    (hv : val p ≠ none) (hj : ∀ α X, Mod t α X → α.sat p → X x ≤ v) {cl : List Lit} (hf : (t.assertUpper E val x v p).Emits cl) : Lemma t cl := by
  rcases assertUpper_cases E h hx hp hv hj with ⟨e, h1⟩ | ⟨e, h1⟩ | ⟨t1, J, hg, hs, h1, h2, hJ, e⟩
  · rw [e] at hf; cases hf
  · rw [e] at hf; cases hf
    intro α X hm
    by_contra hcl
    simp only [Asg.clause, not_exists, not_and] at hcl
    have a1 := hj α X hm (sat_of_neg (hcl _ List.mem_cons_self))
    have a2 : t.lo x ≤ ((X x : IQ) : WithBot IQ) := h.bok.jlo x α X hm (sat_of_neg (hcl (t.loR x).neg (by simp)))
    have := h1.trans_le a2
    rw [WithBot.coe_lt_coe] at this
    exact absurd a1 (not_le.mpr this)
  · rw [e] at hf
    obtain ⟨J', hJ1, hJ2⟩ := rowsJobs_ok (f := t1.rowJobsUb x) (E.ord (t1.tw x)) (fun r hr => rowJobsUb_ok hg.tab.wat ((E.perm _).mem_iff.mp hr))
    rw [hJ] at hJ1
    injection hJ1 with hJ1
    subst hJ1
    have hk1 : K0 t1 := fun w l hl => hk w l (by rw [← hs.row]; exact hl)
    refine emit_emits (V := Lemma t) _ _ (fun j hj' α X hm => ?_) cl hf
    have hm1 := (hs.mod α X).mpr hm
    rcases List.mem_append.mp hj' with hj' | hj'
    · exact (unateHi_valid hg h1 j hj').1 hk1 α X hm1
    · obtain ⟨r, hr, K, hK1, hK2⟩ := hJ2 j hj'
      exact (rowJobsUb_valid hg hK1 j hK2).1 hk1 α X hm1

/-- C42 (partial): when the definitions given to `new_var(l)` have no known term, every clause recorded, or reported as a conflict, while the literal of an
assertion is propagated or a bound is set is valid. With known terms the code is wrong (`C42_witness`). -/
theorem C42_propagation_partial (h : Hist E (t, F :: Fs)) (hk : ∀ d ∈ t.defs, d.2.kt = 0) {val : Lit → Option Bool} {p : Lit} (hc : Coh val) (hp : val p = some true) :
    (∀ a, t.vas p.var = some a → ∀ cl, (t.propagate E val p).Emits cl → Lemma t cl) ∧
    (∀ x v, x < t.n → ∀ cl, (t.setLb E val x v p).Emits cl → Lemma { t with facts := .lo p x v :: t.facts } cl) ∧
    (∀ x v, x < t.n → ∀ cl, (t.setUb E val x v p).Emits cl → Lemma { t with facts := .hi p x v :: t.facts } cl) := by
  have hg := h.inv.good
  have hK := h.inv.exp.kk hk
  have hpn : val p ≠ none := by rw [hp]; simp
  refine ⟨fun a ha cl hcl => ?_, fun x v hx cl hcl => ?_, fun x v hx cl hcl => ?_⟩
  · obtain ⟨hx, hm, e⟩ := propagate_eq (E := E) hg ha hc hp
    rw [e] at hcl
    have hxx : ∀ x v, a.bf p.sign = .lo x v ∨ a.bf p.sign = .hi x v → x = a.x := by
      intro x v
      unfold Asrt.bf
      cases a.le <;> cases p.sign <;> simp <;> (intros; simp_all)
    cases hbf : a.bf p.sign with
    | lo x v =>
      rw [hbf] at hcl hm
      exact assertLower_emits hg hK (by rw [hxx x v (Or.inl hbf)]; exact hx) trivial hpn hm hcl
    | hi x v =>
      rw [hbf] at hcl hm
      exact assertUpper_emits hg hK (by rw [hxx x v (Or.inr hbf)]; exact hx) trivial hpn hm hcl
  · exact assertLower_emits (hg.fact (f := .lo p x v)) hK hx trivial hpn (fun _ _ hm hs => WithBot.coe_le_coe.mp (hm.fact (.lo p x v) List.mem_cons_self hs)) hcl
  · exact assertUpper_emits (hg.fact (f := .hi p x v)) hK hx trivial hpn (fun _ _ hm hs => WithTop.coe_le_coe.mp (hm.fact (.hi p x v) List.mem_cons_self hs)) hcl

/-- C40, C42 (partial): the conflict found at once, when the new bound crosses the opposite one, is valid whatever the definitions. -/
theorem C40_crossing_bounds_partial (h : Hist E (t, F :: Fs)) {val : Lit → Option Bool} {p : Lit} (hc : Coh val) (hp : val p = some true) {a : Asrt} (ha : t.vas p.var = some a)
    {cl : List Lit} (hcl : t.propagate E val p = .confl t cl) (hn : match a.bf p.sign with
      | .lo x v => t.hi x < (v : WithTop IQ)
      | .hi x v => (v : WithBot IQ) < t.lo x) : Lemma t cl := by
  have hg := h.inv.good
  obtain ⟨hx, hm, e⟩ := propagate_eq (E := E) hg ha hc hp
  rw [e] at hcl
  have hxx : ∀ x v, a.bf p.sign = .lo x v ∨ a.bf p.sign = .hi x v → x = a.x := by
    intro x v
    unfold Asrt.bf
    cases a.le <;> cases p.sign <;> simp <;> (intros; simp_all)
  have hpn : val p ≠ none := by rw [hp]; simp
  cases hbf : a.bf p.sign with
  | lo x v =>
    rw [hbf] at hcl hm hn
    simp only at hcl hn
    have ex := hxx x v (Or.inl hbf)
    unfold assertLower at hcl
    rw [if_neg hpn, if_neg (not_not.mpr (by rw [ex]; exact hx))] at hcl
    split at hcl
    · cases hcl
    · injection hcl with _ hcl
      subst hcl
      intro α X hM
      by_contra hcl
      simp only [Asg.clause, not_exists, not_and] at hcl
      have a1 : v ≤ X x := hm α X hM (sat_of_neg (hcl _ List.mem_cons_self))
      have a2 : ((X x : IQ) : WithTop IQ) ≤ t.hi x := hg.bok.jhi x α X hM (sat_of_neg (hcl (t.hiR x).neg (by simp)))
      have := a2.trans_lt hn
      rw [WithTop.coe_lt_coe] at this
      exact absurd a1 (not_le.mpr this)
  | hi x v =>
    rw [hbf] at hcl hm hn
    simp only at hcl hn
    have ex := hxx x v (Or.inr hbf)
    unfold assertUpper at hcl
    rw [if_neg hpn, if_neg (not_not.mpr (by rw [ex]; exact hx))] at hcl
    split at hcl
    · cases hcl
    · injection hcl with _ hcl
      subst hcl
      intro α X hM
      by_contra hcl
      simp only [Asg.clause, not_exists, not_and] at hcl
      have a1 : X x ≤ v := hm α X hM (sat_of_neg (hcl _ List.mem_cons_self))
      have a2 : t.lo x ≤ ((X x : IQ) : WithBot IQ) := hg.bok.jlo x α X hM (sat_of_neg (hcl (t.loR x).neg (by simp)))
      have := hn.trans_le a2
      rw [WithBot.coe_lt_coe] at this
      exact absurd a1 (not_le.mpr this)

/-! ### C43 -/

/-- The bounds and reasons of every level, newest first. -/
def stackOf : Bd → List LLayer → List Bd
  | b, [] => [b]
  | b, L :: Ls => b :: stackOf (b.restore L) Ls

/-- The bounds and reasons of every level of the theory. -/
abbrev stack (t : LRA) : List Bd := stackOf t.bd t.layers

theorem setLo_tail (t : LRA) (x : Nat) (v : IQ) (p : Lit) : (t.setLo x v p).stack.tail = t.stack.tail := by
  unfold stack
  cases hl : t.layers with
  | nil =>
    have hl' : (t.setLo x v p).layers = [] := by simp [setLo, hl]
    rw [hl']; rfl
  | cons L Ls =>
    have hl' : (t.setLo x v p).layers = (if (L.lo x).isNone then { L with lo := upd L.lo x (some (t.lo x, t.loR x)) } else L) :: Ls := by simp [setLo, hl]
    rw [hl', setLo_bd]
    simp only [stackOf, List.tail_cons]
    congr 1
    split
    · next e =>
      rw [Option.isNone_iff_eq_none] at e
      unfold Bd.restore
      congr 1
      · funext w
        by_cases hw : w = x
        · subst hw; simp [e, bd]
        · simp [upd_ne _ _ hw, bd]
      · funext w
        by_cases hw : w = x
        · subst hw; simp [e, bd]
        · simp [upd_ne _ _ hw, bd]
    · next e =>
      obtain ⟨y, hy⟩ : ∃ y, L.lo x = some y := by
        cases h' : L.lo x with
        | none => rw [h'] at e; simp at e
        | some y => exact ⟨y, rfl⟩
      unfold Bd.restore
      congr 1
      · funext w
        by_cases hw : w = x
        · subst hw; simp [hy]
        · simp [upd_ne _ _ hw, bd]
      · funext w
        by_cases hw : w = x
        · subst hw; simp [hy]
        · simp [upd_ne _ _ hw, bd]

theorem setHi_tail (t : LRA) (x : Nat) (v : IQ) (p : Lit) : (t.setHi x v p).stack.tail = t.stack.tail := by
  unfold stack
  cases hl : t.layers with
  | nil =>
    have hl' : (t.setHi x v p).layers = [] := by simp [setHi, hl]
    rw [hl']; rfl
  | cons L Ls =>
    have hl' : (t.setHi x v p).layers = (if (L.hi x).isNone then { L with hi := upd L.hi x (some (t.hi x, t.hiR x)) } else L) :: Ls := by simp [setHi, hl]
    rw [hl', setHi_bd]
    simp only [stackOf, List.tail_cons]
    congr 1
    split
    · next e =>
      rw [Option.isNone_iff_eq_none] at e
      unfold Bd.restore
      congr 1
      · funext w
        by_cases hw : w = x
        · subst hw; simp [e, bd]
        · simp [upd_ne _ _ hw, bd]
      · funext w
        by_cases hw : w = x
        · subst hw; simp [e, bd]
        · simp [upd_ne _ _ hw, bd]
    · next e =>
      obtain ⟨y, hy⟩ : ∃ y, L.hi x = some y := by
        cases h' : L.hi x with
        | none => rw [h'] at e; simp at e
        | some y => exact ⟨y, rfl⟩
      unfold Bd.restore
      congr 1
      · funext w
        by_cases hw : w = x
        · subst hw; simp [hy]
        · simp [upd_ne _ _ hw, bd]
      · funext w
        by_cases hw : w = x
        · subst hw; simp [hy]
        · simp [upd_ne _ _ hw, bd]

theorem update_stack {x : Nat} {v : IQ} (h : t.update E x v = .ok t') : t'.stack = t.stack := by
  unfold update at h
  split at h
  · cases h
  · split at h
    · cases h
    · cases h; rfl

theorem assertLower_tail {val : Lit → Option Bool} {x : Nat} {v : IQ} {p : Lit} {r : Option (List Lit)} (h : (t.assertLower E val x v p).Final t' r) :
    t'.stack.tail = t.stack.tail := by
  unfold assertLower at h
  split at h
  · cases h
  · split at h
    · cases h
    · split at h
      · cases h; rfl
      · split at h
        · cases h; rfl
        · simp only at h
          split at h
          · cases h
          · next t1 h1 =>
            split at h
            · cases h
            · rw [emit_final _ _ h, ← setLo_tail t x v p]
              split at h1
              · rw [update_stack h1]
              · cases h1; rfl

theorem assertUpper_tail {val : Lit → Option Bool} {x : Nat} {v : IQ} {p : Lit} {r : Option (List Lit)} (h : (t.assertUpper E val x v p).Final t' r) :
    t'.stack.tail = t.stack.tail := by
  unfold assertUpper at h
  split at h
  · cases h
  · split at h
    · cases h
    · split at h
      · cases h; rfl
      · split at h
        · cases h; rfl
        · simp only at h
          split at h
          · cases h
          · next t1 h1 =>
            split at h
            · cases h
            · rw [emit_final _ _ h, ← setHi_tail t x v p]
              split at h1
              · rw [update_stack h1]
              · cases h1; rfl

theorem setLb_tail {val : Lit → Option Bool} {x : Nat} {v : IQ} {p : Lit} {r : Option (List Lit)} (h : (t.setLb E val x v p).Final t' r) :
    t'.stack.tail = t.stack.tail := by
  exact assertLower_tail (t := { t with facts := .lo p x v :: t.facts }) h

theorem setUb_tail {val : Lit → Option Bool} {x : Nat} {v : IQ} {p : Lit} {r : Option (List Lit)} (h : (t.setUb E val x v p).Final t' r) :
    t'.stack.tail = t.stack.tail := by
  exact assertUpper_tail (t := { t with facts := .hi p x v :: t.facts }) h

theorem propagate_tail {val : Lit → Option Bool} {p : Lit} {r : Option (List Lit)} (h : (t.propagate E val p).Final t' r) : t'.stack.tail = t.stack.tail := by
  unfold propagate at h
  split at h
  · cases h
  · split at h
    · split at h
      · exact assertUpper_tail h
      · exact assertLower_tail h
    · split at h
      · exact assertLower_tail h
      · exact assertUpper_tail h
    · cases h; rfl

theorem stackOf_ne (b : Bd) (Ls : List LLayer) : stackOf b Ls = b :: (stackOf b Ls).tail := by
  cases Ls <;> rfl

theorem stackOf_length : ∀ (b : Bd) (Ls : List LLayer), (stackOf b Ls).length = Ls.length + 1
  | _, [] => rfl
  | b, L :: Ls => by simp [stackOf, stackOf_length]

theorem pop_stack (h : t.pop = .ok t') : t'.stack = t.stack.tail := by
  obtain ⟨L, Ls, hl, e⟩ := pop_cases h
  subst e
  unfold stack
  rw [hl]
  rfl

theorem push_stack (t : LRA) : t.push.stack.tail = t.stack := rfl

theorem HInv.stack_length {x : LRA × List (List BF)} (h : HInv x) : x.1.stack.length = x.2.length := by
  rw [stackOf_length, h.good.lev.length]

/-- Every call but `push` and `pop` changes the newest level only, if there is one besides the root level. -/
theorem Call.stack {x y : LRA × List (List BF)} (h : Call E x y) (hi : HInv x) : y.1.stack.tail = x.1.stack.tail ∨ y.1.stack.tail = x.1.stack ∨ y.1.stack = x.1.stack.tail := by
  obtain ⟨hg, he⟩ := hi
  cases h with
  | newVar => left; rw [newVar_eq hg]; rfl
  | newVarL hc hb hn =>
    left
    rcases newVarL_cases hg hn with ⟨e, _⟩ | ⟨_, _, hr, hv, e, _⟩
    · subst e; rfl
    · subst e
      have hl : _ = [] := of_decide_eq_true hr
      unfold LRA.stack
      have hl' : ∀ l, (LRA.defVar _ l).layers = [] := fun _ => hl
      rw [hl, hl']
      rfl
  | assertion hf hx => left; rfl
  | lit ha hc hp hf => left; exact propagate_tail hf
  | refused ha hc hp hf => left; exact propagate_tail hf
  | setLb hx _ hp hf => left; exact setLb_tail hf
  | setLbNo hx _ hp hf => left; exact setLb_tail hf
  | setUb hx _ hp hf => left; exact setUb_tail hf
  | setUbNo hx _ hp hf => left; exact setUb_tail hf
  | check hc =>
    left
    obtain ⟨t1, r1, e, h1⟩ := check_total E hg
    rw [hc] at e
    injection e with e; injection e with e1 e2
    subst e1 e2
    have hs := h1.same
    have e1 : ∀ a b : LRA, a.lo = b.lo → a.loR = b.loR → a.hi = b.hi → a.hiR = b.hiR → a.layers = b.layers → a.stack = b.stack := by
      intro a b h1 h2 h3 h4 h5
      unfold LRA.stack bd
      rw [h1, h2, h3, h4, h5]
    rw [e1 _ _ hs.lo hs.loR hs.hi hs.hiR hs.layers]
  | listen hl =>
    obtain ⟨f, e⟩ := listen_eq hl
    subst e
    left; rfl
  | push => right; left; rfl
  | pop hne hp => right; right; exact pop_stack hp

/-- Calls above a level keep what is below. -/
theorem Within.stack {n : Nat} {x y : LRA × List (List BF)} (h : Within E n x y) (hi : HInv x) {S : List Bd} (hS : S.length < n) (hx : S <:+ x.1.stack) :
    HInv y ∧ S <:+ y.1.stack ∧ n ≤ y.2.length := by
  induction h with
  | refl hn => exact ⟨hi, hx, hn⟩
  | @call y z hw hc hn ih =>
    obtain ⟨i1, i2, i3⟩ := ih
    have hz := hc.inv i1
    refine ⟨hz, ?_, hn⟩
    have key : ∀ (S T : List Bd), S <:+ T → S.length < T.length → S <:+ T.tail := by
      rintro S T ⟨R, rfl⟩ hlt
      cases R with
      | nil => simp at hlt
      | cons a R => exact ⟨R, rfl⟩
    have hly := i1.stack_length
    rcases hc.stack i1 with h | h | h
    · have h1 := key S _ i2 (by omega)
      rw [← h] at h1
      exact h1.trans (List.tail_suffix _)
    · rw [← h] at i2
      exact i2.trans (List.tail_suffix _)
    · rw [h]
      exact key S _ i2 (by omega)

/-- C43 (partial, see C38): `push`, calls that stay above the level opened (assertions accepted or refused, further levels opened and closed, checks, new
variables and constraints), `pop`: the bounds and their reasons are exactly those from before, at every level, and the state is still consistent with the
definitions and within the bounds of the non-basic variables. -/
theorem C43_pop_restores_partial (h : Hist E (t, Fs)) {u : LRA} {G : List BF} {Gs : List (List BF)} (hw : Within E (Fs.length + 1) (t.push, [] :: Fs) (u, G :: Gs))
    (hl : Gs.length = Fs.length) (hp : u.pop = .ok t') :
    t'.lo = t.lo ∧ t'.loR = t.loR ∧ t'.hi = t.hi ∧ t'.hiR = t.hiR ∧ t'.stack = t.stack ∧
    (∀ d ∈ t'.defs, t'.vals d.1 = t'.valL d.2) ∧ ∀ v, v < t'.n → t'.basic v = false → t'.lo v ≤ ((t'.vals v : IQ) : WithBot IQ) ∧ ((t'.vals v : IQ) : WithTop IQ) ≤ t'.hi v := by
  have hi := h.inv
  have hlen := hi.stack_length
  have hip : HInv (t.push, [] :: Fs) := (Call.push (E := E)).inv hi
  obtain ⟨h1, h2, h3⟩ := hw.stack hip (S := t.stack) (by simp only at hlen; omega) (by rw [← push_stack t]; exact List.tail_suffix _)
  have hs : t'.stack = t.stack := by
    rw [pop_stack hp]
    obtain ⟨R, hR⟩ := h2
    have hlu := h1.stack_length
    simp only [List.length_cons] at hlu hlen
    have hR' : R ++ t.stack = u.stack := hR
    have : R.length = 1 := by
      have := congrArg List.length hR'
      rw [List.length_append] at this
      omega
    obtain ⟨r, rfl⟩ := List.length_eq_one_iff.mp this
    rw [← hR']
    rfl
  have hbd : t'.bd = t.bd := by
    have := hs
    unfold LRA.stack at this
    rw [stackOf_ne, stackOf_ne t.bd] at this
    injection this
  have hg := h1.good.pop hp
  refine ⟨congrArg Bd.lo hbd, congrArg Bd.loR hbd, congrArg Bd.hi hbd, congrArg Bd.hiR hbd, hs, fun d hd => ?_, fun v hv hb => hg.inb v hv (by simpa [basic] using hb)⟩
  rw [valL_eq]
  exact (hg.tab.equiv _).mp hg.tab.rows d hd

end LRA
end Semitone
