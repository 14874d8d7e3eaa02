import Verif.LRA.Reach

/-!
# Linear arithmetic inside the core: C44, C48

Solutions of the network: `Model` (`LRA/Sys.lean`). Histories: `AReach` (`LRA/Reach.lean`).
-/
namespace Semitone
namespace LRA
open Lin
variable {E : Env} {L : LEnv} {s s' : Sat LRA} {U : List Fact}

/-- The constants are returned only when the current bounds and the definitions decide the relation. -/
theorem newRel_const (h : SInv L Z s U) {R : Rel4} {l r : Lin} {p : Lit} (hl : l.Canon) (hr : r.Canon) (hvl : ∀ w ∈ keys l.vars, w < s.th.n)
    (hvr : ∀ w ∈ keys r.vars, w < s.th.n) (hn : newRel R s l r = .ok (s', p)) {x : Nat → ℚ} (hd : ∀ d ∈ s.th.defs, x d.1 = d.2.eval 1 x)
    (hb : ∀ v, v < s.th.n → InB (s.th.lo v) (s.th.hi v) (IQ.ofQ (x v))) :
    (p = TRUE_lit → R.holds (l.eval 1 x) (r.eval 1 x)) ∧ (p = FALSE_lit → ¬ R.holds (l.eval 1 x) (r.eval 1 x)) := by
  obtain ⟨Fs, hg⟩ := h.ti.good
  obtain ⟨hc, hk, he⟩ := diffExpr_spec hg hl hr hvl hvr
  unfold newRel at hn
  simp only at hn
  generalize s.th.diffExpr l r = e at hc hk he hn
  have hD : Defs s.th.defs (rat x) := fun d hd' => by rw [eval_rat, ← hd d hd']; rfl
  have hz : l.eval 1 x - r.eval 1 x = (⟨e.vars, 0⟩ : Lin).eval 1 x + e.kt := by
    have h1 := he _ hD
    rw [eval_rat, eval_rat, eval_rat] at h1
    have h2 : e.eval 1 x = l.eval 1 x - r.eval 1 x := congrArg (fun a : IQ => (ofLex a).1) h1
    rw [← h2]
    simp [Lin.eval]
  have hR : R.holds ((⟨e.vars, 0⟩ : Lin).eval 1 x) (-e.kt) ↔ R.holds (l.eval 1 x) (r.eval 1 x) := by
    cases R <;> simp only [Rel4.holds] <;> constructor <;> intro <;> linarith
  have hB : InB (s.th.lbL ⟨e.vars, 0⟩) (s.th.ubL ⟨e.vars, 0⟩) (IQ.ofQ ((⟨e.vars, 0⟩ : Lin).eval 1 x)) := by
    rw [← eval_rat]
    exact inB_lin (fun v hv => hb v (hk v hv).1)
  have htf : TRUE_lit ≠ FALSE_lit := by decide
  rw [← hR]
  split at hn
  · cases hn
  · split at hn
    · next ht =>
      injection hn with hn; injection hn with e1 e2; subst e1 e2
      exact ⟨fun _ => (test_sound ht hB).mp rfl, fun e => absurd e htf⟩
    · next ht =>
      injection hn with hn; injection hn with e1 e2; subst e1 e2
      exact ⟨fun e => absurd e.symm htf, fun _ hh => by have := (test_sound ht hB).mpr hh; cases this⟩
    · next ht0 =>
      split at hn
      · cases hn
      · next t y hnv =>
        obtain ⟨g, hy, hval, hvas, hsas⟩ := newVarL_grows h (show (⟨e.vars, 0⟩ : Lin).Canon from hc) (fun w hw => (hk w hw).2) rfl hnv
        have hT : ∀ b, R.test (t.lo y) (t.hi y) (R.bound e.kt) = some b → (b = true ↔ R.holds ((⟨e.vars, 0⟩ : Lin).eval 1 x) (-e.kt)) := by
          intro b ht
          rcases newVarL_cases hg hnv with ⟨e1, hlk⟩ | ⟨_, _, _, _, e1, e2⟩
          · subst e1
            obtain ⟨h1, h2⟩ := h.ti.exp.ex _ y (lookup_mem' hlk)
            have h3 : x y = (⟨e.vars, 0⟩ : Lin).eval 1 x := ofQ_inj (by rw [← eval_rat]; exact h2 _ hD)
            rw [← h3]
            exact test_sound ht (hb y h1)
          · subst e1 e2
            have e3 : (s.th.defVar ⟨e.vars, 0⟩).lo s.th.n = s.th.lbL ⟨e.vars, 0⟩ := upd_self _ _ _
            have e4 : (s.th.defVar ⟨e.vars, 0⟩).hi s.th.n = s.th.ubL ⟨e.vars, 0⟩ := upd_self _ _ _
            rw [e3, e4, ht0] at ht
            cases ht
        split at hn
        · next ht =>
          injection hn with hn; injection hn with e1 e2; subst e1 e2
          exact ⟨fun _ => (hT _ ht).mp rfl, fun e => absurd e htf⟩
        · next ht =>
          injection hn with hn; injection hn with e1 e2; subst e1 e2
          exact ⟨fun e => absurd e.symm htf, fun _ hh => by have := (hT _ ht).mpr hh; cases this⟩
        · have hfin : ∀ q : Lit, q.var ≠ 0 → (q = TRUE_lit → R.holds ((⟨e.vars, 0⟩ : Lin).eval 1 x) (-e.kt)) ∧
              (q = FALSE_lit → ¬ R.holds ((⟨e.vars, 0⟩ : Lin).eval 1 x) (-e.kt)) :=
            fun q hq => ⟨fun e => absurd (by rw [e]; rfl) hq, fun e => absurd (by rw [e]; rfl) hq⟩
          split at hn
          · next q hq =>
            injection hn with hn; injection hn with e1 e2; subst e1 e2
            obtain ⟨a, b⟩ := g.sinv.ti.exp.sa _ _ _ _ (lookup_mem' hq)
            exact hfin _ (Nat.ne_of_gt (g.sinv.pos _ _ b))
          · injection hn with hn; injection hn with e1 e2; subst e1 e2
            refine hfin _ ?_
            show s.newVar.2 ≠ 0
            rw [Sat.newVar_eq h.rinv.inv.wf]
            exact Nat.ne_of_gt h.nvars_pos

/-- C44 (partial: histories as in `AReach`): `new_lt`, `new_leq`, `new_geq`, `new_gt` return a literal that, in every solution of the resulting network, is true exactly
when the relation holds; no solution of the network is lost, none is gained; and the constants are returned only when the definitions and the current bounds decide the
relation. -/
theorem C44_relations_partial (h : AReach E L s U) {R : Rel4} {l r : Lin} {p : Lit} (hl : l.Canon) (hr : r.Canon) (hvl : ∀ w ∈ keys l.vars, w < s.th.n)
    (hvr : ∀ w ∈ keys r.vars, w < s.th.n) (hn : newRel R s l r = .ok (s', p)) :
    (∀ α x, Model s' U α x → α.all s.decisions → (α.sat p ↔ R.holds (l.eval 1 x) (r.eval 1 x))) ∧
    (∀ α x, Model s' U α x → Model s U α x) ∧
    (∀ α x, Model s U α x → ∃ β y, Asg.agree s.nvars α β ∧ (∀ v, v < s.th.n → y v = x v) ∧ Model s' U β y) ∧
    (∀ x : Nat → ℚ, (∀ d ∈ s.th.defs, x d.1 = d.2.eval 1 x) → (∀ v, v < s.th.n → InB (s.th.lo v) (s.th.hi v) (IQ.ofQ (x v))) →
      (p = TRUE_lit → R.holds (l.eval 1 x) (r.eval 1 x)) ∧ (p = FALSE_lit → ¬ R.holds (l.eval 1 x) (r.eval 1 x))) := by
  have a := newRel_adds h.sinv hl hr hvl hvr hn
  exact ⟨a.means, a.keeps, a.ext, fun x hd hb => newRel_const h.sinv hl hr hvl hvr hn hd hb⟩

/-- C44 (partial: histories as in `AReach`): `new_eq`. -/
theorem C44_equality_partial (h : AReach E L s U) {l r : Lin} {p : Lit} (hl : l.Canon) (hr : r.Canon) (hvl : ∀ w ∈ keys l.vars, w < s.th.n)
    (hvr : ∀ w ∈ keys r.vars, w < s.th.n) (hn : newEqL E s l r = .ok (s', p)) :
    (∀ α x, Model s' U α x → α.all s.decisions → (α.sat p ↔ l.eval 1 x = r.eval 1 x)) ∧
    (∀ α x, Model s' U α x → Model s U α x) ∧
    (∀ α x, Model s U α x → ∃ β y, Asg.agree s.nvars α β ∧ (∀ v, v < s.th.n → y v = x v) ∧ Model s' U β y) := by
  have a := newEqL_adds h.sinv hl hr hvl hvr hn
  exact ⟨a.means, a.keeps, a.ext⟩

/-- C44 (partial: histories as in `AReach`): at root level the constructors return. -/
theorem C44_answers_partial (h : AReach E L s U) (hroot : s.root = true) {R : Rel4} {l r : Lin} (hl : l.Canon) (hr : r.Canon) (hvl : ∀ w ∈ keys l.vars, w < s.th.n)
    (hvr : ∀ w ∈ keys r.vars, w < s.th.n) : ∃ s' p, newRel R s l r = .ok (s', p) := by
  obtain ⟨Fs, hg⟩ := h.sinv.ti.good
  obtain ⟨hc, hk, he⟩ := diffExpr_spec hg hl hr hvl hvr
  unfold newRel
  simp only
  generalize s.th.diffExpr l r = e at hc hk he
  have hall : (e.vars.all (fun y => decide (y.1 < s.th.n))) = true := by
    rw [List.all_eq_true]
    intro y hy
    exact decide_eq_true (hk y.1 (List.mem_map.mpr ⟨y, hy, rfl⟩)).1
  rw [hall]
  simp only [Bool.true_eq_false, if_false]
  split
  · exact ⟨_, _, rfl⟩
  · exact ⟨_, _, rfl⟩
  · next ht =>
    have hne : e.vars ≠ [] := by
      intro hnil
      rw [hnil] at ht
      revert ht
      show R.test ((IQ.ofQ 0 : IQ) : WithBot IQ) ((IQ.ofQ 0 : IQ) : WithTop IQ) (R.bound e.kt) ≠ none
      have k1 : ∀ a b : IQ, ((a : IQ) : WithBot IQ) < b ↔ a < b := fun a b => WithBot.coe_lt_coe
      have k2 : ∀ a b : IQ, ((a : IQ) : WithTop IQ) < b ↔ a < b := fun a b => WithTop.coe_lt_coe
      have k3 : ∀ a b : IQ, ((a : IQ) : WithBot IQ) ≤ b ↔ a ≤ b := fun a b => WithBot.coe_le_coe
      have k4 : ∀ a b : IQ, ((a : IQ) : WithTop IQ) ≤ b ↔ a ≤ b := fun a b => WithTop.coe_le_coe
      have fin : ∀ (P Q : Prop) [Decidable P] [Decidable Q], (P ∨ Q) → (if P then some true else if Q then some false else none) ≠ none := by
        intro P Q _ _ h
        by_cases hp : P
        · simp [hp]
        · simp [hp, h.resolve_left hp]
      cases R <;> simp only [Rel4.test] <;> apply fin <;> simp only [k1, k2, k3, k4]
      · exact lt_or_ge _ _
      · exact le_or_gt _ _
      · exact le_or_gt _ _
      · exact lt_or_ge _ _
    have hnv : ∃ t y, s.th.newVarL s.root ⟨e.vars, 0⟩ = .ok (t, y) := by
      unfold newVarL
      rw [if_neg hne]
      split
      · exact ⟨_, _, rfl⟩
      · rw [hroot]
        simp only [Bool.true_eq_false, if_false, hall]
        exact ⟨_, _, rfl⟩
    obtain ⟨t, y, hnv⟩ := hnv
    rw [hnv]
    simp only
    split
    · exact ⟨_, _, rfl⟩
    · exact ⟨_, _, rfl⟩
    · split
      · exact ⟨_, _, rfl⟩
      · exact ⟨_, _, rfl⟩

/-- C48 (partial: histories as in `AReach`): with the linear-arithmetic theory attached, every clause stored follows from the posted clauses and the meaning of the
constraint literals; a definitive inconsistency means that there is no solution; every value assigned follows from the decisions of its level; every bound holds in every
solution compatible with the decisions. -/
theorem C48_sound_partial (h : AReach E L s U) :
    (∀ c ∈ s.constrs, ∀ α x, Model s U α x → α.clause (s.db c)) ∧
    (∀ q, s.value q = some true → ∀ α x, Model s U α x → α.all (s.decUpTo (s.level q.var)) → α.sat q) ∧
    (s.dead = true → ∀ α x, ¬ Model s U α x) ∧
    (∀ v α x, Model s U α x → α.all s.decisions → s.th.lo v ≤ ((IQ.ofQ (x v) : IQ) : WithBot IQ) ∧ ((IQ.ofQ (x v) : IQ) : WithTop IQ) ≤ s.th.hi v) := by
  have hi := h.sinv
  exact ⟨fun c hc α x hm => hi.rinv.inv.sem.cls c hc α (hi.sol hm), fun q hq α x hm hd => hi.rinv.inv.sem.val q hq α (hi.sol hm) hd,
    fun hd α x hm => hi.rinv.dead hd α (hi.sol hm), fun v α x hm hd => hi.bound hm hd v⟩

/-- C48 (partial: histories as in `AReach`): `propagate()` returning false is definitive, and so is `set_lb` or `set_ub` refused at root level. -/
theorem C48_definitive_partial (h : AReach E L s U) :
    (s.propagate E (ops L) = .ok (s', false) → s'.root = true ∧ ∀ α x, ¬ Model s U α x) ∧
    (∀ p, s.assume E (ops L) p = .ok (s', false) → ∀ α x, Model s U α x → ¬ α.all (p :: s.decisions)) ∧
    (∀ y v p cl, s.root = true → y < s.th.n → s.value p = some true → setLbC E L s y v p = .ok (s', some cl) → ∀ α x, Model s U α x → ¬ v ≤ IQ.ofQ (x y)) ∧
    (∀ y v p cl, s.root = true → y < s.th.n → s.value p = some true → setUbC E L s y v p = .ok (s', some cl) → ∀ α x, Model s U α x → ¬ IQ.ofQ (x y) ≤ v) := by
  have hi := h.sinv
  have hroot : ∀ α x, Model s U α x → s.root = true → ∀ p, s.value p = some true → α.sat p := fun α x hm hr p hp =>
    hi.true hm (by rw [hi.rinv.inv.wf.root_dec hr]; intro l hl; cases hl) hp
  refine ⟨fun hp => ?_, fun p hp α x hm => ?_, fun y v p cl hr hy hp hn α x hm hv => ?_, fun y v p cl hr hy hp hn α x hm hv => ?_⟩
  · have d := Sat.propagate_spec hi.rinv.inv hp
    exact ⟨(d.bad rfl).2.1, fun α x hm => (d.bad rfl).2.2 α (hi.sol hm)⟩
  · exact ((Sat.assume_spec hi.rinv.inv hp).facts hi.rinv.inv).jump (Or.inr rfl) α (hi.sol hm)
  · have hpv : p.var < s.nvars := hi.rinv.inv.wf.rng _ (by rw [Sat.value_true] at hp; rw [hp]; simp)
    obtain ⟨-, -, -, d, -⟩ := setLbC_sinv hi hr hy hp hn
    refine d (by simp) α x ?_
    exact (setLbC_model hi hr hy hp hn α x).mpr ⟨hm, fun _ => WithBot.coe_le_coe.mpr hv⟩
  · have hpv : p.var < s.nvars := hi.rinv.inv.wf.rng _ (by rw [Sat.value_true] at hp; rw [hp]; simp)
    obtain ⟨-, -, -, d, -⟩ := setUbC_sinv hi hr hy hp hn
    refine d (by simp) α x ?_
    exact (setUbC_model hi hr hy hp hn α x).mpr ⟨hm, fun _ => WithTop.coe_le_coe.mpr hv⟩

/-- C48 (partial: histories as in `AReach`): `set_lb` and `set_ub` at root level add exactly the bound. -/
theorem C48_bounds_partial (h : AReach E L s U) (hr : s.root = true) {y : Nat} {v : IQ} {p : Lit} (hy : y < s.th.n) (hp : s.value p = some true) :
    (setLbC E L s y v p = .ok (s', none) → ∀ α x, Model s' (.lo p y v :: U) α x ↔ Model s U α x ∧ v ≤ IQ.ofQ (x y)) ∧
    (setUbC E L s y v p = .ok (s', none) → ∀ α x, Model s' (.hi p y v :: U) α x ↔ Model s U α x ∧ IQ.ofQ (x y) ≤ v) := by
  have hi := h.sinv
  have hroot : ∀ α x, Model s U α x → α.sat p := fun α x hm => hi.true hm (by rw [hi.rinv.inv.wf.root_dec hr]; intro l hl; cases hl) hp
  refine ⟨fun hn α x => ?_, fun hn α x => ?_⟩
  · refine (setLbC_model hi hr hy hp hn α x).trans ?_
    exact ⟨fun ⟨a, b⟩ => ⟨a, WithBot.coe_le_coe.mp (b (hroot α x a))⟩, fun ⟨a, b⟩ => ⟨a, fun _ => WithBot.coe_le_coe.mpr b⟩⟩
  · refine (setUbC_model hi hr hy hp hn α x).trans ?_
    exact ⟨fun ⟨a, b⟩ => ⟨a, WithTop.coe_le_coe.mp (b (hroot α x a))⟩, fun ⟨a, b⟩ => ⟨a, fun _ => WithTop.coe_le_coe.mpr b⟩⟩

end LRA
end Semitone
