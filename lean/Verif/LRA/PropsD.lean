import Verif.LRA.Session
import Verif.Sat.Quiet
import Verif.LRA.Demo

/-!
# Linear arithmetic inside the core: C54, C55, C56 (sessions)

Solutions of the network: `Model` (`LRA/Sys.lean`). Sessions: `ZReach` (`LRA/Session.lean`).
-/
namespace Semitone
namespace LRA
open Lin
variable {E : Env} {L : LEnv} {s s' : Sat LRA} {U : List Fact} {d : Bool}

/-! ### Specification -/

/-- The rationals `x` satisfy the definitions of the derived variables, the bounds imposed with `set_lb` and `set_ub`, and what the decided constraint literals say. -/
structure Agrees (s : Sat LRA) (U : List Fact) (x : Nat → ℚ) : Prop where
  defs : ∀ d ∈ s.th.defs, x d.1 = d.2.eval 1 x
  user : ∀ f ∈ U, ∀ α, f.holds α (rat x)
  lits : ∀ b a sg, s.th.vas b = some a → s.assigns b = some sg → (sg = true ↔ a.says x)

/-- The rational a value `r + i ε` stands for when `ε` is `δ`. -/
def withEps (δ : ℚ) (X : Nat → IQ) (v : Nat) : ℚ := (ofLex (X v)).1 + δ * (ofLex (X v)).2

/-- The calls that propagate. -/
def Propagates (op : Sat.Op) : Prop :=
  match op with
  | .propagate | .assume _ | .next | .simplify => True
  | _ => False

/-! ### C54 -/

/-- C54: in every session, `new_lt`, `new_leq`, `new_geq`, `new_gt` return a literal that, in every solution of the resulting network, is true exactly when the relation
holds; no solution of the network is lost, none is gained; and the constants are returned only when the definitions and the current bounds decide the relation. -/
theorem C54_relations (h : ZReach E L s U d) {R : Rel4} {l r : Lin} {p : Lit} (hl : l.Canon) (hr : r.Canon) (hvl : ∀ w ∈ keys l.vars, w < s.th.n)
    (hvr : ∀ w ∈ keys r.vars, w < s.th.n) (hn : newRel R s l r = .ok (s', p)) :
    (∀ α x, Model s' U α x → α.all s.decisions → (α.sat p ↔ R.holds (l.eval 1 x) (r.eval 1 x))) ∧
    (∀ α x, Model s' U α x → Model s U α x) ∧
    (∀ α x, Model s U α x → ∃ β y, Asg.agree s.nvars α β ∧ (∀ v, v < s.th.n → y v = x v) ∧ Model s' U β y) ∧
    (∀ x : Nat → ℚ, (∀ d ∈ s.th.defs, x d.1 = d.2.eval 1 x) → (∀ v, v < s.th.n → InB (s.th.lo v) (s.th.hi v) (IQ.ofQ (x v))) →
      (p = TRUE_lit → R.holds (l.eval 1 x) (r.eval 1 x)) ∧ (p = FALSE_lit → ¬ R.holds (l.eval 1 x) (r.eval 1 x))) :=
  C44_relations_partial h.zinv.reach hl hr hvl hvr hn

/-- C54: `new_eq`. -/
theorem C54_equality (h : ZReach E L s U d) {l r : Lin} {p : Lit} (hl : l.Canon) (hr : r.Canon) (hvl : ∀ w ∈ keys l.vars, w < s.th.n)
    (hvr : ∀ w ∈ keys r.vars, w < s.th.n) (hn : newEqL E s l r = .ok (s', p)) :
    (∀ α x, Model s' U α x → α.all s.decisions → (α.sat p ↔ l.eval 1 x = r.eval 1 x)) ∧
    (∀ α x, Model s' U α x → Model s U α x) ∧
    (∀ α x, Model s U α x → ∃ β y, Asg.agree s.nvars α β ∧ (∀ v, v < s.th.n → y v = x v) ∧ Model s' U β y) :=
  C44_equality_partial h.zinv.reach hl hr hvl hvr hn

/-- C54: at root level the relational constructors return. -/
theorem C54_answers (h : ZReach E L s U d) (hroot : s.root = true) {l r : Lin} (hl : l.Canon) (hr : r.Canon) (hvl : ∀ w ∈ keys l.vars, w < s.th.n)
    (hvr : ∀ w ∈ keys r.vars, w < s.th.n) : (∀ R, ∃ s' p, newRel R s l r = .ok (s', p)) ∧ ∃ s' p, newEqL E s l r = .ok (s', p) :=
  ⟨fun R => newRel_total h.zinv.reach.sinv hroot R hl hr hvl hvr, newEqL_total h.zinv.reach.sinv hroot hl hr hvl hvr⟩

/-- C54: in every session, every clause stored follows from the posted clauses and the meaning of the constraint literals; every value assigned follows from the
decisions of its level; a definitive inconsistency means that there is no solution; every bound holds in every solution compatible with the decisions. -/
theorem C54_sound (h : ZReach E L s U d) :
    (∀ c ∈ s.constrs, ∀ α x, Model s U α x → α.clause (s.db c)) ∧
    (∀ q, s.value q = some true → ∀ α x, Model s U α x → α.all (s.decUpTo (s.level q.var)) → α.sat q) ∧
    (s.dead = true → ∀ α x, ¬ Model s U α x) ∧
    (∀ v α x, Model s U α x → α.all s.decisions → s.th.lo v ≤ ((IQ.ofQ (x v) : IQ) : WithBot IQ) ∧ ((IQ.ofQ (x v) : IQ) : WithTop IQ) ≤ s.th.hi v) :=
  C48_sound_partial h.zinv.reach

/-- C54: `propagate()` returning false is definitive; `assume` returning false means that no solution is compatible with the decisions; `set_lb` and `set_ub` are refused
only when no solution has the bound. -/
theorem C54_definitive (h : ZReach E L s U d) :
    (s.propagate E (ops L) = .ok (s', false) → s'.root = true ∧ ∀ α x, ¬ Model s U α x) ∧
    (∀ p, s.assume E (ops L) p = .ok (s', false) → ∀ α x, Model s U α x → ¬ α.all (p :: s.decisions)) ∧
    (∀ y v p cl, s.root = true → y < s.th.n → s.value p = some true → setLbC E L s y v p = .ok (s', some cl) → ∀ α x, Model s U α x → ¬ v ≤ IQ.ofQ (x y)) ∧
    (∀ y v p cl, s.root = true → y < s.th.n → s.value p = some true → setUbC E L s y v p = .ok (s', some cl) → ∀ α x, Model s U α x → ¬ IQ.ofQ (x y) ≤ v) :=
  C48_definitive_partial h.zinv.reach

/-- C54: `set_lb` and `set_ub` at root level add exactly the bound. -/
theorem C54_bounds (h : ZReach E L s U d) (hr : s.root = true) {y : Nat} {v : IQ} {p : Lit} (hy : y < s.th.n) (hp : s.value p = some true) :
    (setLbC E L s y v p = .ok (s', none) → ∀ α x, Model s' (.lo p y v :: U) α x ↔ Model s U α x ∧ v ≤ IQ.ofQ (x y)) ∧
    (setUbC E L s y v p = .ok (s', none) → ∀ α x, Model s' (.hi p y v :: U) α x ↔ Model s U α x ∧ IQ.ofQ (x y) ≤ v) :=
  C48_bounds_partial h.zinv.reach hr hy hp

/-! ### C55 -/

/-- C55: with the linear-arithmetic theory attached, every legal call on the core terminates without failing (every `propagate()` included, whatever conflicts and lemmas
the theory produces). -/
theorem C55_core_calls (h : ZReach E L s U d) {op : Sat.Op} (hl : s.Legal op) (hm : MayCall op d) : ∃ s' out, s.step E (ops L) op = .ok (s', out) := by
  obtain ⟨s1, o1, h1, -⟩ := (Sat.step_live (E := E) (op := op) h.zinv.reach.rinv.inv (h.zinv.alive hl.1) hl (by cases op <;> exact hm)).resolve_left (fun ⟨_, h, _⟩ => h)
  exact ⟨s1, o1, h1⟩

/-- `new_var(l)` at root level returns. -/
theorem newVarL_total {l : Lin} (hroot : s.root = true) (hne : l.vars ≠ []) (hv : ∀ w ∈ keys l.vars, w < s.th.n) : ∃ t y, s.th.newVarL s.root l = .ok (t, y) := by
  have hall : (l.vars.all (fun y => decide (y.1 < s.th.n))) = true := by
    simp only [List.all_eq_true, decide_eq_true_eq]
    exact fun y hy => hv y.1 (List.mem_map.mpr ⟨y, hy, rfl⟩)
  unfold newVarL
  rw [if_neg hne]
  split
  · exact ⟨_, _, rfl⟩
  · rw [if_neg (by simp [hroot]), if_neg (by rw [hall]; simp)]
    exact ⟨_, _, rfl⟩

/-- C55: so do the calls on the theory: the relational constructors and `new_var(l)` at root level, `set_lb` and `set_ub` at root level with a literal that is true. -/
theorem C55_theory_calls (h : ZReach E L s U d) (hd : s.dead = false) (hroot : s.root = true) :
    (∀ (R : Rel4) (l r : Lin), l.Canon → r.Canon → (∀ w ∈ keys l.vars, w < s.th.n) → (∀ w ∈ keys r.vars, w < s.th.n) →
      (∃ s' p, newRel R s l r = .ok (s', p)) ∧ ∃ s' p, newEqL E s l r = .ok (s', p)) ∧
    (∀ l : Lin, l.vars ≠ [] → (∀ w ∈ keys l.vars, w < s.th.n) → ∃ t y, s.th.newVarL s.root l = .ok (t, y)) ∧
    (∀ x (v : IQ) p, x < s.th.n → s.value p = some true → 0 ≤ (ofLex v).2 → ∃ s' r, setLbC E L s x v p = .ok (s', r)) ∧
    (∀ x (v : IQ) p, x < s.th.n → s.value p = some true → (ofLex v).2 ≤ 0 → ∃ s' r, setUbC E L s x v p = .ok (s', r)) := by
  have hi := h.zinv.reach.sinv
  have ha := h.zinv.alive hd
  refine ⟨fun R l r hl hr hvl hvr => ⟨newRel_total hi hroot R hl hr hvl hvr, newEqL_total hi hroot hl hr hvl hvr⟩, fun l hne hv => ?_, fun x v p hx hp hv => ?_, fun x v p hx hp hv => ?_⟩
  · exact newVarL_total hroot hne hv
  · obtain ⟨s1, r, h1, -⟩ := setLbC_alive (E := E) hi ha hroot hx hp hv
    exact ⟨s1, r, h1⟩
  · obtain ⟨s1, r, h1, -⟩ := setUbC_alive (E := E) hi ha hroot hx hp hv
    exact ⟨s1, r, h1⟩

/-! ### C56 -/

/-- After a call that propagates and returns true nothing is queued and the core is not inconsistent. -/
theorem ZInv.quiet {op : Sat.Op} (h : ZInv E L s U d) (hl : s.Legal op) (hop : Propagates op) (hs : s.step E (ops L) op = .ok (s', .bool true)) :
    s'.propQ = [] ∧ s'.dead = false :=
  Sat.step_quiet h.reach.rinv.inv (h.alive hl.1).live hl (by cases op <;> exact hop) hs

/-- The values are within the bounds they report: they back the decided literals (whatever else is attached to the core). -/
theorem backed_of {Z : Asg → Prop} (hi : SInv L Z s U) (ha : ALive L s d) (hu : ∀ f ∈ U, f ∈ s.th.facts) (hq : s.propQ = []) (hin : ∀ v, InB (s.th.lo v) (s.th.hi v) (s.th.vals v)) :
    (∀ d ∈ s.th.defs, s.th.vals d.1 = d.2.eval IQ.one s.th.vals) ∧ ∃ δ0 : ℚ, 0 < δ0 ∧ ∀ δ, 0 < δ → δ ≤ δ0 → Agrees s U (withEps δ s.th.vals) := by
  have hli := ha.li
  obtain ⟨f1, δ0, h0, f2⟩ := hli.fits (fun q hq' => by rw [hq] at hq'; cases hq') hin
  refine ⟨f1.defs, δ0, h0, fun δ h1 h2 => ?_⟩
  have f := f2 δ h1 h2
  have e : (rat fun v => at_ δ (s.th.vals v)) = rat (withEps δ s.th.vals) := rfl
  rw [e] at f
  refine ⟨fun d hd => ?_, fun g hg α => f.fact g (hu g hg) α, fun b a sg hb hsg => ?_⟩
  · have := f.defs d hd
    rw [eval_rat] at this
    exact ofQ_inj this
  · refine (means_iff (hi.eps b a hb) sg _).mp (f.lits b sg a hb ?_)
    exact (hi.rinv.inv.wf.tru_iff ⟨b, sg⟩).mpr ((Sat.value_true s ⟨b, sg⟩).mpr hsg)

theorem ZInv.backed (hz : ZInv E L s U d) (hq : s.propQ = []) (hd : s.dead = false) (hin : ∀ v, InB (s.th.lo v) (s.th.hi v) (s.th.vals v)) :
    (∀ d ∈ s.th.defs, s.th.vals d.1 = d.2.eval IQ.one s.th.vals) ∧ ∃ δ0 : ℚ, 0 < δ0 ∧ ∀ δ, 0 < δ → δ ≤ δ0 → Agrees s U (withEps δ s.th.vals) :=
  backed_of hz.reach.sinv (hz.alive hd) hz.user hq hin

theorem ZInv.clauses (hz : ZInv E L s U d) (hq : s.propQ = []) (hd : s.dead = false) :
    ∀ D ∈ s.posted, (∃ l ∈ D, s.value l = some true) ∨ ∃ x ∈ D, ∃ y ∈ D, x ≠ y ∧ s.value x = none ∧ s.value y = none :=
  fun _ hD => Semitone.fixpoint_any hz.reach.rinv (hz.alive hd).live.fix hd hq hD

theorem ZInv.solution (hz : ZInv E L s U d) (hq : s.propQ = []) (hd : s.dead = false) (hin : ∀ v, InB (s.th.lo v) (s.th.hi v) (s.th.vals v)) (hall : ∀ v, v < s.nvars → s.assigns v ≠ none) :
    ∃ δ0 : ℚ, 0 < δ0 ∧ ∀ δ, 0 < δ → δ ≤ δ0 → Model s U (fun v => s.assigns v = some true) (withEps δ s.th.vals) := by
  have hi := hz.reach.sinv
  obtain ⟨-, δ0, h0, f⟩ := hz.backed hq hd hin
  refine ⟨δ0, h0, fun δ h1 h2 => ?_⟩
  obtain ⟨a1, a2, a3⟩ := f δ h1 h2
  refine ⟨by simp [hi.rinv.inv.wf.fv], fun D hD => ?_, fun b a hb => ?_, a1, fun g hg => a2 g hg _, trivial⟩
  · rcases hz.clauses hq hd D hD with ⟨l, hl, hv⟩ | ⟨x, hx, -, -, -, hv, -⟩
    · refine ⟨l, hl, ?_⟩
      rw [Sat.value_true] at hv
      unfold Asg.sat
      simp only [hv]
      cases l.sign <;> rfl
    · rw [Sat.value_none] at hv
      exact absurd hv (hall _ (hi.rinv.inv.prng D hD x hx))
  · obtain ⟨sg, hsg⟩ : ∃ sg, s.assigns b = some sg := Option.ne_none_iff_exists'.mp (hall b (hi.fresh b a hb))
    rw [← a3 b a sg hb hsg, hsg]
    cases sg <;> simp

/-- The values are within the bounds after a call that propagates and returns true. -/
theorem ZInv.within {op : Sat.Op} (h : ZInv E L s U d) (hl : s.Legal op) (hm : MayCall op d) (hop : Propagates op) (hs : s.step E (ops L) op = .ok (s', .bool true)) :
    ∀ v, InB (s'.th.lo v) (s'.th.hi v) (s'.th.vals v) := by
  obtain ⟨-, hin⟩ := h.step hl hm hs
  cases op with
  | propagate => exact hin rfl
  | assume p => exact hin rfl
  | next => exact hin rfl
  | simplify => exact hin rfl
  | _ => exact hop.elim

/-- C56: when a call that propagates (`propagate`, `assume`, `next`, `simplify_db`) returns true, every value the theory reports is within the bounds it reports, the
values satisfy the definitions of the derived variables, and, giving the infinitesimal any small enough value, they are rationals that satisfy the definitions, all imposed
bounds, and what every decided constraint literal says: the literals decided are consistent with the arithmetic, and the reported values are the evidence. -/
theorem C56_values (h : ZReach E L s U d) {op : Sat.Op} (hl : s.Legal op) (hm : MayCall op d) (hop : Propagates op) (hs : s.step E (ops L) op = .ok (s', .bool true)) :
    (∀ v, s'.th.lo v ≤ ((s'.th.vals v : IQ) : WithBot IQ) ∧ ((s'.th.vals v : IQ) : WithTop IQ) ≤ s'.th.hi v) ∧
    (∀ d ∈ s'.th.defs, s'.th.vals d.1 = d.2.eval IQ.one s'.th.vals) ∧
    ∃ δ0 : ℚ, 0 < δ0 ∧ ∀ δ, 0 < δ → δ ≤ δ0 → Agrees s' U (withEps δ s'.th.vals) := by
  obtain ⟨hz, -⟩ := h.zinv.step hl hm hs
  obtain ⟨hq, hd⟩ := h.zinv.quiet hl hop hs
  have hin := h.zinv.within hl hm hop hs
  exact ⟨fun v => hin v, hz.backed hq hd hin⟩

/-- C56: and every posted clause is satisfied or has two unassigned literals. -/
theorem C56_clauses (h : ZReach E L s U d) {op : Sat.Op} (hl : s.Legal op) (hm : MayCall op d) (hop : Propagates op) (hs : s.step E (ops L) op = .ok (s', .bool true)) :
    ∀ D ∈ s'.posted, (∃ l ∈ D, s'.value l = some true) ∨ ∃ x ∈ D, ∃ y ∈ D, x ≠ y ∧ s'.value x = none ∧ s'.value y = none := by
  obtain ⟨hz, -⟩ := h.zinv.step hl hm hs
  obtain ⟨hq, hd⟩ := h.zinv.quiet hl hop hs
  exact hz.clauses hq hd

/-- C56: with every variable of the core assigned, the assignment together with the reported values is a solution of the network. -/
theorem C56_solution (h : ZReach E L s U d) {op : Sat.Op} (hl : s.Legal op) (hm : MayCall op d) (hop : Propagates op) (hs : s.step E (ops L) op = .ok (s', .bool true))
    (hall : ∀ v, v < s'.nvars → s'.assigns v ≠ none) :
    ∃ δ0 : ℚ, 0 < δ0 ∧ ∀ δ, 0 < δ → δ ≤ δ0 → Model s' U (fun v => s'.assigns v = some true) (withEps δ s'.th.vals) := by
  obtain ⟨hz, -⟩ := h.zinv.step hl hm hs
  obtain ⟨hq, hd⟩ := h.zinv.quiet hl hop hs
  exact hz.solution hq hd (h.zinv.within hl hm hop hs) hall

/-! ### Concrete sessions -/

/-- Executable form of `MayCall`. -/
def mayB (op : Sat.Op) (d : Bool) : Bool :=
  match op with
  | .assume _ | .check _ => !d
  | .bind _ _ => false
  | _ => true

theorem mayB_may {op : Sat.Op} (h : mayB op d = true) : MayCall op d := by
  cases op <;> simp_all [mayB, MayCall]

/-- The call is allowed in a session. -/
def DAct.okB (a : DAct) (s : Sat LRA) (d : Bool) : Bool :=
  match a with
  | .op o => s.legalB o && mayB o d
  | .lb _ v => !s.dead && decide (0 ≤ (ofLex v).2)
  | .ub _ v => !s.dead && decide ((ofLex v).2 ≤ 0)
  | _ => !s.dead

/-- Whether bounds are pending after it. -/
def DAct.pend (a : DAct) (d : Bool) : Bool :=
  match a with
  | .op o => pendingAfter o d
  | .lb _ _ | .ub _ _ => true
  | _ => d

/-- A step of a concrete session (`simplify_db` included). -/
def DAct.zrun (E : Env) (L : LEnv) (a : DAct) (s : Sat LRA × List Fact) (d : Bool) : Option ((Sat LRA × List Fact) × Sat.Out) :=
  if a.okB s.1 d then
    match a with
    | .op o =>
      match s.1.step E (ops L) o with
      | .ok (s', out) => some ((s', s.2), out)
      | .error _ => none
    | a => a.run E L s
  else none

theorem DAct.zrun_reach {a : DAct} {s s' : Sat LRA × List Fact} {out : Sat.Out} (h : ZReach E L s.1 s.2 d) (hr : a.zrun E L s d = some (s', out)) :
    ZReach E L s'.1 s'.2 (a.pend d) := by
  unfold DAct.zrun at hr
  split at hr
  · next hok =>
    cases a with
    | op o =>
      simp only at hr
      simp only [DAct.okB, Bool.and_eq_true] at hok
      split at hr
      · next s1 o1 hs =>
        injection hr with hr; injection hr with e1 e2; subst e1
        exact .step h (Sat.legalB_legal hok.1) (mayB_may hok.2) hs
      · cases hr
    | var =>
      injection hr with hr; injection hr with e1 e2; subst e1
      simp only [DAct.okB, Bool.not_eq_true'] at hok
      exact .newVar h hok
    | listen v l =>
      simp only [DAct.okB, Bool.not_eq_true'] at hok
      simp only [DAct.run] at hr
      split at hr
      · next t ht =>
        injection hr with hr; injection hr with e1 e2; subst e1
        exact .listen h hok ht
      · cases hr
    | rel R l r =>
      simp only [DAct.okB, Bool.not_eq_true'] at hok
      simp only [DAct.run] at hr
      split at hr
      · next hc =>
        simp only [Bool.and_eq_true] at hc
        obtain ⟨⟨⟨c1, c2⟩, c3⟩, c4⟩ := hc
        split at hr
        · next s1 p hs =>
          injection hr with hr; injection hr with e1 e2; subst e1
          exact .newRel h hok (canonB_canon c1) (canonB_canon c2) (varsB_vars c3) (varsB_vars c4) hs
        · cases hr
      · cases hr
    | eq l r =>
      simp only [DAct.okB, Bool.not_eq_true'] at hok
      simp only [DAct.run] at hr
      split at hr
      · next hc =>
        simp only [Bool.and_eq_true] at hc
        obtain ⟨⟨⟨c1, c2⟩, c3⟩, c4⟩ := hc
        split at hr
        · next s1 p hs =>
          injection hr with hr; injection hr with e1 e2; subst e1
          exact .newEq h hok (canonB_canon c1) (canonB_canon c2) (varsB_vars c3) (varsB_vars c4) hs
        · cases hr
      · cases hr
    | lb x v =>
      simp only [DAct.okB, Bool.and_eq_true, Bool.not_eq_true', decide_eq_true_eq] at hok
      simp only [DAct.run] at hr
      split at hr
      · next hc =>
        simp only [Bool.and_eq_true, decide_eq_true_eq, beq_iff_eq] at hc
        obtain ⟨⟨c1, c2⟩, c3⟩ := hc
        split at hr
        · next s1 hs =>
          injection hr with hr; injection hr with e1 e2; subst e1
          exact .setLb h hok.1 c1 c2 c3 hok.2 hs
        · cases hr
      · cases hr
    | ub x v =>
      simp only [DAct.okB, Bool.and_eq_true, Bool.not_eq_true', decide_eq_true_eq] at hok
      simp only [DAct.run] at hr
      split at hr
      · next hc =>
        simp only [Bool.and_eq_true, decide_eq_true_eq, beq_iff_eq] at hc
        obtain ⟨⟨c1, c2⟩, c3⟩ := hc
        split at hr
        · next s1 hs =>
          injection hr with hr; injection hr with e1 e2; subst e1
          exact .setUb h hok.1 c1 c2 c3 hok.2 hs
        · cases hr
      · cases hr
  · cases hr

/-- Runs a concrete session. -/
def zruns (E : Env) (L : LEnv) : List DAct → Sat LRA × List Fact → Bool → Option ((Sat LRA × List Fact) × List Sat.Out)
  | [], s, _ => some (s, [])
  | a :: as, s, d =>
    match a.zrun E L s d with
    | none => none
    | some (s', out) =>
      match zruns E L as s' (a.pend d) with
      | none => none
      | some (s'', outs) => some (s'', out :: outs)

theorem zruns_reach : ∀ (as : List DAct) (s s' : Sat LRA × List Fact) (d : Bool) (outs : List Sat.Out), ZReach E L s.1 s.2 d → zruns E L as s d = some (s', outs) →
    ∃ d', ZReach E L s'.1 s'.2 d'
  | [], s, s', d, outs, h, hr => by
    injection hr with hr; injection hr with e1 e2; subst e1; exact ⟨d, h⟩
  | a :: as, s, s', d, outs, h, hr => by
    unfold zruns at hr
    split at hr
    · cases hr
    · next s1 o1 h1 =>
      split at hr
      · cases hr
      · next s2 o2 h2 =>
        injection hr with hr; injection hr with e1 e2; subst e1
        exact zruns_reach as s1 s2 _ o2 (DAct.zrun_reach h h1) h2

/-- A concrete session from an empty core. -/
def session (as : List DAct) : Option ((Sat LRA × List Fact) × List Sat.Out) := zruns stdEnv stdL as (Sat.init LRA.init, []) false

theorem session_reach {as : List DAct} {s : Sat LRA × List Fact} {outs : List Sat.Out} (h : session as = some (s, outs)) : ∃ d, ZReach stdEnv stdL s.1 s.2 d :=
  zruns_reach as _ _ _ _ .init h

/-- A session: three constraints, a clause over them, an imposed bound, propagation, two decisions; the last one is refuted by `check`, which learns. All the calls are
legal; the last call returns true. -/
def sess1 : List DAct := hist3 ++ [.op (.newClause [⟨1, true⟩, ⟨2, true⟩]), .lb 0 (IQ.ofQ 1), .op .propagate, .op (.assume ⟨1, true⟩), .op (.assume ⟨2, true⟩), .op (.assume ⟨3, true⟩)]

example : (session sess1).map (fun r => (r.2.drop 5, r.1.1.value ⟨3, true⟩, r.1.1.decisions, r.1.1.dead)) =
    some ([.bool true, .bool true, .bool true, .bool true, .bool true, .bool true], some false, [⟨2, true⟩, ⟨1, true⟩], false) := by decide +kernel

/-- The same session ends with every variable assigned: the hypotheses of `C56_solution` are met, and the reported values are the solution. -/
example : (session sess1).map (fun r => ((List.range r.1.1.nvars).all (fun v => decide (r.1.1.assigns v ≠ none)), r.1.1.th.vals 0, r.1.1.th.vals 1, r.1.1.th.vals 2)) =
    some (true, IQ.ofQ 3, IQ.ofQ 2, IQ.ofQ 5) := by decide +kernel

/-- A session with `simplify_db` and `next` after a decision. -/
example : (session (hist3 ++ [.ub 1 (IQ.ofQ 7), .op .simplify, .op (.assume ⟨1, true⟩), .op .next])).map (fun r => (r.2.drop 5, r.1.1.value ⟨1, true⟩, r.1.1.root)) =
    some ([.bool true, .bool true, .bool true, .bool true], some false, true) := by decide +kernel

/-- Bounds that make the network inconsistent, not yet propagated. -/
def sess2 : List DAct := hist3 ++ [.op .newVar, .lb 0 (IQ.ofQ 3), .lb 1 (IQ.ofQ 3), .op .propagate, .ub 2 (IQ.ofQ (11/2))]

/-- The rule that imposed bounds are propagated before a decision is needed: `x >= 3`, `y >= 3` and `x + y <= 11/2` are accepted by `set_lb` and `set_ub`; `propagate()` finds
the inconsistency, but a decision on an unrelated variable taken before it (nothing is queued) makes the conflict analysis fail an assertion: the explanation has no literal of the
current level. -/
theorem C55_witness_unpropagated :
    (session sess2).map (fun r => (r.1.1.propQ, (r.1.1.step stdEnv (ops stdL) .propagate).toOption.map (·.2), r.1.1.legalB (.assume ⟨4, true⟩),
      (r.1.1.step stdEnv (ops stdL) (.assume ⟨4, true⟩)).map (·.2))) = some ([], some (.bool false), true, .error .assert) := by decide +kernel

end LRA
end Semitone
