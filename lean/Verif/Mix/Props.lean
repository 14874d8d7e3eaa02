import Verif.Mix.Session
import Verif.DL.PropsD

/-!
# Linear arithmetic and difference logic on the same core: C66, C67, C68, C69

Solutions of the network: `Mix.Model` (`Mix/Model.lean`). Sessions: `Mix.Sess` (`Mix/Session.lean`).
-/
namespace Semitone
namespace Mix
open Lin
variable {W : Type} [AddCommGroup W] [LinearOrder W] [IsOrderedAddMonoid W] [Dom W]
variable {E : Env} {L : LEnv} {S S' : Sat (LRA × DL W)} {U : List Fact} {α : Asg} {x : Nat → ℚ} {X : Nat → W} {d : Bool}

/-- The call tells the difference-logic theory no literal in an unsafe situation (`DL.safe`). -/
def Avoids (E : Env) (L : LEnv) (S : Sat (LRA × DL W)) (op : Sat.Op) : Prop := S.step E (safeOps L) op ≠ .error .excluded

/-! ### From solutions to the contract -/

theorem Base.arithTh (h : Base L S U) (hm : Model S U α x X) : LRA.Th S.th.1 α := (h.lra.sol hm.arith).2.2.1

theorem Base.sol (h : Base L S U) (hm : Model S U α x X) : S.Sol (contract L (LRA.sig S.th.1) S.th.2.vd).Th α :=
  ⟨hm.zero, hm.posted, h.arithTh hm, ⟨X, hm.dist⟩⟩

/-- The arithmetic theory has acted: solutions. -/
theorem model_putL {s : Sat LRA} {U' : List Fact} : Model (S.putL 1 s) U' α x X ↔ LRA.ModelZ (DL.Th S.th.2) s U' α x ∧ ∀ v dd, S.th.2.vd v = some dd → (α v = true ↔ X dd.tgt - X dd.src ≤ dd.w) :=
  ⟨fun h => ⟨⟨h.zero, h.posted, h.lits, h.defs, h.user, X, h.dist⟩, h.dist⟩, fun ⟨h, h'⟩ => ⟨h.zero, h.posted, h.lits, h.defs, h.user, h'⟩⟩

/-- The difference-logic theory has acted: solutions. -/
theorem model_putR {s : Sat (DL W)} : Model (S.putR 1 s) U α x X ↔
    DL.Model s α X ∧ (∀ b a, S.th.1.vas b = some a → (α b = true ↔ a.says x)) ∧ (∀ d ∈ S.th.1.defs, x d.1 = d.2.eval 1 x) ∧ ∀ f ∈ U, f.holds α (LRA.rat x) :=
  ⟨fun h => ⟨⟨h.zero, h.posted, h.dist⟩, h.lits, h.defs, h.user⟩, fun ⟨h, h1, h2, h3⟩ => ⟨h.1, h.2.1, h1, h2, h3, h.2.2⟩⟩

/-- A call of the arithmetic theory that extends the network loses no solution and gains none. -/
theorem putL_conserves (hb : Base L S U) {s : Sat LRA} (hg : LRA.Grows L (DL.Th S.th.2) U (S.left 1) s) :
    (∀ α x X, Model (S.putL 1 s) U α x X → Model S U α x X) ∧
    (∀ α x X, Model S U α x X → ∃ β y, Asg.agree S.nvars α β ∧ (∀ v, v < S.th.1.n → y v = x v) ∧ Model (S.putL 1 s) U β y X) := by
  refine ⟨fun α x X hm => ?_, fun α x X hm => ?_⟩
  · obtain ⟨h1, h2⟩ := model_putL.mp hm
    have := hg.keeps α x h1
    exact ⟨this.zero, this.posted, this.lits, this.defs, this.user, h2⟩
  · obtain ⟨β, y, a, b, c⟩ := hg.ext α x hm.arith
    refine ⟨β, y, a, b, model_putL.mpr ⟨c, fun v dd hv => ?_⟩⟩
    rw [← a v (hb.dl.fresh v dd hv)]
    exact hm.dist v dd hv

/-- A call of the difference-logic theory that extends the network loses no solution and gains none. -/
theorem putR_conserves (hb : Base L S U) {s : Sat (DL W)} {p : Lit} {R : (Nat → W) → Prop} (hg : DL.Adds (LRA.Th S.th.1) (S.right 1) s p R) :
    (∀ α x X, Model (S.putR 1 s) U α x X → α.all S.decisions → (α.sat p ↔ R X)) ∧
    (∀ α x X, Model (S.putR 1 s) U α x X → Model S U α x X) ∧
    (∀ α x X, Model S U α x X → ∃ β, Asg.agree S.nvars α β ∧ Model (S.putR 1 s) U β x X) := by
  have hk : ∀ α x X, Model (S.putR 1 s) U α x X → Model S U α x X := fun α x X hm => by
    obtain ⟨h1, h2, h3, h4⟩ := model_putR.mp hm
    have := hg.keeps α X h1
    exact ⟨this.1, this.2.1, h2, h3, h4, this.2.2⟩
  refine ⟨fun α x X hm hd => hg.means α X (model_putR.mp hm).1 (hb.arithTh (hk α x X hm)) hd, hk, fun α x X hm => ?_⟩
  obtain ⟨β, a, b⟩ := hg.ext α X hm.diff (hb.arithTh hm)
  refine ⟨β, a, model_putR.mpr ⟨b, fun b' a' hb' => ?_, hm.defs, fun f hf => ?_⟩⟩
  · rw [← a b' (hb.lra.fresh b' a' hb')]; exact hm.lits b' a' hb'
  · exact (LRA.fact_agree a (hb.lra.uvar f hf).1 _).mp (hm.user f hf)

/-! ### C66: what the two theories do is right -/

/-- C66 (partial): in every session with the two theories, every clause stored follows from the posted clauses and the meaning of the constraint literals of both; every value assigned
follows from the decisions of its level; a definitive inconsistency means that there is no solution; every bound of an arithmetic variable and every distance reported holds in every
solution compatible with the decisions. Missing: calls that tell the difference-logic theory a literal in an unsafe situation (`C66_witness`). -/
theorem C66_sound_partial (h : Sess E L S U d) :
    (∀ c ∈ S.constrs, ∀ α x X, Model S U α x X → α.clause (S.db c)) ∧
    (∀ q, S.value q = some true → ∀ α x X, Model S U α x X → α.all (S.decUpTo (S.level q.var)) → α.sat q) ∧
    (S.dead = true → ∀ α x X, ¬ Model S U α x X) ∧
    (∀ v α x X, Model S U α x X → α.all S.decisions → S.th.1.lo v ≤ ((IQ.ofQ (x v) : IQ) : WithBot IQ) ∧ ((IQ.ofQ (x v) : IQ) : WithTop IQ) ≤ S.th.1.hi v) ∧
    (∀ i j, i < S.th.2.nv → j < S.th.2.nv → ∀ α x X, Model S U α x X → α.all S.decisions → ((X j - X i : W) : WithTop W) ≤ (S.th.2.distance i j).2) := by
  have hb := h.inv.reach.base
  exact ⟨fun c hc α x X hm => hb.rinv.inv.sem.cls c hc α (hb.sol hm), fun q hq α x X hm hd => hb.rinv.inv.sem.val q hq α (hb.sol hm) hd,
    fun hd α x X hm => hb.rinv.dead hd α (hb.sol hm), fun v α x X hm hd => hb.lra.bound hm.arith hd v,
    fun i j hi hj α x X hm hd => hb.dl.bound hm.diff (hb.arithTh hm) hd hi hj⟩

/-- C66 (partial): `propagate()` returning false is definitive; `assume` returning false means that no solution is compatible with the decisions; `set_lb` and `set_ub` are refused only when
no solution has the bound. Missing: as for `C66_sound_partial`. -/
theorem C66_definitive_partial (h : Sess E L S U d) :
    (Avoids E L S .propagate → S.propagate E (ops L) = .ok (S', false) → S'.root = true ∧ ∀ α x X, ¬ Model S U α x X) ∧
    (∀ p, Avoids E L S (.assume p) → S.assume E (ops L) p = .ok (S', false) → ∀ α x X, Model S U α x X → ¬ α.all (p :: S.decisions)) ∧
    (∀ y v p s cl, S.root = true → y < S.th.1.n → S.value p = some true → LRA.setLbC E L (S.left 1) y v p = .ok (s, some cl) → ∀ α x X, Model S U α x X → ¬ v ≤ IQ.ofQ (x y)) ∧
    (∀ y v p s cl, S.root = true → y < S.th.1.n → S.value p = some true → LRA.setUbC E L (S.left 1) y v p = .ok (s, some cl) → ∀ α x X, Model S U α x X → ¬ IQ.ofQ (x y) ≤ v) := by
  have hb := h.inv.reach.base
  refine ⟨fun ha hs => ?_, fun p ha hs α x X hm hd => ?_, fun y v p s cl hr hy hp hn α x X hm hv => ?_, fun y v p s cl hr hy hp hn α x X hm hv => ?_⟩
  · have hs' : S.propagate E (safeOps L) = .ok (S', false) := by
      refine ((Sat.guards_propagate (E := E) (safe_guards L) S).resolve_left (fun e => ha ?_)).trans hs
      simp only [Sat.step, e]
      rfl
    have d := Sat.propagate_spec hb.rinv.inv hs'
    exact ⟨(d.bad rfl).2.1, fun α x X hm => (d.bad rfl).2.2 α (hb.sol hm)⟩
  · have hs' : S.assume E (safeOps L) p = .ok (S', false) := by
      refine ((Sat.guards_assume (E := E) (safe_guards L) S p).resolve_left (fun e => ha ?_)).trans hs
      simp only [Sat.step, e]
      rfl
    exact ((Sat.assume_spec hb.rinv.inv hs').facts hb.rinv.inv).jump (Or.inr rfl) α (hb.sol hm) hd
  · obtain ⟨-, -, m, d, -⟩ := LRA.setLbC_sinv hb.lra hr hy hp hn
    exact d (by simp) α x ((m α x).mpr ⟨hm.arith, fun _ => WithBot.coe_le_coe.mpr hv⟩)
  · obtain ⟨-, -, m, d, -⟩ := LRA.setUbC_sinv hb.lra hr hy hp hn
    exact d (by simp) α x ((m α x).mpr ⟨hm.arith, fun _ => WithTop.coe_le_coe.mpr hv⟩)

/-- C66 (partial): the arithmetic constructors return a literal that, in every solution of the resulting network (of both theories), is true exactly when the relation holds; no solution is lost,
none is gained. Missing: as for `C66_sound_partial`. -/
theorem C66_arith_partial (h : Sess E L S U d) {l r : Lin} {s : Sat LRA} {p : Lit} (hl : l.Canon) (hr : r.Canon) (hvl : ∀ w ∈ keys l.vars, w < S.th.1.n) (hvr : ∀ w ∈ keys r.vars, w < S.th.1.n) :
    (∀ R : LRA.Rel4, LRA.newRel R (S.left 1) l r = .ok (s, p) →
      (∀ α x X, Model (S.putL 1 s) U α x X → α.all S.decisions → (α.sat p ↔ R.holds (l.eval 1 x) (r.eval 1 x))) ∧
      (∀ α x X, Model (S.putL 1 s) U α x X → Model S U α x X) ∧
      (∀ α x X, Model S U α x X → ∃ β y, Asg.agree S.nvars α β ∧ (∀ v, v < S.th.1.n → y v = x v) ∧ Model (S.putL 1 s) U β y X)) ∧
    (LRA.newEqL E (S.left 1) l r = .ok (s, p) →
      (∀ α x X, Model (S.putL 1 s) U α x X → α.all S.decisions → (α.sat p ↔ l.eval 1 x = r.eval 1 x)) ∧
      (∀ α x X, Model (S.putL 1 s) U α x X → Model S U α x X) ∧
      (∀ α x X, Model S U α x X → ∃ β y, Asg.agree S.nvars α β ∧ (∀ v, v < S.th.1.n → y v = x v) ∧ Model (S.putL 1 s) U β y X)) := by
  have hb := h.inv.reach.base
  refine ⟨fun R hn => ?_, fun hn => ?_⟩
  · have a := LRA.newRel_adds hb.lra hl hr hvl hvr hn
    exact ⟨fun α x X hm hd => a.means α x (model_putL.mp hm).1 hd, putL_conserves hb a.toGrows⟩
  · have a := LRA.newEqL_adds hb.lra hl hr hvl hvr hn
    exact ⟨fun α x X hm hd => a.means α x (model_putL.mp hm).1 hd, putL_conserves hb a.toGrows⟩

/-- C66 (partial): `new_var(l)` (no known term, non-basic variables): in every solution of the resulting network the variable has the value of the expression; no solution is lost, none is gained.
Missing: as for `C66_sound_partial`. -/
theorem C66_var_partial (h : Sess E L S U d) {l : Lin} {t : LRA} {y : Nat} (hc : l.Canon) (hb : ∀ w ∈ keys l.vars, S.th.1.row w = none) (hk : l.kt = 0) (hn : S.th.1.newVarL S.root l = .ok (t, y)) :
    (∀ α x X, Model (S.putL 1 { S.left 1 with th := t }) U α x X → x y = l.eval 1 x) ∧
    (∀ α x X, Model (S.putL 1 { S.left 1 with th := t }) U α x X → Model S U α x X) ∧
    (∀ α x X, Model S U α x X → ∃ β z, Asg.agree S.nvars α β ∧ (∀ v, v < S.th.1.n → z v = x v) ∧ Model (S.putL 1 { S.left 1 with th := t }) U β z X) := by
  obtain ⟨a, -, b, -⟩ := LRA.newVarL_grows h.inv.reach.base.lra hc hb hk hn
  exact ⟨fun α x X hm => b α x (model_putL.mp hm).1, putL_conserves h.inv.reach.base a⟩

/-- C66 (partial): `set_lb` and `set_ub` at root level add exactly the bound. Missing: as for `C66_sound_partial`. -/
theorem C66_bounds_partial (h : Sess E L S U d) (hr : S.root = true) {y : Nat} {v : IQ} {p : Lit} {s : Sat LRA} (hy : y < S.th.1.n) (hp : S.value p = some true) :
    (LRA.setLbC E L (S.left 1) y v p = .ok (s, none) → ∀ α x X, Model (S.putL 1 s) (.lo p y v :: U) α x X ↔ Model S U α x X ∧ v ≤ IQ.ofQ (x y)) ∧
    (LRA.setUbC E L (S.left 1) y v p = .ok (s, none) → ∀ α x X, Model (S.putL 1 s) (.hi p y v :: U) α x X ↔ Model S U α x X ∧ IQ.ofQ (x y) ≤ v) := by
  have hb := h.inv.reach.base
  have hroot : ∀ α x, LRA.ModelZ (DL.Th S.th.2) (S.left 1) U α x → α.sat p := fun α x hm =>
    hb.lra.true hm (by rw [hb.lra.rinv.inv.wf.root_dec hr]; intro l hl; cases hl) hp
  refine ⟨fun hn α x X => ?_, fun hn α x X => ?_⟩
  · refine model_putL.trans ?_
    have m := (LRA.setLbC_sinv hb.lra hr hy hp hn).2.2.1 α x
    refine ⟨fun ⟨a, b⟩ => ?_, fun ⟨a, b⟩ => ⟨m.mpr ⟨a.arith, fun _ => WithBot.coe_le_coe.mpr b⟩, a.dist⟩⟩
    obtain ⟨a1, a2⟩ := m.mp a
    exact ⟨⟨a1.zero, a1.posted, a1.lits, a1.defs, a1.user, b⟩, WithBot.coe_le_coe.mp (a2 (hroot α x a1))⟩
  · refine model_putL.trans ?_
    have m := (LRA.setUbC_sinv hb.lra hr hy hp hn).2.2.1 α x
    refine ⟨fun ⟨a, b⟩ => ?_, fun ⟨a, b⟩ => ⟨m.mpr ⟨a.arith, fun _ => WithTop.coe_le_coe.mpr b⟩, a.dist⟩⟩
    obtain ⟨a1, a2⟩ := m.mp a
    exact ⟨⟨a1.zero, a1.posted, a1.lits, a1.defs, a1.user, b⟩, WithTop.coe_le_coe.mp (a2 (hroot α x a1))⟩

/-- C66 (partial): `new_distance` returns a literal that, in every solution of the resulting network (of both theories), is true exactly when the distance is within the bound; no solution is
lost, none is gained. Missing: as for `C66_sound_partial`. -/
theorem C66_distance_partial (h : Sess E L S U d) {i j : Nat} {w : W} {s : Sat (DL W)} {p : Lit} (hi : i < S.th.2.nv) (hj : j < S.th.2.nv) (hn : DL.newDistance (S.right 1) i j w = .ok (s, p)) :
    (∀ α x X, Model (S.putR 1 s) U α x X → α.all S.decisions → (α.sat p ↔ X j - X i ≤ w)) ∧
    (∀ α x X, Model (S.putR 1 s) U α x X → Model S U α x X) ∧
    (∀ α x X, Model S U α x X → ∃ β, Asg.agree S.nvars α β ∧ Model (S.putR 1 s) U β x X) :=
  putR_conserves h.inv.reach.base (DL.newDistance_adds h.inv.reach.base.dl hi hj hn)

/-- C66 (partial): the relational constructors of difference logic over the integers. Missing: as for `C66_sound_partial`, and the `new_gt` of bug C33. -/
theorem C66_idl_partial {S : Sat (LRA × DL ℤ)} (h : Sess E L S U d) {R : DL.Rel} {l r : Lin} {s : Sat (DL ℤ)} {p : Lit} (hl : l.Canon) (hr : r.Canon) (hlv : ∀ t ∈ l.vars, t.1 < S.th.2.nv)
    (hrv : ∀ t ∈ r.vars, t.1 < S.th.2.nv) (hb : R = .gt → ¬ ∃ a b c c', 0 < c ∧ (l.sub r).vars = [(a, c), (b, c')]) (hn : DL.newRel E R (S.right 1) l r = .ok (s, p)) :
    (∀ α x (X : Nat → ℤ), X 0 = 0 → Model (S.putR 1 s) U α x X → α.all S.decisions → (α.sat p ↔ R.holds (l.eval 1 (fun i => (X i : ℚ))) (r.eval 1 (fun i => (X i : ℚ))))) ∧
    (∀ α x X, Model (S.putR 1 s) U α x X → Model S U α x X) ∧
    (∀ α x X, Model S U α x X → ∃ β, Asg.agree S.nvars α β ∧ Model (S.putR 1 s) U β x X) := by
  have hB := h.inv.reach.base
  obtain ⟨Q, hS, hQ⟩ := DL.newRel_shape DL.intI hB.dl.nv_pos hl hr hlv hrv (fun hg => hb hg.1 hg.2.2) hn
  obtain ⟨a, b, c⟩ := putR_conserves hB (hS.adds hB.dl)
  exact ⟨fun α x X h0 hm hd => (a α x X hm hd).trans (hQ X (by simp [DL.intI, h0])), b, c⟩

/-- C66 (partial): the relational constructors of difference logic over the rationals. Missing: as for `C66_sound_partial`. -/
theorem C66_rdl_partial {S : Sat (LRA × DL (ℚ ×ₗ ℤ))} (h : Sess E L S U d) {R : DL.Rel} {l r : Lin} {s : Sat (DL (ℚ ×ₗ ℤ))} {p : Lit} (hl : l.Canon) (hr : r.Canon)
    (hlv : ∀ t ∈ l.vars, t.1 < S.th.2.nv) (hrv : ∀ t ∈ r.vars, t.1 < S.th.2.nv) (hn : DL.newRel E R (S.right 1) l r = .ok (s, p)) :
    (∀ α x (z : Nat → ℚ), z 0 = 0 → Model (S.putR 1 s) U α x (fun i => toLex (z i, 0)) → α.all S.decisions → (α.sat p ↔ R.holds (l.eval 1 z) (r.eval 1 z))) ∧
    (∀ α x X, Model (S.putR 1 s) U α x X → Model S U α x X) ∧
    (∀ α x X, Model S U α x X → ∃ β, Asg.agree S.nvars α β ∧ Model (S.putR 1 s) U β x X) := by
  have hB := h.inv.reach.base
  obtain ⟨Q, hS, hQ⟩ := DL.newRel_shape DL.ratI hB.dl.nv_pos hl hr hlv hrv (fun hg => by cases hg.2.1) hn
  obtain ⟨a, b, c⟩ := putR_conserves hB (hS.adds hB.dl)
  exact ⟨fun α x z h0 hm hd => (a α x _ hm hd).trans (hQ z h0), b, c⟩

/-! ### C67: no failure -/

/-- C67 (partial): with the two theories attached, every legal call on the core that tells the difference-logic theory no literal in an unsafe situation terminates without failing.
Missing: the calls that do (`C67_witness`). -/
theorem C67_core_calls_partial (h : Sess E L S U d) {op : Sat.Op} (hl : S.Legal op) (hm : LRA.MayCall op d) (ha : Avoids E L S op) : ∃ S' out, S.step E (ops L) op = .ok (S', out) := by
  rcases h.inv.total hl hm with e | ⟨s1, o1, e⟩
  · exact absurd e ha
  · exact ⟨s1, o1, (safe_eq ha).symm.trans e⟩

/-- C67: so do the calls on the theories. -/
theorem C67_theory_calls (h : Sess E L S U d) (hd : S.dead = false) (hroot : S.root = true) :
    (∀ (R : LRA.Rel4) (l r : Lin), l.Canon → r.Canon → (∀ w ∈ keys l.vars, w < S.th.1.n) → (∀ w ∈ keys r.vars, w < S.th.1.n) →
      (∃ s p, LRA.newRel R (S.left 1) l r = .ok (s, p)) ∧ ∃ s p, LRA.newEqL E (S.left 1) l r = .ok (s, p)) ∧
    (∀ l : Lin, l.vars ≠ [] → (∀ w ∈ keys l.vars, w < S.th.1.n) → ∃ t y, S.th.1.newVarL S.root l = .ok (t, y)) ∧
    (∀ y (v : IQ) p, y < S.th.1.n → S.value p = some true → 0 ≤ (ofLex v).2 → ∃ s r, LRA.setLbC E L (S.left 1) y v p = .ok (s, r)) ∧
    (∀ y (v : IQ) p, y < S.th.1.n → S.value p = some true → (ofLex v).2 ≤ 0 → ∃ s r, LRA.setUbC E L (S.left 1) y v p = .ok (s, r)) ∧
    (∀ i j (w : W), i < S.th.2.nv → j < S.th.2.nv → ∃ s p, DL.newDistance (S.right 1) i j w = .ok (s, p)) ∧
    (∀ R l r, l.Canon → r.Canon → (∀ t ∈ l.vars, t.1 < S.th.2.nv) → (∀ t ∈ r.vars, t.1 < S.th.2.nv) → (DL.form (W := W) (l.sub r)).isSome → ∃ s p, DL.newRel E R (S.right 1) l r = .ok (s, p)) := by
  have hb := h.inv.reach.base
  have ha := (h.inv.alive hd).lra
  refine ⟨fun R l r hl hr hvl hvr => ⟨LRA.newRel_total hb.lra hroot R hl hr hvl hvr, LRA.newEqL_total hb.lra hroot hl hr hvl hvr⟩,
    fun l hne hv => LRA.newVarL_total (s := S.left 1) hroot hne hv, fun x v p hx hp hv => ?_, fun x v p hx hp hv => ?_,
    fun _ _ _ hi hj => DL.newDistance_total hb.dl hi hj, fun _ _ _ hl hr hlv hrv hf => DL.newRel_total hb.dl hroot hl hr hlv hrv hf⟩
  · obtain ⟨s1, r, h1, -⟩ := LRA.setLbC_alive (E := E) hb.lra ha hroot hx hp hv
    exact ⟨s1, r, h1⟩
  · obtain ⟨s1, r, h1, -⟩ := LRA.setUbC_alive (E := E) hb.lra ha hroot hx hp hv
    exact ⟨s1, r, h1⟩

/-! ### C68: a true answer is backed by values and positions -/

theorem CInv.quiet {op : Sat.Op} (h : CInv E L S U d) (hl : S.Legal op) (hop : LRA.Propagates op) (hs : S.step E (safeOps L) op = .ok (S', .bool true)) : S'.propQ = [] ∧ S'.dead = false :=
  Sat.step_quiet h.reach.base.rinv.inv (h.liveD hl.1).live hl (by cases op <;> exact hop) hs

theorem CInv.within {op : Sat.Op} (h : CInv E L S U d) (hl : S.Legal op) (hm : LRA.MayCall op d) (hop : LRA.Propagates op) (hs : S.step E (safeOps L) op = .ok (S', .bool true)) :
    ∀ v, LRA.InB (S'.th.1.lo v) (S'.th.1.hi v) (S'.th.1.vals v) := by
  obtain ⟨-, hin⟩ := h.step hl hm hs
  cases op with
  | propagate => exact hin rfl
  | assume p => exact hin rfl
  | next => exact hin rfl
  | simplify => exact hin rfl
  | _ => exact hop.elim

theorem CInv.backed (h : CInv E L S U d) (hq : S.propQ = []) (hd : S.dead = false) (hin : ∀ v, LRA.InB (S.th.1.lo v) (S.th.1.hi v) (S.th.1.vals v)) :
    (∀ d ∈ S.th.1.defs, S.th.1.vals d.1 = d.2.eval IQ.one S.th.1.vals) ∧ ∃ δ0 : ℚ, 0 < δ0 ∧ ∀ δ, 0 < δ → δ ≤ δ0 → LRA.Agrees (S.left 1) U (LRA.withEps δ S.th.1.vals) :=
  LRA.backed_of h.reach.base.lra (h.alive hd).lra h.user hq hin

theorem CInv.clauses (h : CInv E L S U d) (hq : S.propQ = []) (hd : S.dead = false) :
    ∀ D ∈ S.posted, (∃ l ∈ D, S.value l = some true) ∨ ∃ x ∈ D, ∃ y ∈ D, x ≠ y ∧ S.value x = none ∧ S.value y = none :=
  fun _ hD => Semitone.fixpoint_any h.reach.base.rinv (h.liveD hd).live.fix hd hq hD

theorem CInv.solution (h : CInv E L S U d) (hq : S.propQ = []) (hd : S.dead = false) (hall : ∀ v, v < S.nvars → S.assigns v ≠ none) {x : Nat → ℚ} {X : Nat → W}
    (hx : LRA.Agrees (S.left 1) U x) (hX : DL.Fits (S.right 1) X) : Model S U (fun v => S.assigns v = some true) x X := by
  have hb := h.reach.base
  refine ⟨by simp [hb.rinv.inv.wf.fv], fun D hD => ?_, fun b a hb' => ?_, hx.defs, fun g hg => hx.user g hg _, fun v dd hv => ?_⟩
  · rcases h.clauses hq hd D hD with ⟨l, hl, hv⟩ | ⟨x, hx, -, -, -, hv, -⟩
    · refine ⟨l, hl, ?_⟩
      rw [Sat.value_true] at hv
      unfold Asg.sat
      simp only [hv]
      cases l.sign <;> rfl
    · rw [Sat.value_none] at hv
      exact absurd hv (hall _ (hb.rinv.inv.prng D hD x hx))
  · obtain ⟨sg, hsg⟩ : ∃ sg, S.assigns b = some sg := Option.ne_none_iff_exists'.mp (hall b (hb.lra.fresh b a hb'))
    rw [← hx.lits b a sg hb' hsg]; simp only [hsg]
    cases sg <;> simp
  · obtain ⟨sg, hsg⟩ : ∃ sg, S.assigns v = some sg := Option.ne_none_iff_exists'.mp (hall v (hb.dl.fresh v dd hv))
    rw [← hX v dd sg hv hsg]; simp only [hsg]
    cases sg <;> simp

/-- C68 (partial): when a call that propagates (`propagate`, `assume`, `next`, `simplify_db`) returns true, the values the arithmetic theory reports are within the bounds it reports and,
giving the infinitesimal any small enough value, satisfy the definitions, the imposed bounds and what every decided arithmetic literal says; there are positions of the time points that
satisfy what every decided distance literal says, and the distances reported are exactly the bounds these positions have: the literals decided are consistent with both theories.
Missing: the calls that tell the difference-logic theory a literal in an unsafe situation. -/
theorem C68_backed_partial (h : Sess E L S U d) {op : Sat.Op} (hl : S.Legal op) (hm : LRA.MayCall op d) (hop : LRA.Propagates op) (ha : Avoids E L S op) (hs : S.step E (ops L) op = .ok (S', .bool true)) :
    (∀ v, S'.th.1.lo v ≤ ((S'.th.1.vals v : IQ) : WithBot IQ) ∧ ((S'.th.1.vals v : IQ) : WithTop IQ) ≤ S'.th.1.hi v) ∧
    (∀ d ∈ S'.th.1.defs, S'.th.1.vals d.1 = d.2.eval IQ.one S'.th.1.vals) ∧
    (∃ δ0 : ℚ, 0 < δ0 ∧ ∀ δ, 0 < δ → δ ≤ δ0 → LRA.Agrees (S'.left 1) U (LRA.withEps δ S'.th.1.vals)) ∧
    (∃ X, DL.Fits (S'.right 1) X) ∧
    (∀ i j, i < S'.th.2.nv → j < S'.th.2.nv →
      (∀ X, DL.Fits (S'.right 1) X → ((X j - X i : W) : WithTop W) ≤ (S'.th.2.distance i j).2) ∧
      (∀ a : W, (S'.th.2.distance i j).2 = (a : WithTop W) → ∃ X, DL.Fits (S'.right 1) X ∧ X j - X i = a) ∧
      ((S'.th.2.distance i j).2 = ⊤ → ∀ M : W, ∃ X, DL.Fits (S'.right 1) X ∧ M < X j - X i)) := by
  have hsafe := (safe_eq ha).trans hs
  obtain ⟨hz, -⟩ := h.inv.step hl hm hsafe
  obtain ⟨hq, hd⟩ := h.inv.quiet hl hop hsafe
  have hin := h.inv.within hl hm hop hsafe
  obtain ⟨b1, b2⟩ := hz.backed hq hd hin
  obtain ⟨p1, p2, -⟩ := DL.positions_of hz.reach.base.dl (hz.alive hd).dl hq
  exact ⟨hin, b1, b2, p1, p2⟩

/-- C68 (partial): and every posted clause is satisfied or has two unassigned literals. -/
theorem C68_clauses_partial (h : Sess E L S U d) {op : Sat.Op} (hl : S.Legal op) (hm : LRA.MayCall op d) (hop : LRA.Propagates op) (ha : Avoids E L S op) (hs : S.step E (ops L) op = .ok (S', .bool true)) :
    ∀ D ∈ S'.posted, (∃ l ∈ D, S'.value l = some true) ∨ ∃ x ∈ D, ∃ y ∈ D, x ≠ y ∧ S'.value x = none ∧ S'.value y = none := by
  have hsafe := (safe_eq ha).trans hs
  obtain ⟨hq, hd⟩ := h.inv.quiet hl hop hsafe
  exact (h.inv.step hl hm hsafe).1.clauses hq hd

/-- C68 (partial): with every variable of the core assigned, the assignment, the reported values (with any small enough infinitesimal) and any positions that satisfy the decided distance
literals (there are some) are a solution of the network. -/
theorem C68_solution_partial (h : Sess E L S U d) {op : Sat.Op} (hl : S.Legal op) (hm : LRA.MayCall op d) (hop : LRA.Propagates op) (ha : Avoids E L S op) (hs : S.step E (ops L) op = .ok (S', .bool true))
    (hall : ∀ v, v < S'.nvars → S'.assigns v ≠ none) :
    ∃ δ0 : ℚ, 0 < δ0 ∧ (∃ X, DL.Fits (S'.right 1) X) ∧ ∀ δ, 0 < δ → δ ≤ δ0 → ∀ X, DL.Fits (S'.right 1) X → Model S' U (fun v => S'.assigns v = some true) (LRA.withEps δ S'.th.1.vals) X := by
  have hsafe := (safe_eq ha).trans hs
  obtain ⟨hz, -⟩ := h.inv.step hl hm hsafe
  obtain ⟨hq, hd⟩ := h.inv.quiet hl hop hsafe
  obtain ⟨-, -, ⟨δ0, h0, f⟩, p1, -⟩ := C68_backed_partial h hl hm hop ha hs
  exact ⟨δ0, h0, p1, fun δ h1 h2 X hX => hz.solution hq hd hall (f δ h1 h2) hX⟩

/-! ### C69: the client decides -/

theorem model_eq (hsig : LRA.sig S'.th.1 = LRA.sig S.th.1) (hvd : S'.th.2.vd = S.th.2.vd) (hpo : S'.posted = S.posted) (hm : Model S' U α x X) : Model S U α x X := by
  have hvas : S'.th.1.vas = S.th.1.vas := congrArg LRA.Sig.vas hsig
  have hdefs : S'.th.1.defs = S.th.1.defs := congrArg LRA.Sig.defs hsig
  exact ⟨hm.zero, by rw [← hpo]; exact hm.posted, by rw [← hvas]; exact hm.lits, by rw [← hdefs]; exact hm.defs, hm.user, by rw [← hvd]; exact hm.dist⟩

/-- The run of the client reaches no unsafe propagation. -/
def SolveAvoids (E : Env) (L : LEnv) (pick : Sat (LRA × DL W) → Option Lit) (k : Nat) (S : Sat (LRA × DL W)) : Prop := Sat.solve E (safeOps L) pick k S ≠ .error .excluded

/-- C69 (partial): from every state of a session with the two theories that is not known to be inconsistent, whatever the heuristic, the client that decides until all variables are assigned
stops within the given number of decisions, without failure, and its answer is right: true with a truth assignment, rational values and positions that are a solution of the network, false
when there is none. Missing: runs that tell the difference-logic theory a literal in an unsafe situation. -/
theorem C69_decides_partial (h : Sess E L S U d) (hd : S.dead = false) {pick : Sat (LRA × DL W) → Option Lit} (hh : Sat.Heuristic pick) {k : Nat}
    (hk : (S.nvars + 2) ^ (S.dl + S.nvars + 1) ≤ k) (ha : SolveAvoids E L pick k S) :
    ∃ S' b, Sat.solve E (ops L) pick k S = .ok (S', b) ∧
      (b = true → (∀ v, v < S.nvars → S'.assigns v ≠ none) ∧ ∃ δ0 : ℚ, 0 < δ0 ∧ (∃ X, DL.Fits (S'.right 1) X) ∧
        ∀ δ, 0 < δ → δ ≤ δ0 → ∀ X, DL.Fits (S'.right 1) X → Model S U (fun v => S'.assigns v = some true) (LRA.withEps δ S'.th.1.vals) X) ∧
      (b = false → ¬ ∃ α x X, Model S U α x X) := by
  have hz := h.inv
  have hb := hz.reach.base
  suffices hsuf : Sat.solve E (safeOps L) pick k S = .error .excluded ∨ ∃ S' b, Sat.solve E (safeOps L) pick k S = .ok (S', b) ∧
      (b = true → (∀ v, v < S.nvars → S'.assigns v ≠ none) ∧ ∃ δ0 : ℚ, 0 < δ0 ∧ (∃ X, DL.Fits (S'.right 1) X) ∧
        ∀ δ, 0 < δ → δ ≤ δ0 → ∀ X, DL.Fits (S'.right 1) X → Model S U (fun v => S'.assigns v = some true) (LRA.withEps δ S'.th.1.vals) X) ∧
      (b = false → ¬ ∃ α x X, Model S U α x X) by
    rw [(Sat.guards_solve (E := E) (safe_guards L) pick k S).resolve_left ha] at hsuf
    refine hsuf.resolve_left (fun e => ha ?_)
    rw [(Sat.guards_solve (E := E) (safe_guards L) pick k S).resolve_left ha]
    exact e
  unfold Sat.solve
  rcases Sat.propagate_live (E := E) hb.rinv.inv (hz.liveD hd).live with ⟨e, he, h1⟩ | ⟨s1, b, h1, -⟩
  · rcases he with he | he
    · exact he.elim
    · have he : e = .excluded := he
      subst he
      rw [h1]
      exact .inl rfl
  have D1 := Sat.propagate_spec hb.rinv.inv h1
  rw [h1]
  cases b with
  | false => exact .inr ⟨s1, false, rfl, by simp, fun _ ⟨α, x, X, hm⟩ => (D1.bad rfl).2.2 α (hb.sol hm)⟩
  | true =>
    have hst : S.step E (safeOps L) .propagate = .ok (s1, .bool true) := by simp only [Sat.step, h1]; rfl
    have hl : S.Legal .propagate := ⟨hd, trivial⟩
    have R1 : CInv E L s1 U false := (hz.step hl trivial hst).1
    obtain ⟨q1, q2⟩ := hz.quiet hl trivial hst
    have i1 := hz.within hl trivial trivial hst
    have keep : ∀ {u u' : Sat (LRA × DL W)} {op out}, CInv E L u U false → op ≠ .simplify → u.step E (safeOps L) op = .ok (u', out) →
        LRA.sig u'.th.1 = LRA.sig u.th.1 ∧ u'.th.2.vd = u.th.2.vd := fun hu hop hs => by
      obtain ⟨-, -, a, b, -⟩ := hu.reach.base.step (fun e => absurd e hop) hs
      exact ⟨a, b⟩
    have hsig1 : LRA.sig s1.th.1 = LRA.sig S.th.1 ∧ s1.th.2.vd = S.th.2.vd := by
      obtain ⟨-, -, a, b, -⟩ := hb.step (fun e => by cases e) hst
      exact ⟨a, b⟩
    have hdl := D1.evo.dl
    have hnv := D1.evo.nv
    have hw := Sat.weight_bound s1 (s1.dl + s1.nvars)
    have hpow : (s1.nvars + 2) ^ (s1.dl + s1.nvars + 1) ≤ (S.nvars + 2) ^ (S.dl + S.nvars + 1) := by
      rw [hnv]; exact Nat.pow_le_pow_right (by omega) (by omega)
    rcases Sat.solveLoop_permits (F := fun e => e = .excluded) (E := E) (C := contract L (LRA.sig S.th.1) S.th.2.vd) hh
      (P := fun u => CInv E L u U false ∧ u.dead = false ∧ u.propQ = [] ∧ (LRA.sig u.th.1 = LRA.sig S.th.1 ∧ u.th.2.vd = S.th.2.vd) ∧ ∀ v, LRA.InB (u.th.1.lo v) (u.th.1.hi v) (u.th.1.vals v))
      (fun u hu => by have := hu.1.reach.base.rinv.inv; rw [hu.2.2.2.1.1, hu.2.2.2.1.2] at this; exact this)
      (fun u p ⟨a1, a2, a3, a4, a5⟩ hp hv => by
        have hlu : u.Legal (.assume p) := ⟨a2, a3, hp⟩
        rcases a1.total (op := .assume p) hlu rfl with e1 | ⟨u', o, e1⟩
        · left
          simp only [Sat.step] at e1
          match hp : u.assume E (safeOps L) p with
          | .error e =>
            rw [hp] at e1
            injection e1 with e1
            exact ⟨e, e1, rfl⟩
          | .ok v => rw [hp] at e1; cases e1
        · right
          have e0 := e1
          simp only [Sat.step] at e0
          match hp : u.assume E (safeOps L) p with
          | .error e => rw [hp] at e0; cases e0
          | .ok (w, b) =>
            rw [hp] at e0
            injection e0 with e0; injection e0 with e2 e3
            subst e2 e3
            refine ⟨w, b, rfl, fun hb => ?_⟩
            subst hb
            obtain ⟨r1, r2⟩ := a1.quiet hlu trivial e1
            obtain ⟨k1, k2⟩ := keep a1 (by simp) e1
            exact ⟨(a1.step hlu rfl e1).1, r2, r1, ⟨k1.trans a4.1, k2.trans a4.2⟩, a1.within hlu rfl trivial e1⟩) k s1 s1.dl
      ⟨R1, q2, q1, hsig1, i1⟩ (fun i a b => by omega) (by omega) with ⟨e, he, g⟩ | ⟨s2, b2, g1, g2, g3, g4, g5, g6⟩
    · subst he
      exact .inl g
    refine .inr ⟨s2, b2, g1, fun hb' => ?_, fun hb' ⟨α, x, X, hm⟩ => ?_⟩
    · obtain ⟨⟨a1, a2, a3, a4, a5⟩, a6⟩ := g5 hb'
      refine ⟨fun v hv => a6 v (by rw [g3, hnv]; exact hv), ?_⟩
      obtain ⟨-, δ0, h0, f⟩ := a1.backed a3 a2 a5
      obtain ⟨p1, -, -⟩ := DL.positions_of a1.reach.base.dl (a1.alive a2).dl a3
      exact ⟨δ0, h0, p1, fun δ x1 x2 X hX => model_eq a4.1 a4.2 (g2.trans D1.evo.posted) (a1.solution a3 a2 a6 (f δ x1 x2) hX)⟩
    · exact g6 hb' α (D1.sol α |>.mpr (hb.sol hm))

end Mix
end Semitone
