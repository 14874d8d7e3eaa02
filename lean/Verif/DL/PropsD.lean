import Verif.DL.Session
import Verif.LRA.PropsE

/-!
# Difference logic inside the core: C60, C61, C62, C63 (sessions)

Solutions of the network: `Model` (`DL/Sys.lean`). Sessions: `DSess` (`DL/Session.lean`). C62 itself, for all sessions: `DL/Play.lean`.
-/
namespace Semitone
namespace DL
variable {W : Type} [AddCommGroup W] [LinearOrder W] [IsOrderedAddMonoid W] [Dom W]
variable {E : Env} {s s' : Sat (DL W)}

/-! ### Specification -/

/-- The positions `X` satisfy what the decided constraint literals say. -/
def Fits (s : Sat (DL W)) (X : Nat → W) : Prop := ∀ v dd sg, s.th.vd v = some dd → s.assigns v = some sg → (sg = true ↔ X dd.tgt - X dd.src ≤ dd.w)

/-! ### C60 -/

/-- C60 (partial): in every session, every clause stored follows from the posted clauses and the meaning of the constraint literals; every value assigned follows from the decisions of
its level; a definitive inconsistency means that there is no solution; every distance reported bounds the difference of the positions in every solution compatible with the decisions.
Missing: calls that tell the theory a literal in an unsafe situation (`C60_witness`). -/
theorem C60_sound_partial (h : DSess E s) :
    (∀ c ∈ s.constrs, ∀ α X, Model s α X → α.clause (s.db c)) ∧
    (∀ q, s.value q = some true → ∀ α X, Model s α X → α.all (s.decUpTo (s.level q.var)) → α.sat q) ∧
    (s.dead = true → ∀ α X, ¬ Model s α X) ∧
    (∀ i j, i < s.th.nv → j < s.th.nv → ∀ α X, Model s α X → α.all s.decisions → ((X j - X i : W) : WithTop W) ≤ (s.th.distance i j).2) :=
  C30_solver_partial h.inv.reach

/-- C60 (partial): `propagate()` returning false is definitive; `assume` returning false means that no solution is compatible with the decisions. Missing: as for `C60_sound_partial`. -/
theorem C60_definitive_partial (h : DSess E s) :
    (Avoids E s .propagate → s.propagate E ops = .ok (s', false) → s'.root = true ∧ ∀ α X, ¬ Model s α X) ∧
    (∀ p, Avoids E s (.assume p) → s.assume E ops p = .ok (s', false) → ∀ α X, Model s α X → ¬ α.all (p :: s.decisions)) := by
  have hi := h.inv.reach
  refine ⟨fun ha hs => ?_, fun p ha hs α X hm hd => ?_⟩
  · have hs' : s.propagate E safeOps = .ok (s', false) := by
      refine ((Sat.guards_propagate (E := E) safe_guards s).resolve_left (fun e => ha ?_)).trans hs
      simp only [Sat.step, e]
      rfl
    have d := Sat.propagate_spec hi.rinv.inv hs'
    exact ⟨(d.bad rfl).2.1, fun α X hm => (d.bad rfl).2.2 α hm.sol⟩
  · have hs' : s.assume E safeOps p = .ok (s', false) := by
      refine ((Sat.guards_assume (E := E) safe_guards s p).resolve_left (fun e => ha ?_)).trans hs
      simp only [Sat.step, e]
      rfl
    exact ((Sat.assume_spec hi.rinv.inv hs').facts hi.rinv.inv).jump (Or.inr rfl) α hm.sol hd

/-! ### C61 -/

/-- C61 (partial): with the difference-logic theory attached, every legal call on the core that tells the theory no literal in an unsafe situation terminates without failing (every
`propagate()` included, whatever conflicts and lemmas the theory produces). Missing: the calls that do (`C61_witness`). -/
theorem C61_core_calls_partial (h : DSess E s) {op : Sat.Op} (hl : s.Legal op) (hm : MayCall op) (ha : Avoids E s op) : ∃ s' out, s.step E ops op = .ok (s', out) := by
  rcases h.inv.total hl hm with e | ⟨s1, o1, e⟩
  · exact absurd e ha
  · exact ⟨s1, o1, ha.eq.symm.trans e⟩

/-- C61: so do the calls on the theory: `new_distance` on existing time points, the relational constructors at root level on expressions of difference form over existing time points. -/
theorem C61_theory_calls (h : DSess E s) :
    (∀ i j (w : W), i < s.th.nv → j < s.th.nv → ∃ s' p, newDistance s i j w = .ok (s', p)) ∧
    (s.root = true → ∀ R l r, l.Canon → r.Canon → (∀ t ∈ l.vars, t.1 < s.th.nv) → (∀ t ∈ r.vars, t.1 < s.th.nv) → (form (W := W) (l.sub r)).isSome → ∃ s' p, newRel E R s l r = .ok (s', p)) :=
  ⟨fun _ _ _ hi hj => newDistance_total h.inv.reach.sinv hi hj, fun hroot _ _ _ hl hr hlv hrv hf => newRel_total h.inv.reach.sinv hroot hl hr hlv hrv hf⟩

/-! ### C62 -/

/-- The calls that propagate. -/
def Propagates (op : Sat.Op) : Prop :=
  match op with
  | .propagate | .assume _ | .next | .simplify => True
  | _ => False

/-- After a call that propagates and returns true nothing is queued and the core is not inconsistent. -/
theorem DInv.quiet {op : Sat.Op} (h : DInv E s) (hl : s.Legal op) (hop : Propagates op) (hs : s.step E safeOps op = .ok (s', .bool true)) :
    s'.propQ = [] ∧ s'.dead = false :=
  Sat.step_quiet h.reach.rinv.inv (h.alive hl.1).live hl (by cases op <;> exact hop) hs

/-- Positions within the distances satisfy the decided literals. -/
theorem pot_fits_of {Z : Asg → Prop} {d : Bool} (hi : SInv Z s) (ha : DLiveD s d) (hq : s.propQ = []) {X : Nat → W} (hX : Pot s.th.nv s.th.d X) : Fits s X := by
  intro v dd sg hv hsg
  obtain ⟨hr, -⟩ := hi.parts
  have ht := (hi.rinv.inv.wf.tru_iff ⟨v, sg⟩).mpr ((Sat.value_true s ⟨v, sg⟩).mpr hsg)
  rcases ha.live.li.top.told v dd sg hv ht with hp | he
  · have hp : (⟨v, sg⟩ : Lit) ∈ s.propQ := hp
    rw [hq] at hp; cases hp
  · have a := (hr.vd v dd hv).2.1
    have b := (hr.vd v dd hv).2.2.1
    have := ent_holds hX a b he
    unfold Holds at this
    cases sg <;> simpa using this

/-- The asserted constraints are decided literals. -/
theorem fits_dist_of {Z : Asg → Prop} (h : SInv Z s) {X : Nat → W} (hX : Fits s X) {i j : Nat} (hi : i < s.th.nv) (hj : j < s.th.nv) : ((X j - X i : W) : WithTop W) ≤ s.th.d i j := by
  obtain ⟨hr, As, hg, hv⟩ := h.parts
  refine hg.coreG.core.sound X (fun e he => ?_) i j hi hj
  have h1 := hX e.1.b e.1 e.2 (hg.coreG.reg e he) ((Sat.value_true _ _).mp (hv e he))
  unfold Holds
  cases e2 : e.2 <;> rw [e2] at h1 <;> simpa using h1

theorem closed_of {Z : Asg → Prop} (h : SInv Z s) : Closed s.th.nv s.th.d := by
  obtain ⟨_, As, hg, _⟩ := h.parts
  exact hg.coreG.core.closed

theorem DInv.clauses (h : DInv E s) (hq : s.propQ = []) (hd : s.dead = false) :
    ∀ D ∈ s.posted, (∃ l ∈ D, s.value l = some true) ∨ ∃ x ∈ D, ∃ y ∈ D, x ≠ y ∧ s.value x = none ∧ s.value y = none :=
  fun _ hD => Semitone.fixpoint_any h.reach.rinv (h.alive hd).live.fix hd hq hD

theorem DInv.solution (h : DInv E s) (hq : s.propQ = []) (hd : s.dead = false) (hall : ∀ v, v < s.nvars → s.assigns v ≠ none) {X : Nat → W} (hX : Fits s X) :
    Model s (fun v => s.assigns v = some true) X := by
  have hi := h.reach.sinv
  refine ⟨by simp [hi.rinv.inv.wf.fv], fun D hD => ?_, fun b a hb => ?_⟩
  · rcases h.clauses hq hd D hD with ⟨l, hl, hv⟩ | ⟨x, hx, -, -, -, hv, -⟩
    · refine ⟨l, hl, ?_⟩
      rw [Sat.value_true] at hv
      unfold Asg.sat
      simp only [hv]
      cases l.sign <;> rfl
    · rw [Sat.value_none] at hv
      exact absurd hv (hall _ (hi.rinv.inv.prng D hD x hx))
  · obtain ⟨sg, hsg⟩ : ∃ sg, s.assigns b = some sg := Option.ne_none_iff_exists'.mp (hall b (hi.fresh b a hb))
    rw [← hX b a sg hb hsg]; simp only [hsg]
    cases sg <;> simp

/-- Nothing is queued: the decided literals are consistent, the distances are exact, and the undecided constraints are open (whatever else is attached to the core). -/
theorem positions_of {Z : Asg → Prop} {d : Bool} (hi' : SInv Z s') (ha' : DLiveD s' d) (hq : s'.propQ = []) :
    (∃ X, Fits s' X) ∧
    (∀ i j, i < s'.th.nv → j < s'.th.nv →
      (∀ X, Fits s' X → ((X j - X i : W) : WithTop W) ≤ (s'.th.distance i j).2) ∧
      (∀ a : W, (s'.th.distance i j).2 = (a : WithTop W) → ∃ X, Fits s' X ∧ X j - X i = a) ∧
      ((s'.th.distance i j).2 = ⊤ → ∀ M : W, ∃ X, Fits s' X ∧ M < X j - X i)) ∧
    (∀ v dd, s'.th.vd v = some dd → s'.assigns v = none →
      (∃ X, Fits s' X ∧ X dd.tgt - X dd.src ≤ dd.w) ∧ ∃ X, Fits s' X ∧ ¬ X dd.tgt - X dd.src ≤ dd.w) := by
  have hc := closed_of hi'
  obtain ⟨hr, -⟩ := hi'.parts
  refine ⟨?_, fun i j hi hj => ⟨fun X hX => fits_dist_of hi' hX hi hj, fun a e => ?_, fun e M => ?_⟩, fun v dd hv hn => ?_⟩
  · obtain ⟨X, hX⟩ := base_pot hc
    exact ⟨X, pot_fits_of hi' ha' hq hX⟩
  · obtain ⟨X, hX, e'⟩ := (far_pot hc hi hj).1 a e
    exact ⟨X, pot_fits_of hi' ha' hq hX, e'⟩
  · obtain ⟨X, hX, e'⟩ := (far_pot hc hi hj).2 e M
    exact ⟨X, pot_fits_of hi' ha' hq hX, e'⟩
  · have hund : ∀ sg, ¬ Ent s'.th.d dd sg := ha'.live.li.top.und v dd hv (fun sg ht => by
      have := (Sat.value_true s' ⟨v, sg⟩).mp ht.1
      rw [hn] at this; cases this)
    have key : ∀ sg, ∃ X, Fits s' X ∧ ¬ Holds X (dd, sg) := by
      intro sg
      have a := (hr.vd v dd hv).2.1
      have b := (hr.vd v dd hv).2.2.1
      have hsn : es (dd, sg) < s'.th.nv := by unfold es; split <;> assumption
      have htn : et (dd, sg) < s'.th.nv := by unfold et; split <;> assumption
      obtain ⟨f1, f2⟩ := far_pot hc hsn htn
      have hu := hund sg
      unfold Ent at hu
      have : ∃ X, Pot s'.th.nv s'.th.d X ∧ ew (dd, sg) < X (et (dd, sg)) - X (es (dd, sg)) := by
        cases e : s'.th.d (es (dd, sg)) (et (dd, sg)) with
        | top => exact f2 e _
        | coe x =>
          obtain ⟨X, hX, e'⟩ := f1 x e
          refine ⟨X, hX, ?_⟩
          rw [e']
          rw [e] at hu
          exact_mod_cast not_le.mp hu
      obtain ⟨X, hX, hlt⟩ := this
      refine ⟨X, pot_fits_of hi' ha' hq hX, fun hh => ?_⟩
      rw [holds_iff] at hh
      exact absurd hh (not_le.mpr hlt)
    constructor
    · obtain ⟨X, hX, hh⟩ := key false
      refine ⟨X, hX, ?_⟩
      unfold Holds at hh
      simpa using hh
    · obtain ⟨X, hX, hh⟩ := key true
      refine ⟨X, hX, ?_⟩
      unfold Holds at hh
      simpa using hh

/-! ### C63 -/

theorem model_vd (hvd : s'.th.vd = s.th.vd) (hpo : s'.posted = s.posted) (α : Asg) (X : Nat → W) : Model s' α X ↔ Model s α X := by
  unfold Model
  rw [hvd, hpo]

/-- The run of the client reaches no unsafe propagation. -/
def SolveAvoids (E : Env) (pick : Sat (DL W) → Option Lit) (k : Nat) (s : Sat (DL W)) : Prop := Sat.solve E safeOps pick k s ≠ .error .excluded

/-- C63 (partial): from every state of a session that is not known to be inconsistent, whatever the heuristic, the client that decides until all variables are assigned stops within the
given number of decisions, without failure, and its answer is right: true with a truth assignment and positions that are a solution of the network, false when there is none.
Missing: runs that tell the theory a literal in an unsafe situation. -/
theorem C63_decides_partial (h : DSess E s) (hd : s.dead = false) {pick : Sat (DL W) → Option Lit} (hh : Sat.Heuristic pick) {k : Nat}
    (hk : (s.nvars + 2) ^ (s.dl + s.nvars + 1) ≤ k) (ha : SolveAvoids E pick k s) :
    ∃ s' b, Sat.solve E ops pick k s = .ok (s', b) ∧
      (b = true → (∀ v, v < s.nvars → s'.assigns v ≠ none) ∧ (∃ X, Fits s' X) ∧ ∀ X, Fits s' X → Model s (fun v => s'.assigns v = some true) X) ∧
      (b = false → ¬ ∃ α X, Model s α X) := by
  have hz := h.inv
  have hi := hz.reach
  suffices hsuf : Sat.solve E safeOps pick k s = .error .excluded ∨ ∃ s' b, Sat.solve E safeOps pick k s = .ok (s', b) ∧
      (b = true → (∀ v, v < s.nvars → s'.assigns v ≠ none) ∧ (∃ X, Fits s' X) ∧ ∀ X, Fits s' X → Model s (fun v => s'.assigns v = some true) X) ∧
      (b = false → ¬ ∃ α X, Model s α X) by
    rw [(Sat.guards_solve (E := E) safe_guards pick k s).resolve_left ha] at hsuf
    refine hsuf.resolve_left (fun e => ha ?_)
    rw [(Sat.guards_solve (E := E) safe_guards pick k s).resolve_left ha]
    exact e
  unfold Sat.solve
  rcases Sat.propagate_live (E := E) hi.rinv.inv (hz.alive hd).live with ⟨e, he, h1⟩ | ⟨s1, b, h1, -⟩
  · have he : e = .excluded := he
    subst he
    rw [h1]
    exact .inl rfl
  have D1 := Sat.propagate_spec hi.rinv.inv h1
  rw [h1]
  cases b with
  | false => exact .inr ⟨s1, false, rfl, by simp, fun _ ⟨α, X, hm⟩ => (D1.bad rfl).2.2 α hm.sol⟩
  | true =>
    have hst : s.step E safeOps .propagate = .ok (s1, .bool true) := by simp only [Sat.step, h1]; rfl
    have hl : s.Legal .propagate := ⟨hd, trivial⟩
    have R1 : DInv E s1 := hz.step hl trivial hst
    obtain ⟨q1, q2⟩ := hz.quiet hl trivial hst
    have vdOf : ∀ {u u' : Sat (DL W)} {op out}, DInv E u → op ≠ .simplify → u.step E safeOps op = .ok (u', out) → u'.th.vd = u.th.vd := fun hu hop hs =>
      (Sat.step_rinv hu.reach.rinv (fun e => absurd e hop) hs).inv.ti.1.1
    have hsig1 : s1.th.vd = s.th.vd := vdOf hz (by simp) hst
    have hdl := D1.evo.dl
    have hnv := D1.evo.nv
    have hw := Sat.weight_bound s1 (s1.dl + s1.nvars)
    have hpow : (s1.nvars + 2) ^ (s1.dl + s1.nvars + 1) ≤ (s.nvars + 2) ^ (s.dl + s.nvars + 1) := by
      rw [hnv]; exact Nat.pow_le_pow_right (by omega) (by omega)
    rcases Sat.solveLoop_permits (F := fun e => e = .excluded) (E := E) (C := dlContract s.th.vd) hh
      (P := fun u => DInv E u ∧ u.dead = false ∧ u.propQ = [] ∧ u.th.vd = s.th.vd)
      (fun u hu => by have := hu.1.reach.rinv.inv; rw [hu.2.2.2] at this; exact this)
      (fun u p ⟨a1, a2, a3, a4⟩ hp hv => by
        have hlu : u.Legal (.assume p) := ⟨a2, a3, hp⟩
        rcases a1.total (op := .assume p) hlu trivial with e1 | ⟨u', o, e1⟩
        · left
          simp only [Sat.step] at e1
          match hp : u.assume E safeOps p with
          | .error e =>
            rw [hp] at e1
            injection e1 with e1
            exact ⟨e, e1, rfl⟩
          | .ok v => rw [hp] at e1; cases e1
        · right
          have e0 := e1
          simp only [Sat.step] at e0
          match hp : u.assume E safeOps p with
          | .error e => rw [hp] at e0; cases e0
          | .ok (w, b) =>
            rw [hp] at e0
            injection e0 with e0; injection e0 with e2 e3
            subst e2 e3
            refine ⟨w, b, rfl, fun hb => ?_⟩
            subst hb
            obtain ⟨r1, r2⟩ := a1.quiet hlu trivial e1
            exact ⟨a1.step hlu trivial e1, r2, r1, (vdOf a1 (by simp) e1).trans a4⟩) k s1 s1.dl
      ⟨R1, q2, q1, hsig1⟩ (fun i a b => by omega) (by omega) with ⟨e, he, g⟩ | ⟨s2, b2, g1, g2, g3, g4, g5, g6⟩
    · subst he
      exact .inl g
    refine .inr ⟨s2, b2, g1, fun hb => ?_, fun hb ⟨α, X, hm⟩ => ?_⟩
    · obtain ⟨⟨a1, a2, a3, a4⟩, a6⟩ := g5 hb
      refine ⟨fun v hv => a6 v (by rw [g3, hnv]; exact hv), ?_, fun X hX => (model_vd a4 (g2.trans D1.evo.posted) _ _).mp (a1.solution a3 a2 a6 hX)⟩
      obtain ⟨X, hX⟩ := base_pot (closed_of a1.reach.sinv)
      exact ⟨X, pot_fits_of a1.reach.sinv (a1.alive a2) a3 hX⟩
    · exact g6 hb α (D1.sol α |>.mpr hm.sol)

end DL
end Semitone
