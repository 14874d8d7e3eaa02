import Verif.DL.Rel

/-!
# C33, C34: the relational constructors of the difference-logic theories
-/
namespace Semitone
namespace DL
variable {W : Type} [AddCommGroup W] [LinearOrder W] [IsOrderedAddMonoid W] [Dom W]

/-- C33 (partial: `new_gt` when `l - r` is `c (x - y + k)` with `c > 0` and `x` created before `y` is excluded, see `C33_new_gt_wrong`; histories with
an unsafe propagation are excluded, see C30): the literal returned by an integer relational constructor is true, in every solution of the new network
compatible with the decisions taken so far, exactly when the relation holds between the values of the two expressions; the call loses no solution and
adds none; the new state is again a reachable one, at the same decisions. -/
theorem C33_idl_relations_partial {E : Env} {R : Rel} {s s' : Sat (DL ℤ)} {l r : Lin} {p : Lit} (h : DReach E s) (hl : l.Canon) (hr : r.Canon)
    (hlv : ∀ t ∈ l.vars, t.1 < s.th.nv) (hrv : ∀ t ∈ r.vars, t.1 < s.th.nv)
    (hb : R = .gt → ¬ ∃ a b c c', 0 < c ∧ (l.sub r).vars = [(a, c), (b, c')]) (hn : newRel E R s l r = .ok (s', p)) :
    DReach E s' ∧ s'.decisions = s.decisions ∧ p.var < s'.nvars ∧
    (∀ α (x : Nat → ℤ), x 0 = 0 → Model s' α x → α.all s.decisions →
      (α.sat p ↔ R.holds (l.eval 1 (fun i => (x i : ℚ))) (r.eval 1 (fun i => (x i : ℚ))))) ∧
    (∀ α x, Model s' α x → Model s α x) ∧
    (∀ α x, Model s α x → ∃ β, Asg.agree s.nvars α β ∧ Model s' β x) := by
  obtain ⟨Q, hS, hQ⟩ := newRel_shape intI h.sinv.nv_pos hl hr hlv hrv (fun hg => hb hg.1 hg.2.2) hn
  have hA := hS.adds h.sinv
  refine ⟨newRel_reach h hl hr hlv hrv hn, hA.dec, hA.var, fun α x hx hm hd => ?_, hA.keeps, fun α X hm => hA.ext α X hm trivial⟩
  exact (hA.means α x hm trivial hd).trans (hQ x (by simp [intI, hx]))

/-- C34 (partial: histories with an unsafe propagation are excluded, see C30): the same for the rational constructors; the positions are rationals, seen
by the theory as numbers without infinitesimal part. -/
theorem C34_rdl_relations_partial {E : Env} {R : Rel} {s s' : Sat (DL (ℚ ×ₗ ℤ))} {l r : Lin} {p : Lit} (h : DReach E s) (hl : l.Canon) (hr : r.Canon)
    (hlv : ∀ t ∈ l.vars, t.1 < s.th.nv) (hrv : ∀ t ∈ r.vars, t.1 < s.th.nv) (hn : newRel E R s l r = .ok (s', p)) :
    DReach E s' ∧ s'.decisions = s.decisions ∧ p.var < s'.nvars ∧
    (∀ α (x : Nat → ℚ), x 0 = 0 → Model s' α (fun i => toLex (x i, 0)) → α.all s.decisions → (α.sat p ↔ R.holds (l.eval 1 x) (r.eval 1 x))) ∧
    (∀ α X, Model s' α X → Model s α X) ∧
    (∀ α X, Model s α X → ∃ β, Asg.agree s.nvars α β ∧ Model s' β X) := by
  obtain ⟨Q, hS, hQ⟩ := newRel_shape ratI h.sinv.nv_pos hl hr hlv hrv (fun hg => by cases hg.2.1) hn
  have hA := hS.adds h.sinv
  refine ⟨newRel_reach h hl hr hlv hrv hn, hA.dec, hA.var, fun α x hx hm hd => ?_, hA.keeps, fun α X hm => hA.ext α X hm trivial⟩
  exact (hA.means α _ hm trivial hd).trans (hQ x hx)

/-- C33: which expressions are accepted. In every state, expressions whose difference is not of difference form over the integers are rejected with an
exception; at root level all the others, on existing time points, are accepted. -/
theorem C33_idl_accepts {E : Env} {R : Rel} {s : Sat (DL ℤ)} {l r : Lin} (hl : l.Canon) (hr : r.Canon) :
    (¬ IsDiff ℤ l r → newRel E R s l r = .error .invalid) ∧
    (IsDiff ℤ l r → DReach E s → s.root = true → (∀ t ∈ l.vars, t.1 < s.th.nv) → (∀ t ∈ r.vars, t.1 < s.th.nv) → ∃ s' p, newRel E R s l r = .ok (s', p)) := by
  have hf := form_iff (W := ℤ) hl hr (fun κ h => by
    simp only [Dom.ofQ] at h ⊢
    rw [Rat.neg_den]
    split
    · rfl
    · next e => rw [if_neg e] at h; cases h)
  refine ⟨fun h => newRel_invalid ?_, fun h hs hroot hlv hrv => newRel_total hs.sinv hroot hl hr hlv hrv (hf.mpr h)⟩
  rw [← hf] at h
  simpa using h

theorem isDiff_form {l r : Lin} (hl : l.Canon) (hr : r.Canon) (h : IsDiff ℤ l r) : (form (W := ℤ) (l.sub r)).isSome :=
  (form_iff (W := ℤ) hl hr (fun κ h => by
    simp only [Dom.ofQ] at h ⊢
    rw [Rat.neg_den]
    split
    · rfl
    · next e => rw [if_neg e] at h; cases h)).mpr h

/-- C34: which expressions are accepted by the rational theory. -/
theorem C34_rdl_accepts {E : Env} {R : Rel} {s : Sat (DL (ℚ ×ₗ ℤ))} {l r : Lin} (hl : l.Canon) (hr : r.Canon) :
    (¬ IsDiff (ℚ ×ₗ ℤ) l r → newRel E R s l r = .error .invalid) ∧
    (IsDiff (ℚ ×ₗ ℤ) l r → DReach E s → s.root = true → (∀ t ∈ l.vars, t.1 < s.th.nv) → (∀ t ∈ r.vars, t.1 < s.th.nv) →
      ∃ s' p, newRel E R s l r = .ok (s', p)) := by
  have hf := form_iff (W := ℚ ×ₗ ℤ) hl hr (fun κ _ => rfl)
  refine ⟨fun h => newRel_invalid ?_, fun h hs hroot hlv hrv => newRel_total hs.sinv hroot hl hr hlv hrv (hf.mpr h)⟩
  rw [← hf] at h
  simpa using h

/-! ### The same in every history, also after an unsafe propagation -/

/-- How the literal `p` controls the condition `Q` on the positions in a network with asserted constraints `F`: it is a constant, and the asserted
constraints decide `Q` accordingly; or it is the literal of one new constraint, which says `Q`; or it is the conjunction, made by `new_conj`, of two
literals that control the two halves of `Q`. -/
inductive Ctrl (E : Env) (F : List (Dist W × Bool)) : Sat (DL W) → Sat (DL W) → Lit → ((Nat → W) → Prop) → Prop
  | const {s b Q} : (∀ X, SatF X F → (Q X ↔ b = true)) → Ctrl E F s s (constLit b) Q
  | atom {s s' dd Q} : (∀ v x, s'.th.vd v = some x ↔ (v = dd.b ∧ x = dd) ∨ s.th.vd v = some x) → s.th.vd dd.b = none → s'.th.d = s.th.d →
      (∀ X, Q X ↔ X dd.tgt - X dd.src ≤ dd.w) → Ctrl E F s s' ⟨dd.b, true⟩ Q
  | conj {s s1 s2 s3 l1 l2 p Q1 Q2 Q} : Ctrl E F s s1 l1 Q1 → Ctrl E F s1 s2 l2 Q2 → s2.newConj E [l1, l2] = .ok (s3, p) →
      (∀ X, Q X ↔ Q1 X ∧ Q2 X) → Ctrl E F s s3 p Q

theorem newDistance_ctrl {E : Env} {s s' : Sat (DL W)} {F : List (Dist W × Bool)} (hc : Core s.th F) (hf : ∀ v, s.nvars ≤ v → s.th.vd v = none) {i j : Nat} {w : W} {p : Lit}
    (hi : i < s.th.nv) (hj : j < s.th.nv) (hn : newDistance s i j w = .ok (s', p)) :
    Ctrl E F s s' p (fun X => X j - X i ≤ w) ∧ Core s'.th F ∧ (∀ v, s'.nvars ≤ v → s'.th.vd v = none) ∧ s'.th.nv = s.th.nv := by
  unfold newDistance at hn
  split at hn
  · split at hn
    · next h1 =>
      injection hn with hn; injection hn with e1 e2
      subst e1 e2
      refine ⟨.const (b := false) (fun X hX => ⟨fun hle => ?_, fun h => by cases h⟩), hc, hf, rfl⟩
      have := (hc.sound X hX j i hj hi).trans_lt h1
      norm_cast at this
      grind
    · split at hn
      · next h2 =>
        injection hn with hn; injection hn with e1 e2
        subst e1 e2
        refine ⟨.const (b := true) (fun X hX => ⟨fun _ => rfl, fun _ => ?_⟩), hc, hf, rfl⟩
        exact_mod_cast (hc.sound X hX i j hi hj).trans h2
      · simp only at hn
        injection hn with hn; injection hn with e1 e2
        subst e1 e2
        refine ⟨.atom (dd := ⟨s.newVar.2, i, j, w⟩) (fun v x => ?_) (hf _ (Nat.le_refl _)) rfl (fun _ => Iff.rfl), ?_, fun v hv => ?_, rfl⟩
        · show upd s.th.vd s.newVar.2 _ v = _ ↔ _
          unfold upd
          split
          · next e =>
            subst e
            rw [hf s.newVar.2 (Nat.le_refl _)]
            constructor
            · intro e; injection e with e; exact Or.inl ⟨rfl, e.symm⟩
            · rintro (⟨_, rfl⟩ | e)
              · rfl
              · cases e
          · next e =>
            constructor
            · exact Or.inr
            · rintro (⟨e', _⟩ | e')
              · exact absurd e' e
              · exact e'
        · exact ⟨hc.cap, hc.one, hc.closed, hc.out, hc.sound, hc.compl, hc.curF, hc.ok⟩
        · have hv : s.nvars + 1 ≤ v := hv
          show upd s.th.vd s.newVar.2 _ v = none
          have hne : v ≠ s.newVar.2 := by
            have : s.newVar.2 = s.nvars := rfl
            omega
          rw [upd_ne _ _ hne]
          exact hf v (by omega)
  · cases hn

theorem Shape.ctrl {E : Env} {s s' : Sat (DL W)} {p : Lit} {Q : (Nat → W) → Prop} {F : List (Dist W × Bool)} (hcore : Core s.th F)
    (hfr : ∀ v, s.nvars ≤ v → s.th.vd v = none) (h : Shape E s s' p Q) : Ctrl E F s s' p Q := by
  cases h with
  | const => exact .const (fun X _ => by simp)
  | dist hi hj hn => exact (newDistance_ctrl hcore hfr hi hj hn).1
  | two hi hj h1 hi' hj' h2 hn =>
    obtain ⟨a, b, c, d⟩ := newDistance_ctrl (E := E) hcore hfr hi hj h1
    obtain ⟨a', _⟩ := newDistance_ctrl (E := E) b c (by rw [d]; exact hi') (by rw [d]; exact hj') h2
    exact .conj a a' hn (fun _ => Iff.rfl)
  | never ha hbb hneg =>
    refine .const (b := false) (fun X hX => ⟨fun h => ?_, fun h => by cases h⟩)
    exfalso
    apply hneg
    constructor
    · refine le_trans ?_ (hcore.sound X hX _ _ hbb ha)
      norm_cast
      grind
    · refine le_trans ?_ (hcore.sound X hX _ _ ha hbb)
      norm_cast
      grind

/-- C33, in every history of the integer theory (unsafe propagations included; the faulty case of `new_gt` excluded): the literal returned controls
exactly the relation, given the constraints asserted so far. -/
theorem C33_idl_controls_partial {E : Env} {R : Rel} {s s' : Sat (DL ℤ)} {l r : Lin} {p : Lit} {A : List (List (Dist ℤ × Bool))} (h : Hist (s.th, A))
    (hfr : ∀ v, s.nvars ≤ v → s.th.vd v = none) (hl : l.Canon) (hr : r.Canon) (hlv : ∀ t ∈ l.vars, t.1 < s.th.nv) (hrv : ∀ t ∈ r.vars, t.1 < s.th.nv)
    (hb : R = .gt → ¬ ∃ a b c c', 0 < c ∧ (l.sub r).vars = [(a, c), (b, c')]) (hn : newRel E R s l r = .ok (s', p)) :
    ∃ Q : (Nat → ℤ) → Prop, Ctrl E A.flatten s s' p Q ∧
      ∀ x : Nat → ℤ, x 0 = 0 → (Q x ↔ R.holds (l.eval 1 (fun i => (x i : ℚ))) (r.eval 1 (fun i => (x i : ℚ)))) := by
  have hc := h.good.1.core
  obtain ⟨Q, hS, hQ⟩ := newRel_shape intI hc.one hl hr hlv hrv (fun hg => hb hg.1 hg.2.2) hn
  exact ⟨Q, hS.ctrl hc hfr, fun x hx => hQ x (by simp [intI, hx])⟩

/-- C34, in every history of the rational theory (unsafe propagations included). -/
theorem C34_rdl_controls {E : Env} {R : Rel} {s s' : Sat (DL (ℚ ×ₗ ℤ))} {l r : Lin} {p : Lit} {A : List (List (Dist (ℚ ×ₗ ℤ) × Bool))} (h : Hist (s.th, A))
    (hfr : ∀ v, s.nvars ≤ v → s.th.vd v = none) (hl : l.Canon) (hr : r.Canon) (hlv : ∀ t ∈ l.vars, t.1 < s.th.nv) (hrv : ∀ t ∈ r.vars, t.1 < s.th.nv)
    (hn : newRel E R s l r = .ok (s', p)) :
    ∃ Q : (Nat → ℚ ×ₗ ℤ) → Prop, Ctrl E A.flatten s s' p Q ∧
      ∀ x : Nat → ℚ, x 0 = 0 → (Q (fun i => toLex (x i, 0)) ↔ R.holds (l.eval 1 x) (r.eval 1 x)) := by
  have hc := h.good.1.core
  obtain ⟨Q, hS, hQ⟩ := newRel_shape ratI hc.one hl hr hlv hrv (fun hg => by cases hg.2.1) hn
  exact ⟨Q, hS.ctrl hc hfr, fun x hx => hQ x hx⟩

/-! ### Concrete networks -/

/-- A core and a theory with two time points besides the origin. -/
def sys0 : Sat (DL ℤ) := { Sat.init (DL.init (W := ℤ) 3) with th := (DL.init (W := ℤ) 3).newVar.1.newVar.1 }

theorem sys0_reach : DReach stdEnv sys0 := .newPoint (.newPoint (.init (size := 3) (by decide)))

/-- `tp1`, `tp2` -/
def x1 : Lin := ⟨[(1, 1)], 0⟩
def x2 : Lin := ⟨[(2, 1)], 0⟩
theorem x1_canon : x1.Canon := ⟨by simp [Lin.Sorted, x1], by simp [x1]⟩
theorem x2_canon : x2.Canon := ⟨by simp [Lin.Sorted, x2], by simp [x2]⟩

/-- The state and the literal a constructor returns. -/
def relOf (R : Rel) (s : Sat (DL ℤ)) (l r : Lin) : Sat (DL ℤ) × Lit :=
  match newRel stdEnv R s l r with
  | .ok v => v
  | .error _ => (s, falseLit)

theorem x12 : x1.sub x2 = ⟨[(1, 1), (2, -1)], 0⟩ := by
  simp [Lin.sub, x1, x2, Lin.subTerms, Lin.addTerm]

theorem form12 : form (W := ℤ) (x1.sub x2) = some (.diff false 1 2 0) := by
  rw [x12]
  simp [form, Dom.ofQ]

/-- The hypotheses of C33 are met: `tp1 < tp2` on a network with three time points gets a new literal. -/
example : newRel stdEnv .lt sys0 x1 x2 = newDistance sys0 2 1 (-1) ∧ (∃ s', newDistance sys0 2 1 (-1) = .ok (s', ⟨1, true⟩)) := by
  refine ⟨?_, ?_⟩
  · simp only [newRel, newLt, form12]
    rfl
  · refine ⟨_, rfl⟩

/-- The hypotheses of C32 are met, and `new_distance(tp1, tp2, 5)` takes the third branch: a new literal. -/
example : Hist (sys0.th, [[]]) ∧ 1 < sys0.th.nv ∧ 2 < sys0.th.nv ∧ sys0.th.vd sys0.newVar.2 = none ∧
    ∃ s', newDistance sys0 1 2 5 = .ok (s', ⟨1, true⟩) :=
  ⟨(Hist.init (size := 3) (by decide)).call .newVar |>.call .newVar, by decide, by decide, rfl, _, rfl⟩

/-- C33, what fails: `new_gt(tp1, tp2)` returns a literal that is false in the solution `tp1 = 1, tp2 = 0`. -/
theorem C33_new_gt_wrong : DReach stdEnv sys0 ∧ ∃ s' p, newRel stdEnv .gt sys0 x1 x2 = .ok (s', p) ∧
    ∃ α, ∃ x : Nat → ℤ, x 0 = 0 ∧ Model s' α x ∧ Rel.gt.holds (x1.eval 1 (fun i => (x i : ℚ))) (x2.eval 1 (fun i => (x i : ℚ))) ∧ ¬ α.sat p := by
  refine ⟨sys0_reach, ?_⟩
  have h : newRel stdEnv .gt sys0 x1 x2 = newDistance2 stdEnv sys0 1 2 0 (-1) := by
    have h2 : (x1.sub x2).vars.length = 2 := by rw [x12]; rfl
    simp only [newRel, newGt, form12, h2]
    rfl
  obtain ⟨s1, l1, s2, l2, s3, p, h1, h2, h3⟩ := dist2_total (E := stdEnv) sys0_reach.sinv rfl (i := 2) (j := 1) (i' := 1) (j' := 2) (w := (-0 : ℤ)) (w' := -1)
    (by decide) (by decide) (by decide) (by decide)
  have A1 := newDistance_adds sys0_reach.sinv (by decide) (by decide) h1
  have A2 := newDistance_adds A1.sinv (by rw [A1.nv]; decide) (by rw [A1.nv]; decide) h2
  have A3 := newConj_adds (E := stdEnv) A2.sinv h3 (R1 := fun X => X 1 - X 2 ≤ -0) (R2 := fun X => X 2 - X 1 ≤ -1)
    (fun α X hm hz hd => A1.means α X (A2.keeps α X hm) hz (by rw [← A1.dec, ← A2.dec]; exact hd))
    (fun α X hm hz hd => A2.means α X hm hz (by rw [← A2.dec]; exact hd))
  refine ⟨s3, p, by rw [h]; unfold newDistance2; rw [h1]; simp only; rw [h2]; exact h3, ?_⟩
  have A := A1.trans sys0_reach.sinv (A2.trans A1.sinv A3)
  obtain ⟨β, _, hβ⟩ := A.ext (fun _ => false) (fun i => if i = 1 then 1 else 0) ⟨rfl, fun C hC => by simp [sys0, Sat.init, Sat.newVar] at hC, fun v dd hv => by
    have : sys0.th.vd v = none := rfl
    rw [this] at hv; cases hv⟩ trivial
  refine ⟨β, _, ?_, hβ, ?_, fun hs => ?_⟩
  · rfl
  · simp [Rel.holds, Lin.eval, x1, x2]
  · have := (A.means β _ hβ trivial (fun l hl => by simp [sys0, Sat.init, Sat.newVar] at hl)).mp hs
    simp at this

end DL
end Semitone
