import Verif.DL.Walk
import Verif.DL.Witness
import Verif.Sat.PropsA

/-!
# Difference logic: explanations are valid in safe histories (C30)
-/
namespace Semitone
namespace DL
variable {W : Type} [AddCommGroup W] [LinearOrder W] [IsOrderedAddMonoid W] [Dom W]

/-- Meaning of the constraint literals: some assignment of numbers to the time points makes every constraint literal true exactly when its
constraint `tgt - src <= w` holds. -/
def Th (t : DL W) (α : Asg) : Prop := ∃ X : Nat → W, ∀ v dd, t.vd v = some dd → (α v = true ↔ X dd.tgt - X dd.src ≤ dd.w)

/-- The invariant of one level. -/
structure CoreG (t : DL W) (F : List (Dist W × Bool)) : Prop where
  core : Core t F
  pth : Pth t F
  reg : ∀ e ∈ F, t.vd e.1.b = some e.1

/-- Same state, possibly with more constraints registered. -/
structure EqG (t u : DL W) : Prop where
  nv : u.nv = t.nv
  cap : u.cap = t.cap
  d : u.d = t.d
  pred : u.pred = t.pred
  cur : u.cur = t.cur
  bad : u.bad = t.bad
  layers : u.layers = t.layers
  vd : ∀ v dd, t.vd v = some dd → u.vd v = some dd

theorem EqG.eqv {t u : DL W} (h : EqG t u) : Eqv t u := ⟨h.nv, h.cap, h.d, h.cur, h.bad, by rw [h.layers]; exact forall2_refl _⟩

theorem EqG.coreG {t u : DL W} {F : List (Dist W × Bool)} (h : EqG t u) (c : CoreG t F) : CoreG u F := by
  refine ⟨h.eqv.core c.core, ⟨by rw [h.nv, h.pred]; exact c.pth.out, ?_⟩, fun e he => h.vd _ _ (c.reg e he)⟩
  intro i j hi hj hd
  rw [h.nv] at hi hj
  rw [h.d] at hd
  obtain ⟨l, hl⟩ := c.pth.walk i j hi hj hd
  refine ⟨l, ?_⟩
  clear hd hj
  induction hl with
  | nil => exact .nil
  | step a _ b c d e f g i j ih => exact .step a ih (by rw [h.pred]; exact b) (by rw [h.nv]; exact c) (by rw [h.nv]; exact d) (by rw [h.cur]; exact e) f g i (by rw [h.d]; exact j)

/-- The invariant at every level. -/
inductive GoodG : DL W → List (List (Dist W × Bool)) → Prop
  | base {t a} : CoreG t [a].flatten → t.layers = [] → GoodG t [a]
  | level {t t' a A} : CoreG t (a :: A).flatten → t.LayerOK → t.pop = .ok t' → GoodG t' A → GoodG t (a :: A)

theorem GoodG.coreG {t : DL W} {A : List (List (Dist W × Bool))} (h : GoodG t A) : CoreG t A.flatten := by
  cases h with
  | base h _ => exact h
  | level h _ _ _ => exact h

theorem GoodG.layok {t : DL W} {A : List (List (Dist W × Bool))} (h : GoodG t A) : t.LayerOK := by
  cases h with
  | base _ h => unfold LayerOK; rw [h]; trivial
  | level _ h _ _ => exact h

theorem GoodG.ne {t : DL W} {A : List (List (Dist W × Bool))} (h : GoodG t A) : ∃ a B, A = a :: B := by
  cases h with
  | base _ _ => exact ⟨_, _, rfl⟩
  | level _ _ _ _ => exact ⟨_, _, rfl⟩

theorem EqG.pop {t u t' : DL W} (h : EqG t u) (hp : t.pop = .ok t') : ∃ u', u.pop = .ok u' ∧ EqG t' u' := by
  obtain ⟨L, Ls, hl, rfl⟩ := pop_cases hp
  have hu : u.layers = L :: Ls := by rw [h.layers, hl]
  refine ⟨_, pop_eq hu, ⟨h.nv, h.cap, ?_, ?_, ?_, h.bad, rfl, h.vd⟩⟩
  · simp only [h.d]
  · simp only [h.pred]
  · simp only [h.cur]

theorem GoodG.congr {t : DL W} {A : List (List (Dist W × Bool))} (h : GoodG t A) : ∀ {u}, EqG t u → GoodG u A := by
  induction h with
  | base h1 h2 => intro u e; exact .base (e.coreG h1) (by rw [e.layers]; exact h2)
  | level h1 h2 h3 _ ih =>
    intro u e
    obtain ⟨u', hu, e'⟩ := e.pop h3
    exact .level (e.coreG h1) (e.eqv.layok h2) hu (ih e')

theorem coreG_nv {t : DL W} {F : List (Dist W × Bool)} (h : CoreG t F) {n c : Nat} (hn : t.nv ≤ n) (hc : n ≤ c) : CoreG { t with nv := n, cap := c } F := by
  refine ⟨core_nv h.core hn hc, ⟨fun i j hij => h.pth.out i j (fun h' => hij ⟨h'.1.trans_le hn, h'.2.trans_le hn⟩), fun i j hi hj hd => ?_⟩, h.reg⟩
  have key : ∀ {j l}, Walk t F i j l → Walk { t with nv := n, cap := c } F i j l := by
    intro j l hl
    induction hl with
    | nil => exact .nil
    | step a _ b c d e f g i j ih => exact .step a ih b (c.trans_le hn) (d.trans_le hn) e f g i j
  by_cases h1 : i < t.nv ∧ j < t.nv
  · obtain ⟨l, hl⟩ := h.pth.walk i j h1.1 h1.2 hd
    exact ⟨l, key hl⟩
  · have hd' : t.d i j ≠ ⊤ := hd
    rw [h.core.out i j h1] at hd'
    unfold d0 at hd'
    split at hd'
    · next e => subst e; exact ⟨[], .nil⟩
    · exact absurd rfl hd'

theorem GoodG.more {t : DL W} {A : List (List (Dist W × Bool))} (h : GoodG t A) : ∀ {n c}, t.nv ≤ n → n ≤ c → GoodG { t with nv := n, cap := c } A := by
  induction h with
  | base h1 h2 => intro n c hn hc; exact .base (coreG_nv h1 hn hc) h2
  | @level t t' a A h1 h2 h3 _ ih =>
    intro n c hn hc
    obtain ⟨L, Ls, hl, rfl⟩ := pop_cases h3
    exact .level (coreG_nv h1 hn hc) h2 (pop_eq (t := { t with nv := n, cap := c }) hl) (ih hn hc)

theorem goodG_newVar {t : DL W} {A : List (List (Dist W × Bool))} (h : GoodG t A) : GoodG t.newVar.1 A := by
  have hg := h.coreG
  have key : ∃ c, t.nv + 1 ≤ c ∧ EqG { t with nv := t.nv + 1, cap := c } t.newVar.1 := by
    unfold newVar
    simp only
    split
    · next e =>
      refine ⟨(t.cap * 3) / 2 + 1, by omega, ⟨rfl, rfl, ?_, ?_, rfl, rfl, rfl, fun _ _ h => h⟩⟩
      · funext i j
        show (if i < t.cap ∧ j < t.cap then t.d i j else d0 i j) = t.d i j
        split
        · rfl
        · next hh => exact (hg.core.out i j (fun h' => hh ⟨h'.1.trans_le hg.core.cap, h'.2.trans_le hg.core.cap⟩)).symm
      · funext i j
        show (if i < t.cap ∧ j < t.cap then t.pred i j else p0 i j) = t.pred i j
        split
        · rfl
        · next hh => exact (hg.pth.out i j (fun h' => hh ⟨h'.1.trans_le hg.core.cap, h'.2.trans_le hg.core.cap⟩)).symm
    · next e =>
      refine ⟨t.cap, ?_, ⟨rfl, rfl, rfl, rfl, rfl, rfl, rfl, fun _ _ h => h⟩⟩
      have := hg.core.cap
      omega
  obtain ⟨c, hc, e⟩ := key
  exact (h.more (Nat.le_succ _) hc).congr e

theorem goodG_push {t : DL W} {A : List (List (Dist W × Bool))} (h : GoodG t A) : GoodG t.push ([] :: A) := by
  have c : CoreG t.push A.flatten := by
    have g := h.coreG
    have := g.core
    refine ⟨⟨this.cap, this.one, this.closed, this.out, this.sound, this.compl, this.curF, this.ok⟩, ⟨g.pth.out, fun i j hi hj hd => ?_⟩, g.reg⟩
    obtain ⟨l, hl⟩ := g.pth.walk i j hi hj hd
    refine ⟨l, ?_⟩
    clear hd hj
    induction hl with
    | nil => exact .nil
    | step a _ b c d e f g i j ih => exact .step a ih b c d e f g i j
  refine .level (by simpa using c) ?_ (pop_eq rfl) (h.congr ⟨rfl, rfl, ?_, ?_, ?_, rfl, rfl, fun _ _ h => h⟩)
  · intro i j x hx; cases hx
  · funext i j; rfl
  · funext i j; rfl
  · funext i j; rfl

theorem goodG_pop {t t' : DL W} {a : List (Dist W × Bool)} {A : List (List (Dist W × Bool))} (h : GoodG t (a :: A)) (hp : t.pop = .ok t') : GoodG t' A := by
  cases h with
  | base h1 h2 => unfold DL.pop at hp; rw [h2] at hp; cases hp
  | level _ _ h3 h4 =>
    rw [hp] at h3
    injection h3 with h3
    exact h3 ▸ h4

theorem goodG_step {t t' : DL W} {a : List (Dist W × Bool)} {A : List (List (Dist W × Bool))} (h : GoodG t (a :: A)) (e : Dist W × Bool)
    (hc : CoreG t' ((e :: a) :: A).flatten) (hl : t'.LayerOK) (hv : t'.view = t.view) (hvp : t'.viewP = t.viewP) (hn : t'.nv = t.nv) (hcap : t'.cap = t.cap)
    (hvd : t'.vd = t.vd) : GoodG t' ((e :: a) :: A) := by
  cases h with
  | base h1 h2 =>
    refine .base hc ?_
    cases hl' : t'.layers with
    | nil => rfl
    | cons => simp [view, h2, hl'] at hv
  | @level _ u _ _ h1 h2 h3 h4 =>
    obtain ⟨L, Ls, hlt, rfl⟩ := pop_cases h3
    cases hl' : t'.layers with
    | nil => simp [view, hlt, hl'] at hv
    | cons L' Ls' =>
      simp only [view, hlt, hl', Option.some.injEq, Prod.mk.injEq] at hv
      simp only [viewP, hlt, hl', Option.some.injEq] at hvp
      refine .level hc hl (pop_eq hl') (h4.congr ⟨hn, hcap, hv.1, hvp, hv.2.1, ?_, hv.2.2, fun v dd h => by rw [hvd]; exact h⟩)
      show t'.bad = t.bad
      rw [hc.core.ok, h1.core.ok]

/-- A safe accepted assertion. -/
theorem goodG_lit {t t' : DL W} {a : List (Dist W × Bool)} {A : List (List (Dist W × Bool))} (h : GoodG t (a :: A)) {dd : Dist W} {sg : Bool} {p : Lit}
    {val : Lit → Option Bool} (hv : t.vd p.var = some dd) (hval : val ⟨dd.b, true⟩ = some sg) (hsafe : t.safe val p = true)
    (hb : dd.b = p.var) (hs : dd.src < t.nv) (ht : dd.tgt < t.nv) (hne : dd.src ≠ dd.tgt)
    (ho : (t.assertD dd sg = .noop ∧ t' = t) ∨ ∃ cu, t.assertD dd sg = .update t' cu) : GoodG t' (((dd, sg) :: a) :: A) := by
  have g := h.coreG
  have sp := assertD_spec g.core dd sg hs ht hne
  have hreg : ∀ x ∈ (((dd, sg) :: a) :: A).flatten, t.vd x.1.b = some x.1 := by
    intro x hx
    rw [List.flatten_cons, List.cons_append] at hx
    rcases List.mem_cons.mp hx with rfl | hx
    · simpa [hb] using hv
    · exact g.reg x hx
  rcases ho with ⟨ho, rfl⟩ | ⟨cu, ho⟩
  · rw [ho] at sp
    simp only at sp
    exact goodG_step h (dd, sg) ⟨core_noop g.core (dd, sg) sp, g.pth.mono (fun x hx => List.mem_cons_of_mem _ hx), hreg⟩ h.layok rfl rfl rfl rfl rfl
  · rw [ho] at sp
    simp only at sp
    unfold safe at hsafe
    simp only [hv, hval, ho] at hsafe
    rw [Bool.and_eq_true] at hsafe
    have hc : Core t' ((dd, sg) :: (a :: A).flatten) := core_relax g.core (dd, sg) sp.edge sp.rel rfl sp.nv sp.cap sp.cur
    refine goodG_step h (dd, sg) ⟨hc, pth_step g.core g.pth sp (Option.isNone_iff_eq_none.mp hsafe.1), fun x hx => by rw [sp.vd]; exact hreg x hx⟩ (sp.lay h.layok)
      (sp.view h.layok) (safe_viewP ho hc.ok ?_) sp.nv sp.cap sp.vd
    cases hl : t.layers with
    | nil => trivial
    | cons L Ls =>
      have h2 := hsafe.2
      simp only [hl, List.all_eq_true, List.mem_range, Bool.or_eq_true, decide_eq_true_eq] at h2
      simp only
      intro i j
      by_cases hij : i < t.nv ∧ j < t.nv
      · rcases h2 i hij.1 j hij.2 with (h' | h') | h'
        · exact Or.inl h'
        · exact Or.inr (Or.inl h')
        · exact Or.inr (Or.inr h')
      · exact Or.inl (sp.rel.d_out i j hij)

/-- Values of the asserted constraints. -/
def Agrees (val : Lit → Option Bool) (F : List (Dist W × Bool)) : Prop := ∀ e ∈ F, val ⟨e.1.b, e.2⟩ = some true

theorem Agrees.pos {val : Lit → Option Bool} {F : List (Dist W × Bool)} (h : Agrees val F) (hc : Coh val) : ∀ e ∈ F, val ⟨e.1.b, true⟩ = some e.2 := by
  intro e he
  have := h e he
  cases hs : e.2 with
  | true => rwa [hs] at this
  | false =>
    rw [hs] at this
    have h2 := hc ⟨e.1.b, false⟩
    have h3 : (⟨e.1.b, false⟩ : Lit).neg = ⟨e.1.b, true⟩ := rfl
    rw [h3, this] at h2
    exact h2

theorem holds_of_asg {t : DL W} {α : Asg} {X : Nat → W} (hX : ∀ v dd, t.vd v = some dd → (α v = true ↔ X dd.tgt - X dd.src ≤ dd.w)) {e : Dist W × Bool}
    (hr : t.vd e.1.b = some e.1) (hs : α e.1.b = e.2) : Holds X e := by
  have := hX _ _ hr
  unfold Holds
  split
  · next h => rw [h] at hs; exact this.mp hs
  · next h =>
    intro hle
    have := this.mpr hle
    rw [hs] at this
    exact h this

theorem satF_of_false {t : DL W} {α : Asg} {X : Nat → W} (hX : ∀ v dd, t.vd v = some dd → (α v = true ↔ X dd.tgt - X dd.src ≤ dd.w)) {F E : List (Dist W × Bool)}
    (hr : ∀ e ∈ F, t.vd e.1.b = some e.1) (hE : ∀ e ∈ E, e ∈ F) (hf : ∀ l ∈ E.map (fun e : Dist W × Bool => (⟨e.1.b, !e.2⟩ : Lit)), ¬ α.sat l) : SatF X E := by
  intro e he
  refine holds_of_asg hX (hr e (hE e he)) ?_
  have := hf _ (List.mem_map.mpr ⟨e, he, rfl⟩)
  simp only [Asg.sat] at this
  cases h1 : α e.1.b <;> cases h2 : e.2 <;> simp_all

/-- The explanation of a distance. -/
theorem explain_ok {t : DL W} {F : List (Dist W × Bool)} (g : CoreG t F) {val : Lit → Option Bool} (hc : Coh val) (ha : Agrees val F) {i j : Nat} (hi : i < t.nv)
    (hj : j < t.nv) (hd : t.d i j ≠ ⊤) : ∃ L, t.explain val i t.nv j = .ok L ∧ (∀ l ∈ L, val l = some false) ∧
      ∀ (α : Asg) (X : Nat → W), (∀ v dd, t.vd v = some dd → (α v = true ↔ X dd.tgt - X dd.src ≤ dd.w)) → (∀ l ∈ L, ¬ α.sat l) → ((X j - X i : W) : WithTop W) ≤ t.d i j := by
  obtain ⟨l, hl⟩ := g.pth.walk i j hi hj hd
  obtain ⟨E, h1, h2, h3, -⟩ := explain_spec (ha.pos hc) (g.core.closed.diag i hi) hl t.nv hl.length_le
  refine ⟨_, h2, fun l hl => ?_, fun α X hX hf => h3 X (satF_of_false hX g.reg h1 hf)⟩
  obtain ⟨e, he, rfl⟩ := List.mem_map.mp hl
  have := hc ⟨e.1.b, e.2⟩
  rw [ha e (h1 e he)] at this
  exact this

/-- Every clause recorded by the theory satisfies `V`, a reported conflict satisfies `V` and all its literals are false, and the call does not fail; the values
may grow while clauses are recorded. -/
inductive ActValid (V : List Lit → Prop) : (Lit → Option Bool) → TAct (DL W) → Prop
  | ok {val t} : ActValid V val (.ok t)
  | confl {val t cl} : V cl → (∀ q ∈ cl, val q = some false) → ActValid V val (.confl t cl)
  | record {val cl k} : V cl → (∀ v, (∀ q, val q = some true → v q = some true) → Coh v → ActValid V v (k v)) → ActValid V val (.record cl k)

theorem emit_valid {t : DL W} {F : List (Dist W × Bool)} (g : CoreG t F) (hr : Regs t) : ∀ (ds : List (Dist W)) (val : Lit → Option Bool), Coh val → Agrees val F →
    (∀ dd ∈ ds, t.vd dd.b = some dd) → ActValid (fun cl => ∀ α, Th t α → α.clause cl) val (t.emit ds val)
  | [], val, _, _, _ => .ok
  | dd :: ds, val, hc, ha, hd => by
    have hvd := hd dd List.mem_cons_self
    obtain ⟨_, hs, ht, _⟩ := hr.vd _ _ hvd
    have ih : ∀ v, (∀ q, val q = some true → v q = some true) → Coh v → ActValid (fun cl => ∀ α, Th t α → α.clause cl) v (t.emit ds v) :=
      fun v hv hcv => emit_valid g hr ds v hcv (fun e he => hv _ (ha e he)) (fun x hx => hd x (List.mem_cons_of_mem _ hx))
    unfold emit
    split
    · split
      · next h1 =>
        obtain ⟨L, h2, h3, h4⟩ := explain_ok g hc ha ht hs (ne_top_of_lt h1)
        rw [h2]
        refine .record ?_ ih
        rintro α ⟨X, hX⟩
        by_contra hcl
        simp only [Asg.clause, not_exists, not_and] at hcl
        have h5 := h4 α X hX (fun l hl => hcl l (List.mem_cons_of_mem _ hl))
        have h6 := hcl ⟨dd.b, false⟩ List.mem_cons_self
        simp only [Asg.sat, Bool.not_eq_false] at h6
        have h7 := (hX _ _ hvd).mp h6
        have h8 := lt_of_le_of_lt h5 h1
        norm_cast at h8
        grind
      · split
        · next h1 =>
          obtain ⟨L, h2, h3, h4⟩ := explain_ok g hc ha hs ht (fun e => by rw [e] at h1; simp at h1)
          rw [h2]
          refine .record ?_ ih
          rintro α ⟨X, hX⟩
          by_contra hcl
          simp only [Asg.clause, not_exists, not_and] at hcl
          have h5 := h4 α X hX (fun l hl => hcl l (List.mem_cons_of_mem _ hl))
          have h6 := hcl ⟨dd.b, true⟩ List.mem_cons_self
          simp only [Asg.sat] at h6
          apply h6
          rw [hX _ _ hvd]
          exact_mod_cast h5.trans h1
        · exact ih val (fun _ h => h) hc
    · exact ih val (fun _ h => h) hc

/-- The propagation of a literal, in a state where the invariant holds. -/
theorem propagate_valid {t : DL W} {a : List (Dist W × Bool)} {A : List (List (Dist W × Bool))} (h : GoodG t (a :: A)) (hr : Regs t) {val : Lit → Option Bool}
    (hc : Coh val) (ha : Agrees val (a :: A).flatten) {p : Lit} {dd : Dist W} (hv : t.vd p.var = some dd) (hp : val p = some true) (hsafe : t.safe val p = true) :
    ActValid (fun cl => ∀ α, Th t α → α.clause cl) val (t.propagate val p) := by
  have g := h.coreG
  obtain ⟨hb, hs, ht, hne⟩ := hr.vd _ _ hv
  have hval : val ⟨dd.b, true⟩ = some p.sign := by
    cases hps : p.sign with
    | true =>
      have : (⟨dd.b, true⟩ : Lit) = p := by rw [hb, ← hps]
      rw [this, hp]
    | false =>
      have : (⟨dd.b, true⟩ : Lit) = p.neg := by rw [hb]; simp [Lit.neg, hps]
      rw [this, hc p, hp]
      rfl
  have hreg : t.vd dd.b = some dd := by rw [hb]; exact hv
  unfold propagate
  rw [hv]
  simp only
  rw [hval]
  simp only
  rw [if_pos ⟨g.core.cap, hs, ht⟩]
  have sp := assertD_spec g.core dd p.sign hs ht hne
  split
  · next i j ho =>
    rw [ho] at sp
    obtain ⟨rfl, rfl, hlt⟩ := sp
    have hi : et (dd, p.sign) < t.nv := by unfold et; split <;> assumption
    have hj : es (dd, p.sign) < t.nv := by unfold es; split <;> assumption
    obtain ⟨L, h2, h3, h4⟩ := explain_ok g hc ha hi hj (ne_top_of_lt hlt)
    rw [h2]
    refine .confl ?_ ?_
    · rintro α ⟨X, hX⟩
      by_contra hcl
      simp only [Asg.clause, not_exists, not_and] at hcl
      have h5 := h4 α X hX (fun l hl => hcl l (List.mem_append_left _ hl))
      have h6 := hcl p.neg (by simp)
      rw [Asg.sat_neg, not_not] at h6
      have h7 : Holds X (dd, p.sign) := holds_of_asg hX hreg (by simpa [Asg.sat, hb] using h6)
      rw [holds_iff] at h7
      have h8 := lt_of_le_of_lt h5 hlt
      norm_cast at h8
      grind
    · intro q hq
      rcases List.mem_append.mp hq with hq | hq
      · exact h3 q hq
      · have := List.mem_singleton.mp hq
        subst this
        rw [hc p, hp]
        rfl
  · exact .ok
  · next t' cu ho =>
    rw [ho] at sp
    simp only at sp
    have hg' := goodG_lit h hv hval hsafe hb hs ht hne (Or.inr ⟨cu, ho⟩)
    have g' := hg'.coreG
    rw [if_neg (by rw [g'.core.ok]; simp)]
    have hr' : Regs t' := ⟨by rw [sp.nv, sp.vd]; exact hr.vd, by rw [sp.vd, sp.dcs]; exact hr.dcs⟩
    have hth : ∀ α, Th t α ↔ Th t' α := fun α => by unfold Th; rw [sp.vd]
    have := emit_valid g' hr' (cu.flatMap (fun q => t'.dcs q.1 q.2)) val hc (fun e he => by
      rw [List.flatten_cons, List.cons_append] at he
      rcases List.mem_cons.mp he with rfl | he
      · have : (⟨dd.b, p.sign⟩ : Lit) = p := by rw [hb]
        simp only [this, hp]
      · exact ha e he) (fun x hx => by
      obtain ⟨q, _, hq⟩ := List.mem_flatMap.mp hx
      exact (hr'.dcs _ _ _ hq).1)
    simp only [← hth] at this
    exact this

/-! ### Safe histories -/

/-- Histories all of whose propagations are safe. -/
inductive SafeHist : DL W × List (List (Dist W × Bool)) → Prop
  | init {size : Nat} : 1 ≤ size → SafeHist (init size, [[]])
  | newVar {t A} : SafeHist (t, A) → SafeHist (t.newVar.1, A)
  | register {t A dd} : SafeHist (t, A) → dd.src < t.nv → dd.tgt < t.nv → ¬ t.d dd.tgt dd.src < ((-dd.w : W) : WithTop W) →
      ¬ t.d dd.src dd.tgt ≤ (dd.w : WithTop W) → t.vd dd.b = none → SafeHist (t.register dd, A)
  | lit {t t' a A val p dd sg} : SafeHist (t, a :: A) → t.vd p.var = some dd → val ⟨dd.b, true⟩ = some sg → t.safe val p = true →
      (t.propagate val p).Ends t' → SafeHist (t', ((dd, sg) :: a) :: A)
  | push {t A} : SafeHist (t, A) → SafeHist (t.push, [] :: A)
  | pop {t t' a A} : SafeHist (t, a :: A) → A ≠ [] → t.pop = .ok t' → SafeHist (t', A)
  | listen {t t' A v l} : SafeHist (t, A) → t.listen v l = .ok t' → SafeHist (t', A)

theorem SafeHist.hist {x : DL W × List (List (Dist W × Bool))} (h : SafeHist x) : Hist x := by
  induction h with
  | init hs => exact .init hs
  | newVar _ ih => exact ih.call .newVar
  | register _ a b c d e ih => exact ih.call (.register a b c d e)
  | lit _ a b _ d ih => exact ih.call (.lit a b d)
  | push _ ih => exact ih.call .push
  | pop _ a b ih => exact ih.call (.pop a b)
  | listen _ a ih => exact ih.call (.listen a)

theorem coreG_init {size : Nat} (h : 1 ≤ size) : CoreG (DL.init (W := W) size) [] := by
  refine ⟨core_init h, ⟨fun _ _ _ => rfl, fun i j hi hj hd => ?_⟩, by simp⟩
  have h1 : i = 0 := by have : i < 1 := hi; omega
  have h2 : j = 0 := by have : j < 1 := hj; omega
  subst h1 h2
  exact ⟨[], .nil⟩

theorem SafeHist.good {x : DL W × List (List (Dist W × Bool))} (h : SafeHist x) : GoodG x.1 x.2 := by
  induction h with
  | init hs => exact .base (coreG_init hs) rfl
  | newVar _ ih => exact goodG_newVar ih
  | @register t A dd _ a b c d e ih =>
    refine ih.congr ⟨rfl, rfl, rfl, rfl, rfl, rfl, rfl, fun v dd' hv => ?_⟩
    simp only [DL.register, upd]
    split
    · next h => rw [h, e] at hv; cases hv
    · exact hv
  | lit h0 a b c d ih =>
    obtain ⟨h1, h2, h3, h4⟩ := h0.hist.good.2.vd _ _ a
    exact goodG_lit ih a b c h1 h2 h3 h4 (propagate_ends a b d)
  | push _ ih => exact goodG_push ih
  | pop _ _ b ih => exact goodG_pop ih b
  | listen _ a ih =>
    obtain ⟨f, rfl⟩ := listen_same a
    exact ih.congr ⟨rfl, rfl, rfl, rfl, rfl, rfl, rfl, fun _ _ h => h⟩

/-- C30 (partial): in every safe history, whatever literal `p` is propagated, every clause recorded and every conflict reported is a valid lemma of
difference logic, the literals of a conflict are all false, and the collection of the explanation always terminates normally. Missing: histories
with an unsafe propagation, for which the claim is false (`C30_witness_pred`, `C30_witness_constr`). -/
theorem C30_explanations_valid_partial {t : DL W} {a : List (Dist W × Bool)} {A : List (List (Dist W × Bool))} (h : SafeHist (t, a :: A))
    {val : Lit → Option Bool} (hc : Coh val) (ha : Agrees val (a :: A).flatten) {p : Lit} {dd : Dist W} (hv : t.vd p.var = some dd) (hp : val p = some true)
    (hsafe : t.safe val p = true) : ActValid (fun cl => ∀ α, Th t α → α.clause cl) val (t.propagate val p) :=
  propagate_valid h.good h.hist.good.2 hc ha hv hp hsafe

/-! ### Inside the core -/

/-- The theory with unsafe propagations excluded (they are turned into failures, which no history of the core survives). -/
def safeOps : TheoryOps (DL W) where
  ids := [0]
  propagate := fun _ t val p => if t.safe val p then t.propagate val p else .fail .excluded
  check := fun _ t val => if t.checkOk val then .ok (t, none) else .error .assert
  push := push
  pop := pop

/-- The theory's invariant inside the core, `V` being the registered constraints. -/
def TI (V : Nat → Option (Dist W)) (t : DL W) (n : Nat) (A : Nat → Lit → Prop) : Prop :=
  (t.vd = V ∧ Regs t) ∧ ∃ As, GoodG t As ∧ As.length = n + 1 ∧ ∀ i, i ≤ n → ∀ e ∈ (As.drop (n - i)).flatten, A i ⟨e.1.b, e.2⟩

/-- The states in which a call can end satisfy `P`. -/
inductive Fin (P : DL W → Prop) : TAct (DL W) → Prop
  | ok {t} : P t → Fin P (.ok t)
  | confl {t cl} : P t → Fin P (.confl t cl)
  | record {cl k} : (∀ v, Fin P (k v)) → Fin P (.record cl k)
  | fail {e} : Fin P (.fail e)

theorem emit_fin {P : DL W → Prop} {t : DL W} (h : P t) : ∀ (ds : List (Dist W)) (val : Lit → Option Bool), Fin P (t.emit ds val)
  | [], _ => .ok h
  | dd :: ds, val => by
    unfold emit
    split
    · split
      · split
        · exact .fail
        · exact .record (fun v => emit_fin h ds v)
      · split
        · split
          · exact .fail
          · exact .record (fun v => emit_fin h ds v)
        · exact emit_fin h ds val
    · exact emit_fin h ds val

theorem TI.mono {V : Nat → Option (Dist W)} {t : DL W} {n : Nat} {A A' : Nat → Lit → Prop} (h : TI V t n A) (hA : ∀ i, i ≤ n → ∀ q, A i q → A' i q) : TI V t n A' := by
  obtain ⟨h1, As, h2, h3, h4⟩ := h
  exact ⟨h1, As, h2, h3, fun i hi e he => hA i hi _ (h4 i hi e he)⟩

theorem actOK_of {V : Nat → Option (Dist W)} {t0 : DL W} {n : Nat} {A0 : Nat → Lit → Prop} {act : TAct (DL W)} {val : Lit → Option Bool}
    (hv : ActValid (fun cl => ∀ α, Th t0 α → α.clause cl) val act) : Coh val →
    Fin (fun t' => TI V t' n A0 ∧ ∀ α, Th t' α ↔ Th t0 α) act → ∀ A : Nat → Lit → Prop, (∀ i, i ≤ n → ∀ q, A0 i q → A i q) → (∀ q, A n q ↔ val q = some true) →
    ActOK Th (TI V) t0 n A act := by
  induction hv with
  | ok =>
    intro _ hf A hA _
    cases hf with
    | ok hf => exact .ok (hf.1.mono hA) hf.2
  | confl h1 h2 =>
    intro hc hf A hA hval
    cases hf with
    | confl hf =>
      refine .confl (hf.1.mono hA) hf.2 h1 (fun q hq => ?_)
      rw [hval, hc q, h2 q hq]
      rfl
  | record h1 _ ih =>
    intro _ hf A hA hval
    cases hf with
    | record hf =>
      refine .record h1 (fun A' v hA' hv' hcv => ih v (fun q hq => (hv' q).mp (hA' n (Nat.le_refl n) q ((hval q).mpr hq))) hcv hcv (hf v) A' ?_ hv')
      exact fun i hi q hq => hA' i hi q (hA i hi q hq)

theorem propagate_fin {V : Nat → Option (Dist W)} {t : DL W} {n : Nat} {A : Nat → Lit → Prop} (h : TI V t n A) {val : Lit → Option Bool} (hval : ∀ q, A n q ↔ val q = some true) (hc : Coh val)
    {p : Lit} {dd : Dist W} (hv : t.vd p.var = some dd) (hp : val p = some true) (hsafe : t.safe val p = true) :
    Fin (fun t' => TI V t' n A ∧ ∀ α, Th t' α ↔ Th t α) (t.propagate val p) := by
  obtain ⟨⟨hV, hr⟩, As, hg, hl, hA⟩ := h
  have hself : TI V t n A ∧ ∀ α, Th t α ↔ Th t α := ⟨⟨⟨hV, hr⟩, As, hg, hl, hA⟩, fun _ => Iff.rfl⟩
  obtain ⟨a, B, rfl⟩ := hg.ne
  have g := hg.coreG
  obtain ⟨hb, hs, ht, hne⟩ := hr.vd _ _ hv
  have hval' : val ⟨dd.b, true⟩ = some p.sign := by
    cases hps : p.sign with
    | true =>
      have : (⟨dd.b, true⟩ : Lit) = p := by rw [hb, ← hps]
      rw [this, hp]
    | false =>
      have : (⟨dd.b, true⟩ : Lit) = p.neg := by rw [hb]; simp [Lit.neg, hps]
      rw [this, hc p, hp]
      rfl
  unfold propagate
  rw [hv]
  simp only
  rw [hval']
  simp only
  rw [if_pos ⟨g.core.cap, hs, ht⟩]
  have sp := assertD_spec g.core dd p.sign hs ht hne
  split
  · split
    · exact .fail
    · exact .confl hself
  · exact .ok hself
  · next t' cu ho =>
    rw [ho] at sp
    simp only at sp
    have hg' := goodG_lit hg hv hval' hsafe hb hs ht hne (Or.inr ⟨cu, ho⟩)
    split
    · exact .fail
    · refine emit_fin ⟨⟨⟨sp.vd.trans hV, by rw [sp.nv, sp.vd]; exact hr.vd, by rw [sp.vd, sp.dcs]; exact hr.dcs⟩, _, hg', by simpa using hl, ?_⟩, fun α => by unfold Th; rw [sp.vd]⟩ _ _
      intro i hi e he
      rcases Nat.eq_or_lt_of_le hi with rfl | hlt
      · simp only [Nat.sub_self, List.drop_zero, List.flatten_cons, List.cons_append, List.mem_cons] at he
        rcases he with rfl | he
        · have : (⟨dd.b, p.sign⟩ : Lit) = p := by rw [hb]
          simp only [this]
          exact (hval p).mpr hp
        · exact hA i (Nat.le_refl i) e (by simpa using he)
      · refine hA i hi e ?_
        obtain ⟨m, hm⟩ : ∃ m, n - i = m + 1 := ⟨n - i - 1, by omega⟩
        rw [hm] at he ⊢
        exact he

/-- The theory, with unsafe propagations excluded, keeps the contract the core relies on; `V` are the registered constraints, which only the calls of the user change. -/
def dlContract (V : Nat → Option (Dist W)) : Contract (safeOps (W := W)) where
  Th := Th
  TI := TI V
  mono := fun _ _ _ _ h hA => h.mono hA
  prop := fun _ t n A val p h hval hc hp => by
    unfold safeOps
    simp only
    split
    · next hsafe =>
      cases hv : t.vd p.var with
      | none => unfold propagate; rw [hv]; exact .fail
      | some dd =>
        have hf := propagate_fin h hval hc hv hp hsafe
        obtain ⟨⟨hV, hr⟩, As, hg, hl, hA⟩ := h
        obtain ⟨a, B, rfl⟩ := hg.ne
        refine actOK_of (propagate_valid hg hr hc (fun e he => (hval _).mp (hA n (Nat.le_refl n) e (by simpa using he))) hv hp hsafe) hc hf A (fun _ _ _ h => h) hval
    · exact .fail
  check := fun _ t n A val t' r h _ _ hck => by
    unfold safeOps at hck
    simp only at hck
    split at hck
    · cases hck
      exact ⟨h, fun _ => Iff.rfl, fun _ h => by cases h⟩
    · cases hck
  push := fun t n A h hA => by
    obtain ⟨⟨hV, hr⟩, As, hg, hl, hm⟩ := h
    refine ⟨⟨⟨hV, hr.vd, hr.dcs⟩, [] :: As, goodG_push hg, by simp [hl], fun i hi e he => ?_⟩, fun _ => Iff.rfl⟩
    rcases Nat.eq_or_lt_of_le hi with rfl | hlt
    · refine hA _ (hm n (Nat.le_refl n) e ?_)
      simpa using he
    · refine hm i (by omega) e ?_
      have : n + 1 - i = (n - i) + 1 := by omega
      rw [this] at he
      exact he
  pop := fun t t' n A h hp => by
    obtain ⟨⟨hV, hr⟩, As, hg, hl, hm⟩ := h
    obtain ⟨a, B, rfl⟩ := hg.ne
    have hg' := goodG_pop hg hp
    obtain ⟨L, Ls, _, rfl⟩ := pop_cases hp
    refine ⟨⟨⟨hV, hr.vd, hr.dcs⟩, B, hg', by simpa using hl, fun i hi e he => hm i (by omega) e ?_⟩, fun _ => Iff.rfl⟩
    have : n + 1 - i = (n - i) + 1 := by omega
    rw [this]
    exact he

end DL
end Semitone
