import Verif.DL.Core

/-!
# Histories of a difference-logic theory

The calls that the core and the user make, in any order: creation of time points and constraints, `push`, `pop`, and the propagation of a
constraint literal (accepted or refused). `A` is the stack of the constraints asserted at each decision level, newest level first.
-/
namespace Semitone

/-- The theory answers "consistent" after having recorded some clauses, and is left in state `t`. -/
inductive TAct.Ends {T : Type} : TAct T → T → Prop
  | ok {t} : TAct.Ends (.ok t) t
  | record {cl k v t} : TAct.Ends (k v) t → TAct.Ends (.record cl k) t

namespace DL
variable {W : Type} [AddCommGroup W] [LinearOrder W] [IsOrderedAddMonoid W] [Dom W]

/-- One call. -/
inductive Call : DL W × List (List (Dist W × Bool)) → DL W × List (List (Dist W × Bool)) → Prop
  /-- `new_var()` -/
  | newVar {t A} : Call (t, A) (t.newVar.1, A)
  /-- `new_distance` on existing time points creates a constraint (it is neither redundant nor inconsistent) with a fresh literal -/
  | register {t A dd} : dd.src < t.nv → dd.tgt < t.nv → ¬ t.d dd.tgt dd.src < ((-dd.w : W) : WithTop W) → ¬ t.d dd.src dd.tgt ≤ (dd.w : WithTop W) →
      t.vd dd.b = none → Call (t, A) (t.register dd, A)
  /-- the core propagates the literal `p`, which the theory accepts -/
  | lit {t t' a A val p dd sg} : t.vd p.var = some dd → val ⟨dd.b, true⟩ = some sg → (t.propagate val p).Ends t' →
      Call (t, a :: A) (t', ((dd, sg) :: a) :: A)
  /-- the core propagates the literal `p`, which the theory refuses -/
  | refused {t t' A val p cl} : t.propagate val p = .confl t' cl → Call (t, A) (t', A)
  | push {t A} : Call (t, A) (t.push, [] :: A)
  | pop {t t' a A} : A ≠ [] → t.pop = .ok t' → Call (t, a :: A) (t', A)
  | listen {t t' A v l} : t.listen v l = .ok t' → Call (t, A) (t', A)

/-- The state `t` with the asserted constraints `A` is reachable from a fresh theory of initial capacity at least 1. -/
inductive Hist : DL W × List (List (Dist W × Bool)) → Prop
  | init {size : Nat} : 1 ≤ size → Hist (init size, [[]])
  | call {x y} : Hist x → Call x y → Hist y

/-- Calls that never return below a stack of `n` levels. -/
inductive Within (n : Nat) : DL W × List (List (Dist W × Bool)) → DL W × List (List (Dist W × Bool)) → Prop
  | refl {x} : n ≤ x.2.length → Within n x x
  | call {x y z} : Within n x y → Call y z → n ≤ z.2.length → Within n x z

/-- Equal up to the predecessors (and the registered constraints). -/
structure Eqv (t u : DL W) : Prop where
  nv : u.nv = t.nv
  cap : u.cap = t.cap
  d : u.d = t.d
  cur : u.cur = t.cur
  bad : u.bad = t.bad
  lay : List.Forall₂ (fun L L' => L'.oldD = L.oldD ∧ L'.oldC = L.oldC) t.layers u.layers

theorem forall2_refl (Ls : List (Layer W)) : List.Forall₂ (fun L L' : Layer W => L'.oldD = L.oldD ∧ L'.oldC = L.oldC) Ls Ls := by
  induction Ls with
  | nil => exact .nil
  | cons L Ls ih => exact .cons ⟨rfl, rfl⟩ ih

theorem Eqv.refl (t : DL W) : Eqv t t := ⟨rfl, rfl, rfl, rfl, rfl, forall2_refl _⟩

theorem Eqv.core {t u : DL W} {F : List (Dist W × Bool)} (h : Eqv t u) (c : Core t F) : Core u F := by
  obtain ⟨h1, h2, h3, h4, h5, _⟩ := h
  refine ⟨by rw [h1, h2]; exact c.cap, by rw [h1]; exact c.one, by rw [h1, h3]; exact c.closed, by rw [h1, h3]; exact c.out,
    by rw [h1, h3]; exact c.sound, by rw [h1, h3]; exact c.compl, by rw [h4]; exact c.curF, by rw [h5]; exact c.ok⟩

theorem Eqv.layok {t u : DL W} (h : Eqv t u) (c : t.LayerOK) : u.LayerOK := by
  unfold LayerOK at *
  have hl := h.lay
  cases hu : u.layers with
  | nil => trivial
  | cons L' Ls' =>
    rw [hu] at hl
    cases ht : t.layers with
    | nil => rw [ht] at hl; cases hl
    | cons L Ls =>
      rw [ht] at hl
      cases hl with
      | cons h1 h2 =>
        simp only [ht] at c
        simp only
        intro i j x hx
        rw [h.cur]
        rw [h1.2] at hx
        exact c i j x hx

theorem pop_eq {t : DL W} {L : Layer W} {Ls : List (Layer W)} (h : t.layers = L :: Ls) : t.pop = .ok
    { t with
      d := fun i j => (L.oldD i j).getD (t.d i j)
      pred := fun i j => (L.oldP i j).getD (t.pred i j)
      cur := fun i j => popC (L.oldC i j) (t.cur i j)
      layers := Ls } := by
  unfold pop
  rw [h]
  simp only [Except.ok.injEq]
  congr 1

theorem pop_cases {t t' : DL W} (h : t.pop = .ok t') : ∃ L Ls, t.layers = L :: Ls ∧ t' =
    { t with
      d := fun i j => (L.oldD i j).getD (t.d i j)
      pred := fun i j => (L.oldP i j).getD (t.pred i j)
      cur := fun i j => popC (L.oldC i j) (t.cur i j)
      layers := Ls } := by
  cases hl : t.layers with
  | nil => unfold pop at h; rw [hl] at h; cases h
  | cons L Ls =>
    rw [pop_eq hl] at h
    injection h with h
    exact ⟨L, Ls, rfl, h.symm⟩

theorem Eqv.pop {t u t' : DL W} (h : Eqv t u) (hp : t.pop = .ok t') : ∃ u', u.pop = .ok u' ∧ Eqv t' u' := by
  obtain ⟨L, Ls, hl, rfl⟩ := pop_cases hp
  have hl' := h.lay
  rw [hl] at hl'
  cases hu : u.layers with
  | nil => rw [hu] at hl'; cases hl'
  | cons L' Ls' =>
    rw [hu] at hl'
    cases hl' with
    | cons h1 h2 =>
      refine ⟨_, pop_eq hu, ⟨h.nv, h.cap, ?_, ?_, h.bad, h2⟩⟩
      · simp only [h1.1, h.d]
      · simp only [h1.2, h.cur]

/-- The invariant at every level. -/
inductive Good : DL W → List (List (Dist W × Bool)) → Prop
  | base {t a} : Core t [a].flatten → t.layers = [] → Good t [a]
  | level {t t' a A} : Core t (a :: A).flatten → t.LayerOK → t.pop = .ok t' → Good t' A → Good t (a :: A)

theorem Good.core {t : DL W} {A : List (List (Dist W × Bool))} (h : Good t A) : Core t A.flatten := by
  cases h with
  | base h _ => exact h
  | level h _ _ _ => exact h

theorem Good.layok {t : DL W} {A : List (List (Dist W × Bool))} (h : Good t A) : t.LayerOK := by
  cases h with
  | base _ h => unfold LayerOK; rw [h]; trivial
  | level _ h _ _ => exact h

theorem Good.ne {t : DL W} {A : List (List (Dist W × Bool))} (h : Good t A) : ∃ a B, A = a :: B := by
  cases h with
  | base _ _ => exact ⟨_, _, rfl⟩
  | level _ _ _ _ => exact ⟨_, _, rfl⟩

theorem Good.congr {t : DL W} {A : List (List (Dist W × Bool))} (h : Good t A) : ∀ {u}, Eqv t u → Good u A := by
  induction h with
  | base h1 h2 =>
    intro u e
    refine .base (e.core h1) ?_
    have := e.lay
    rw [h2] at this
    cases hu : u.layers with
    | nil => rfl
    | cons => rw [hu] at this; cases this
  | level h1 h2 h3 _ ih =>
    intro u e
    obtain ⟨u', hu, e'⟩ := e.pop h3
    exact .level (e.core h1) (e.layok h2) hu (ih e')

/-- More time points. -/
theorem core_nv {t : DL W} {F : List (Dist W × Bool)} (h : Core t F) {n c : Nat} (hn : t.nv ≤ n) (hc : n ≤ c) : Core { t with nv := n, cap := c } F := by
  have hd : ∀ i j, ¬ (i < t.nv ∧ j < t.nv) → t.d i j = d0 i j := h.out
  refine ⟨hc, h.one.trans hn, ⟨fun i hi => ?_, fun i j k hi hj hk => ?_⟩, fun i j hij => hd i j (fun h' => hij ⟨h'.1.trans_le hn, h'.2.trans_le hn⟩), ?_, ?_, h.curF, h.ok⟩
  · show t.d i i = _
    by_cases h1 : i < t.nv
    · exact h.closed.diag i h1
    · rw [hd i i (fun h' => h1 h'.1)]; simp [d0]
  · show t.d i j ≤ t.d i k + t.d k j
    by_cases h1 : i < t.nv ∧ j < t.nv ∧ k < t.nv
    · exact h.closed.tri i j k h1.1 h1.2.1 h1.2.2
    · by_cases hik : i = k
      · subst hik
        have : t.d i i = ((0 : W) : WithTop W) := by
          by_cases h2 : i < t.nv
          · exact h.closed.diag i h2
          · rw [hd i i (fun h' => h2 h'.1)]; simp [d0]
        rw [this]; simp
      · by_cases hkj : k = j
        · subst hkj
          have : t.d k k = ((0 : W) : WithTop W) := by
            by_cases h2 : k < t.nv
            · exact h.closed.diag k h2
            · rw [hd k k (fun h' => h2 h'.1)]; simp [d0]
          rw [this]; simp
        · by_cases h2 : i < t.nv ∧ k < t.nv
          · have h3 : ¬ (k < t.nv ∧ j < t.nv) := fun h3 => h1 ⟨h2.1, h3.2, h2.2⟩
            rw [hd k j h3]; simp [d0, hkj]
          · rw [hd i k h2]; simp [d0, hik]
  · intro X hX i j hi hj
    show _ ≤ t.d i j
    by_cases h1 : i < t.nv ∧ j < t.nv
    · exact h.sound X hX i j h1.1 h1.2
    · rw [hd i j h1]
      unfold d0
      split
      · next e => subst e; simp
      · simp
  · intro e he
    obtain ⟨a, b, c, d⟩ := h.compl e he
    exact ⟨a.trans_le hn, b.trans_le hn, c, d⟩

theorem Good.more {t : DL W} {A : List (List (Dist W × Bool))} (h : Good t A) : ∀ {n c}, t.nv ≤ n → n ≤ c → Good { t with nv := n, cap := c } A := by
  induction h with
  | base h1 h2 => intro n c hn hc; exact .base (core_nv h1 hn hc) h2
  | @level t t' a A h1 h2 h3 _ ih =>
    intro n c hn hc
    obtain ⟨L, Ls, hl, rfl⟩ := pop_cases h3
    exact .level (core_nv h1 hn hc) h2 (pop_eq (t := { t with nv := n, cap := c }) hl) (ih hn hc)

theorem newVar_eqv {t : DL W} {F : List (Dist W × Bool)} (h : Core t F) :
    ∃ c, t.nv + 1 ≤ c ∧ Eqv { t with nv := t.nv + 1, cap := c } t.newVar.1 := by
  unfold newVar
  simp only
  split
  · next e =>
    refine ⟨(t.cap * 3) / 2 + 1, by omega, ⟨rfl, rfl, ?_, rfl, rfl, forall2_refl _⟩⟩
    funext i j
    show (if i < t.cap ∧ j < t.cap then t.d i j else d0 i j) = t.d i j
    split
    · rfl
    · next hh =>
      refine (h.out i j (fun h' => hh ⟨?_, ?_⟩)).symm
      · exact h'.1.trans_le h.cap
      · exact h'.2.trans_le h.cap
  · next e =>
    refine ⟨t.cap, ?_, .refl _⟩
    have := h.cap
    omega

theorem good_newVar {t : DL W} {A : List (List (Dist W × Bool))} (h : Good t A) : Good t.newVar.1 A := by
  obtain ⟨c, hc, e⟩ := newVar_eqv h.core
  exact (h.more (Nat.le_succ _) hc).congr e

theorem good_push {t : DL W} {A : List (List (Dist W × Bool))} (h : Good t A) : Good t.push ([] :: A) := by
  have c : Core t.push A.flatten := by
    have := h.core
    exact ⟨this.cap, this.one, this.closed, this.out, this.sound, this.compl, this.curF, this.ok⟩
  refine .level (by simpa using c) ?_ (pop_eq rfl) (h.congr ⟨rfl, rfl, ?_, ?_, rfl, forall2_refl _⟩)
  · intro i j x hx; cases hx
  · funext i j; rfl
  · funext i j; rfl

/-- The levels below an update of the current one. -/
theorem good_step {t t' : DL W} {a : List (Dist W × Bool)} {A : List (List (Dist W × Bool))} (h : Good t (a :: A)) (e : Dist W × Bool)
    (hc : Core t' ((e :: a) :: A).flatten) (hl : t'.LayerOK) (hv : t'.view = t.view) (hn : t'.nv = t.nv) (hcap : t'.cap = t.cap) : Good t' ((e :: a) :: A) := by
  cases h with
  | base h1 h2 =>
    refine .base hc ?_
    cases hl' : t'.layers with
    | nil => rfl
    | cons => simp [view, h2, hl'] at hv
  | @level _ u _ _ h1 h2 h3 h4 =>
    obtain ⟨L, Ls, hlt, rfl⟩ := pop_cases h3
    cases hl' : t'.layers with
    | nil => simp [view, hlt, hl'] at hv
    | cons L' Ls' =>
      simp only [view, hlt, hl', Option.some.injEq, Prod.mk.injEq] at hv
      refine .level hc hl (pop_eq hl') (h4.congr ⟨hn, hcap, hv.1, hv.2.1, ?_, ?_⟩)
      · show t'.bad = t.bad
        rw [hc.ok, h1.ok]
      · show List.Forall₂ _ Ls Ls'
        rw [hv.2.2]
        exact forall2_refl _

theorem good_pop {t t' : DL W} {a : List (Dist W × Bool)} {A : List (List (Dist W × Bool))} (h : Good t (a :: A)) (hp : t.pop = .ok t') : Good t' A := by
  cases h with
  | base h1 h2 => unfold pop at hp; rw [h2] at hp; cases hp
  | level _ _ h3 h4 =>
    rw [hp] at h3
    injection h3 with h3
    exact h3 ▸ h4

theorem emit_ends {t t' : DL W} : ∀ (ds : List (Dist W)) (val : Lit → Option Bool), (emit t ds val).Ends t' → t' = t
  | [], val, h => by
    unfold emit at h
    cases h
    rfl
  | dd :: ds, val, h => by
    unfold emit at h
    split at h
    · split at h
      · split at h
        · cases h
        · cases h with
          | record h => exact emit_ends ds _ h
      · split at h
        · split at h
          · cases h
          · cases h with
            | record h => exact emit_ends ds _ h
        · exact emit_ends ds _ h
    · exact emit_ends ds _ h

/-- What an accepted literal does. -/
theorem propagate_ends {t t' : DL W} {val : Lit → Option Bool} {p : Lit} {dd : Dist W} {sg : Bool} (hv : t.vd p.var = some dd)
    (hs : val ⟨dd.b, true⟩ = some sg) (h : (t.propagate val p).Ends t') :
    (t.assertD dd sg = .noop ∧ t' = t) ∨ ∃ cu, t.assertD dd sg = .update t' cu := by
  unfold propagate at h
  rw [hv] at h
  simp only at h
  rw [hs] at h
  simp only at h
  split at h
  · split at h
    · split at h <;> cases h
    · next ho => cases h; exact Or.inl ⟨ho, rfl⟩
    · next t1 cu ho =>
      split at h
      · cases h
      · have := emit_ends _ _ h
        exact Or.inr ⟨cu, by rw [ho, this]⟩
  · cases h

theorem emit_confl {t t' : DL W} {cl : List Lit} : ∀ (ds : List (Dist W)) (val : Lit → Option Bool), emit t ds val ≠ .confl t' cl
  | [], val, h => by unfold emit at h; cases h
  | dd :: ds, val, h => by
    unfold emit at h
    split at h
    · split at h
      · split at h <;> cases h
      · split at h
        · split at h <;> cases h
        · exact emit_confl ds _ h
    · exact emit_confl ds _ h

/-- What a refused literal does. -/
theorem propagate_confl {t t' : DL W} {val : Lit → Option Bool} {p : Lit} {cl : List Lit} (h : t.propagate val p = .confl t' cl) :
    t' = t ∧ ∃ dd sg i j, t.vd p.var = some dd ∧ val ⟨dd.b, true⟩ = some sg ∧ dd.src < t.nv ∧ dd.tgt < t.nv ∧ t.assertD dd sg = .conflict i j ∧
      ∃ L, t.explain val i t.nv j = .ok L ∧ cl = L ++ [p.neg] := by
  unfold propagate at h
  split at h
  · cases h
  · next dd hv =>
    split at h
    · cases h
    · next sg hs =>
      split at h
      · next hr =>
        split at h
        · next i j ho =>
          split at h
          · cases h
          · next L hL =>
            injection h with h1 h2
            exact ⟨h1.symm, dd, sg, i, j, hv, hs, hr.2.1, hr.2.2, ho, L, hL, h2.symm⟩
        · cases h
        · split at h
          · cases h
          · exact absurd h (emit_confl _ _)
      · cases h

theorem good_lit {t t' : DL W} {a : List (Dist W × Bool)} {A : List (List (Dist W × Bool))} (h : Good t (a :: A)) {dd : Dist W} {sg : Bool}
    (hs : dd.src < t.nv) (ht : dd.tgt < t.nv) (hne : dd.src ≠ dd.tgt)
    (ho : (t.assertD dd sg = .noop ∧ t' = t) ∨ ∃ cu, t.assertD dd sg = .update t' cu) : Good t' (((dd, sg) :: a) :: A) := by
  have sp := assertD_spec h.core dd sg hs ht hne
  rcases ho with ⟨ho, rfl⟩ | ⟨cu, ho⟩
  · rw [ho] at sp
    simp only at sp
    refine good_step h (dd, sg) (core_noop h.core (dd, sg) sp) h.layok rfl rfl rfl
  · rw [ho] at sp
    simp only at sp
    refine good_step h (dd, sg) ?_ (sp.lay h.layok) (sp.view h.layok) sp.nv sp.cap
    exact core_relax h.core (dd, sg) sp.edge sp.rel rfl sp.nv sp.cap sp.cur

theorem ends_frame {t t' : DL W} {dd : Dist W} {sg : Bool} {A : List (List (Dist W × Bool))} (h : Good t A) (hs : dd.src < t.nv) (ht : dd.tgt < t.nv)
    (hne : dd.src ≠ dd.tgt) (ho : (t.assertD dd sg = .noop ∧ t' = t) ∨ ∃ cu, t.assertD dd sg = .update t' cu) :
    t'.nv = t.nv ∧ t'.vd = t.vd ∧ t'.dcs = t.dcs ∧ t'.view = t.view := by
  have sp := assertD_spec h.core dd sg hs ht hne
  rcases ho with ⟨ho, rfl⟩ | ⟨cu, ho⟩
  · exact ⟨rfl, rfl, rfl, rfl⟩
  · rw [ho] at sp
    simp only at sp
    exact ⟨sp.nv, sp.vd, sp.dcs, sp.view h.layok⟩

theorem regs_init (size : Nat) : Regs (init (W := W) size) := ⟨fun _ _ h => by simp [init] at h, fun _ _ _ h => by simp [init] at h⟩

theorem core_init {size : Nat} (h : 1 ≤ size) : Core (init (W := W) size) [] := by
  refine ⟨h, le_refl _, ⟨fun i hi => by simp [init, d0], fun i j k hi hj hk => ?_⟩, fun _ _ _ => rfl, fun X _ i j hi hj => ?_, fun _ h => by simp at h,
    fun _ _ _ h => by simp [init] at h, rfl⟩
  · have h1 : i = 0 := by have : i < 1 := hi; omega
    have h2 : j = 0 := by have : j < 1 := hj; omega
    have h3 : k = 0 := by have : k < 1 := hk; omega
    subst h1 h2 h3
    simp [init, d0]
  · have h1 : i = 0 := by have : i < 1 := hi; omega
    have h2 : j = 0 := by have : j < 1 := hj; omega
    subst h1 h2
    simp [init, d0]

theorem newVar_frame {t : DL W} {F : List (Dist W × Bool)} (h : Core t F) : t.newVar.1.nv = t.nv + 1 ∧ t.newVar.1.vd = t.vd ∧ t.newVar.1.dcs = t.dcs ∧ t.newVar.2 = t.nv := by
  unfold newVar
  simp only
  split <;> exact ⟨rfl, rfl, rfl, trivial⟩

theorem ne_of_open {t : DL W} {F : List (Dist W × Bool)} (h : Core t F) {dd : Dist W} (hs : dd.src < t.nv) (h1 : ¬ t.d dd.tgt dd.src < ((-dd.w : W) : WithTop W))
    (h2 : ¬ t.d dd.src dd.tgt ≤ (dd.w : WithTop W)) : dd.src ≠ dd.tgt := by
  intro e
  rw [← e, h.closed.diag _ hs] at h1 h2
  norm_cast at h1 h2
  grind

theorem listen_same {t t' : DL W} {v l : Nat} (h : t.listen v l = .ok t') : ∃ f, t' = { t with lst := f } := by
  unfold listen at h
  split at h
  · injection h with h; exact ⟨_, h.symm⟩
  · split at h
    · cases h
    · injection h with h
      subst h
      split
      · exact ⟨_, rfl⟩
      · exact ⟨t.lst, rfl⟩

theorem Call.good {x y : DL W × List (List (Dist W × Bool))} (hc : Call x y) (h : Good x.1 x.2) (hr : Regs x.1) : Good y.1 y.2 ∧ Regs y.1 := by
  cases hc with
  | newVar =>
    refine ⟨good_newVar h, ?_⟩
    obtain ⟨a, b, c, _⟩ := newVar_frame h.core
    refine ⟨fun v dd hv => ?_, fun i j dd hd => ?_⟩
    · rw [a]; rw [b] at hv
      obtain ⟨p, q, r, s⟩ := hr.vd v dd hv
      exact ⟨p, Nat.lt_succ_of_lt q, Nat.lt_succ_of_lt r, s⟩
    · rw [b]; rw [c] at hd
      exact hr.dcs i j dd hd
  | @register t A dd hs ht h1 h2 hf =>
    refine ⟨h.congr ⟨rfl, rfl, rfl, rfl, rfl, forall2_refl _⟩, ⟨fun v d' hv => ?_, fun i j d' hd => ?_⟩⟩
    · simp only [DL.register, upd] at hv
      split at hv
      · next e =>
        injection hv with hv
        subst hv e
        exact ⟨rfl, hs, ht, ne_of_open h.core hs h1 h2⟩
      · exact hr.vd v d' hv
    · have key : ∀ d', t.vd d'.b = some d' → (t.register dd).vd d'.b = some d' := by
        intro d' hd'
        simp only [DL.register, upd]
        split
        · next e => rw [e, hf] at hd'; cases hd'
        · exact hd'
      simp only [DL.register, upd2] at hd
      split at hd
      · next e =>
        rcases List.mem_append.mp hd with hd | hd
        · obtain ⟨a, b, c⟩ := hr.dcs _ _ _ hd
          exact ⟨key d' a, by rw [b, e.1], by rw [c, e.2]⟩
        · have := List.mem_singleton.mp hd
          subst this
          exact ⟨by simp [DL.register, upd], e.1.symm, e.2.symm⟩
      · obtain ⟨a, b, c⟩ := hr.dcs _ _ _ hd
        exact ⟨key d' a, b, c⟩
  | @lit t t' a A val p dd sg hv hs he =>
    obtain ⟨a1, a2, a3, a4⟩ := hr.vd _ _ hv
    have ho := propagate_ends hv hs he
    refine ⟨good_lit h a2 a3 a4 ho, ?_⟩
    obtain ⟨b1, b2, b3, _⟩ := ends_frame h a2 a3 a4 ho
    exact ⟨by rw [b1, b2]; exact hr.vd, by rw [b2, b3]; exact hr.dcs⟩
  | refused he => rw [(propagate_confl he).1]; exact ⟨h, hr⟩
  | push => exact ⟨good_push h, ⟨hr.vd, hr.dcs⟩⟩
  | pop hne hp =>
    refine ⟨good_pop h hp, ?_⟩
    obtain ⟨L, Ls, _, rfl⟩ := pop_cases hp
    exact ⟨hr.vd, hr.dcs⟩
  | listen hl =>
    obtain ⟨f, rfl⟩ := listen_same hl
    exact ⟨h.congr ⟨rfl, rfl, rfl, rfl, rfl, forall2_refl _⟩, ⟨hr.vd, hr.dcs⟩⟩

theorem Hist.good {x : DL W × List (List (Dist W × Bool))} (h : Hist x) : Good x.1 x.2 ∧ Regs x.1 := by
  induction h with
  | init hs => exact ⟨.base (core_init hs) rfl, regs_init _⟩
  | call _ hc ih => exact hc.good ih.1 ih.2

end DL
end Semitone
