import Verif.DL.Hist
import Mathlib.Data.Finset.Lattice.Fold

/-!
# Difference logic: C27, C28, C29, C31, C36
-/
namespace Semitone
namespace DL
variable {W : Type} [AddCommGroup W] [LinearOrder W] [IsOrderedAddMonoid W] [Dom W]

theorem negTop_le {a : WithTop W} {x : W} (h : ((-x : W) : WithTop W) ≤ a) : negTop a ≤ (x : WithBot W) := by
  cases a with
  | top => exact bot_le
  | coe a =>
    norm_cast at h
    show ((-a : W) : WithBot W) ≤ (x : WithBot W)
    norm_cast
    grind

/-- C27: every assignment of numbers to the time points that satisfies the asserted constraints satisfies the reported distances and bounds. -/
theorem C27_distances_sound {t : DL W} {A : List (List (Dist W × Bool))} (h : Hist (t, A)) (X : Nat → W) (hX : SatF X A.flatten) :
    (∀ i j, i < t.nv → j < t.nv → (t.distance i j).1 ≤ ((X j - X i : W) : WithBot W) ∧ ((X j - X i : W) : WithTop W) ≤ (t.distance i j).2) ∧
    (∀ v, v < t.nv → X 0 = 0 → t.lb v ≤ ((X v : W) : WithBot W) ∧ ((X v : W) : WithTop W) ≤ t.ub v ∧ t.bounds v = (t.lb v, t.ub v)) := by
  have c := h.good.1.core
  have key : ∀ i j, i < t.nv → j < t.nv → (t.distance i j).1 ≤ ((X j - X i : W) : WithBot W) ∧ ((X j - X i : W) : WithTop W) ≤ (t.distance i j).2 := by
    intro i j hi hj
    refine ⟨negTop_le ?_, c.sound X hX i j hi hj⟩
    have := c.sound X hX j i hj hi
    rwa [← neg_sub] at this
  refine ⟨key, fun v hv h0 => ?_⟩
  have := key 0 v c.one hv
  rw [h0, sub_zero] at this
  exact ⟨this.1, this.2, rfl⟩

/-- A potential: an assignment that satisfies the matrix. -/
def Pot (n : Nat) (d : Nat → Nat → WithTop W) (X : Nat → W) : Prop := ∀ i j, i < n → j < n → ((X j - X i : W) : WithTop W) ≤ d i j

theorem pot_satF {t : DL W} {F : List (Dist W × Bool)} (c : Core t F) {X : Nat → W} (h : Pot t.nv t.d X) : SatF X F := by
  intro e he
  obtain ⟨a, b, _, d⟩ := c.compl e he
  rw [holds_iff]
  have := (h (es e) (et e) a b).trans d
  exact_mod_cast this

theorem closed_nonneg {n : Nat} {d : Nat → Nat → WithTop W} (c : Closed n d) {i j : Nat} (hi : i < n) (hj : j < n) : (0 : WithTop W) ≤ d i j + d j i := by
  have := c.tri i i j hi hi hj
  rwa [c.diag i hi] at this

/-- A finite potential exists. -/
theorem base_pot {n : Nat} {d : Nat → Nat → WithTop W} (c : Closed n d) : ∃ m : Nat → W, Pot n d m := by
  have hf : ∀ k, k < n → ∃ a : W, (Finset.range n).inf (fun l => d l k) = (a : WithTop W) := by
    intro k hk
    have h1 : (Finset.range n).inf (fun l => d l k) ≤ d k k := Finset.inf_le (Finset.mem_range.mpr hk)
    rw [c.diag k hk] at h1
    cases h2 : (Finset.range n).inf (fun l => d l k) with
    | top => rw [h2] at h1; simp at h1
    | coe a => exact ⟨a, rfl⟩
  refine ⟨fun k => ((Finset.range n).inf (fun l => d l k)).untopD 0, fun i j hi hj => ?_⟩
  obtain ⟨a, ha⟩ := hf i hi
  obtain ⟨b, hb⟩ := hf j hj
  simp only [ha, hb, WithTop.untopD_coe]
  obtain ⟨l, hl, e⟩ := Finset.exists_mem_eq_inf (Finset.range n) ⟨i, Finset.mem_range.mpr hi⟩ (fun l => d l i)
  have h2 : (Finset.range n).inf (fun l => d l j) ≤ d l j := Finset.inf_le hl
  have h3 := c.tri l j i (Finset.mem_range.mp hl) hj hi
  rw [hb] at h2
  rw [ha] at e
  rw [← e] at h3
  have h4 := h2.trans h3
  cases hd : d i j with
  | top => simp
  | coe x =>
    rw [hd] at h4
    norm_cast at h4 ⊢
    grind

/-- A potential in which the distance from `i` is as large as the matrix allows. -/
theorem far_pot {n : Nat} {d : Nat → Nat → WithTop W} (c : Closed n d) {i j : Nat} (hi : i < n) (hj : j < n) :
    (∀ x : W, d i j = (x : WithTop W) → ∃ X, Pot n d X ∧ X j - X i = x) ∧ (d i j = ⊤ → ∀ M : W, ∃ X, Pot n d X ∧ M < X j - X i) := by
  obtain ⟨m, hm⟩ := base_pot c
  have hpot : ∀ M : W, Pot n d (fun k => (min (d i k) ((M + m k : W) : WithTop W)).untopD 0) := by
    intro M a b ha hb
    have h1 := c.tri i b a hi hb ha
    have h2 := hm a b ha hb
    have fin : ∀ k, ∃ x : W, min (d i k) ((M + m k : W) : WithTop W) = (x : WithTop W) := by
      intro k
      cases h : d i k with
      | top => exact ⟨_, by simp; rfl⟩
      | coe y => exact ⟨min y (M + m k), by norm_cast⟩
    obtain ⟨x, hx⟩ := fin a
    obtain ⟨y, hy⟩ := fin b
    simp only [hx, hy, WithTop.untopD_coe]
    cases hd : d a b with
    | top => simp
    | coe z =>
      rw [hd] at h1 h2
      norm_cast at h2 ⊢
      suffices h : (y : WithTop W) ≤ (x : WithTop W) + (z : WithTop W) by
        norm_cast at h
        grind
      rw [← hx, ← hy]
      rcases min_choice (d i a) ((M + m a : W) : WithTop W) with e | e
      · rw [e]; exact (min_le_left _ _).trans h1
      · rw [e]
        refine (min_le_right _ _).trans ?_
        norm_cast
        grind
  have hii := c.diag i hi
  constructor
  · intro x hx
    refine ⟨_, hpot (max (-(m i)) (x - m j)), ?_⟩
    simp only [hx, hii]
    have h1 : min (x : WithTop W) ((max (-(m i)) (x - m j) + m j : W) : WithTop W) = (x : WithTop W) := by
      apply min_eq_left
      norm_cast
      have := le_max_right (-(m i)) (x - m j)
      grind
    have h2 : min ((0 : W) : WithTop W) ((max (-(m i)) (x - m j) + m i : W) : WithTop W) = ((0 : W) : WithTop W) := by
      apply min_eq_left
      norm_cast
      have := le_max_left (-(m i)) (x - m j)
      grind
    rw [h1, h2]
    simp
  · intro hx M
    refine ⟨_, hpot (max (-(m i)) (M + Dom.one - m j)), ?_⟩
    simp only [hx, hii]
    have h2 : min ((0 : W) : WithTop W) ((max (-(m i)) (M + Dom.one - m j) + m i : W) : WithTop W) = ((0 : W) : WithTop W) := by
      apply min_eq_left
      norm_cast
      have := le_max_left (-(m i)) (M + Dom.one - m j)
      grind
    rw [h2]
    simp only [top_le_iff, le_top, inf_of_le_right, WithTop.untopD_coe]
    have := le_max_right (-(m i)) (M + Dom.one - m j)
    have := one_pos (W := W)
    grind

/-- C28: the reported distances are the tightest ones. The constraints asserted have a common solution; the diagonal is zero and the triangle
inequality holds; every finite reported bound on a difference is reached by some solution, and where no bound is reported the difference takes
arbitrarily large values. -/
theorem C28_distances_tight {t : DL W} {A : List (List (Dist W × Bool))} (h : Hist (t, A)) :
    (∃ X, SatF X A.flatten) ∧
    (∀ i, i < t.nv → t.distance i i = (((0 : W) : WithBot W), ((0 : W) : WithTop W))) ∧
    (∀ i j k, i < t.nv → j < t.nv → k < t.nv → (t.distance i j).2 ≤ (t.distance i k).2 + (t.distance k j).2) ∧
    (∀ i j, i < t.nv → j < t.nv →
      (∀ x : W, (t.distance i j).2 = (x : WithTop W) → ∃ X, SatF X A.flatten ∧ X j - X i = x) ∧
      ((t.distance i j).2 = ⊤ → ∀ M : W, ∃ X, SatF X A.flatten ∧ M < X j - X i) ∧
      (∀ x : W, (t.distance i j).1 = (x : WithBot W) → ∃ X, SatF X A.flatten ∧ X j - X i = x) ∧
      ((t.distance i j).1 = ⊥ → ∀ M : W, ∃ X, SatF X A.flatten ∧ X j - X i < M)) := by
  have c := h.good.1.core
  refine ⟨?_, fun i hi => ?_, fun i j k hi hj hk => c.closed.tri i j k hi hj hk, fun i j hi hj => ?_⟩
  · obtain ⟨m, hm⟩ := base_pot c.closed
    exact ⟨m, pot_satF c hm⟩
  · unfold distance
    rw [c.closed.diag i hi]
    simp [negTop]
  · have f1 := far_pot c.closed hi hj
    have f2 := far_pot c.closed hj hi
    refine ⟨fun x hx => ?_, fun hx M => ?_, fun x hx => ?_, fun hx M => ?_⟩
    · obtain ⟨X, a, b⟩ := f1.1 x hx
      exact ⟨X, pot_satF c a, b⟩
    · obtain ⟨X, a, b⟩ := f1.2 hx M
      exact ⟨X, pot_satF c a, b⟩
    · simp only [distance] at hx
      cases hd : t.d j i with
      | top => rw [hd] at hx; cases hx
      | coe y =>
        rw [hd] at hx
        have hx' : ((-y : W) : WithBot W) = (x : WithBot W) := hx
        obtain ⟨X, a, b⟩ := f2.1 y hd
        refine ⟨X, pot_satF c a, ?_⟩
        have : -y = x := by exact_mod_cast hx'
        rw [← this, ← b, neg_sub]
    · simp only [distance] at hx
      cases hd : t.d j i with
      | top =>
        obtain ⟨X, a, b⟩ := f2.2 hd (-M)
        refine ⟨X, pot_satF c a, ?_⟩
        grind
      | coe y =>
        rw [hd] at hx
        cases hx

/-- C29: a refused literal is really inconsistent with what has been asserted; an accepted one leaves a consistent network; and the theory's own
final check never fails. -/
theorem C29_conflicts_real {t : DL W} {a : List (Dist W × Bool)} {A : List (List (Dist W × Bool))} (h : Hist (t, a :: A)) {p : Lit} {dd : Dist W}
    {val : Lit → Option Bool} {sg : Bool} (hv : t.vd p.var = some dd) (hs : val ⟨dd.b, true⟩ = some sg) :
    (∀ t' cl, t.propagate val p = .confl t' cl → t' = t ∧ ∀ X, SatF X (a :: A).flatten → ¬ Holds X (dd, sg)) ∧
    (∀ t', (t.propagate val p).Ends t' → ∃ X, SatF X (a :: A).flatten ∧ Holds X (dd, sg)) := by
  obtain ⟨hg, hr⟩ := h.good
  obtain ⟨h1, h2, h3, h4⟩ := hr.vd _ _ hv
  constructor
  · intro t' cl hc
    obtain ⟨rfl, dd', sg', i, j, a1, a2, a3, a4, a5, _⟩ := propagate_confl hc
    rw [hv] at a1; injection a1 with a1; subst a1
    rw [hs] at a2; injection a2 with a2; subst a2
    refine ⟨rfl, ?_⟩
    have sp := assertD_spec hg.core dd sg h2 h3 h4
    rw [a5] at sp
    intro X hX
    refine conflict_sound hg.core (dd, sg) ?_ ?_ sp.2.2 X hX
    · unfold es; split <;> assumption
    · unfold et; split <;> assumption
  · intro t' he
    have hy := C28_distances_tight (Hist.call h (Call.lit hv hs he))
    obtain ⟨X, hX⟩ := hy.1
    refine ⟨X, ?_⟩
    rw [List.flatten_cons, List.cons_append, satF_cons] at hX
    exact ⟨hX.2, hX.1⟩

/-- C29: the assertion made by `check()` holds, provided that the values of the asserted literals are those with which they were propagated. -/
theorem C29_check_holds {t : DL W} {A : List (List (Dist W × Bool))} (h : Hist (t, A)) {val : Lit → Option Bool}
    (hv : ∀ e ∈ A.flatten, val ⟨e.1.b, true⟩ = some e.2) : t.checkOk val = true := by
  have c := h.good.1.core
  unfold checkOk
  simp only [List.all_eq_true, List.mem_range]
  intro i hi j hj
  cases hc : t.cur i j with
  | none => rfl
  | some dd =>
    obtain ⟨sg, h1, h2, h3⟩ := c.curF i j dd hc
    obtain ⟨_, _, _, h4⟩ := c.compl _ h1
    have := hv _ h1
    simp only at this
    simp only [this]
    cases sg with
    | true => simpa [es, et, ew] using h4
    | false =>
      simp only [decide_eq_true_eq]
      exact top_lt_neg_iff.mpr (by simpa [es, et, ew] using h4)

/-! ### Backtracking -/

/-- `n` calls of `pop`. -/
def popN : Nat → DL W → Except Err (DL W)
  | 0, t => .ok t
  | n + 1, t => match t.pop with
    | .error e => .error e
    | .ok t' => popN n t'

/-- `u` has the distances, the constraints and the saved layers of `t`. -/
structure SameNet (t u : DL W) : Prop where
  d : u.d = t.d
  cur : u.cur = t.cur
  lay : List.Forall₂ (fun L L' => L'.oldD = L.oldD ∧ L'.oldC = L.oldC) t.layers u.layers

theorem SameNet.pop {t u t' : DL W} (h : SameNet t u) (hp : t.pop = .ok t') : ∃ u', u.pop = .ok u' ∧ SameNet t' u' := by
  obtain ⟨L, Ls, hl, rfl⟩ := pop_cases hp
  have hl' := h.lay
  rw [hl] at hl'
  cases hu : u.layers with
  | nil => rw [hu] at hl'; cases hl'
  | cons L' Ls' =>
    rw [hu] at hl'
    cases hl' with
    | cons h1 h2 =>
      refine ⟨_, pop_eq hu, ⟨?_, ?_, h2⟩⟩
      · simp only [h1.1, h.d]
      · simp only [h1.2, h.cur]

theorem SameNet.popN {n : Nat} : ∀ {t u t' : DL W}, SameNet t u → popN n t = .ok t' → ∃ u', popN n u = .ok u' ∧ SameNet t' u' := by
  induction n with
  | zero => intro t u t' h hp; injection hp with hp; exact ⟨u, rfl, hp ▸ h⟩
  | succ n ih =>
    intro t u t' h hp
    unfold DL.popN at hp ⊢
    cases h1 : t.pop with
    | error e => rw [h1] at hp; cases hp
    | ok t1 =>
      rw [h1] at hp
      obtain ⟨u1, h2, h3⟩ := h.pop h1
      rw [h2]
      exact ih h3 hp

theorem SameNet.trans {a b c : DL W} (h : SameNet a b) (g : SameNet b c) : SameNet a c := by
  refine ⟨g.d.trans h.d, g.cur.trans h.cur, ?_⟩
  have h1 := h.lay
  have h2 := g.lay
  revert h1 h2
  generalize a.layers = x
  generalize b.layers = y
  generalize c.layers = z
  intro h1
  induction h1 generalizing z with
  | nil => intro h2; cases h2; exact .nil
  | cons p _ ih =>
    intro h2
    cases h2 with
    | cons q r => exact .cons ⟨q.1.trans p.1, q.2.trans p.2⟩ (ih _ r)

theorem view_pop {t u t' : DL W} (h : u.view = t.view) (hp : t.pop = .ok t') : ∃ u', u.pop = .ok u' ∧ SameNet t' u' := by
  obtain ⟨L, Ls, hl, rfl⟩ := pop_cases hp
  cases hu : u.layers with
  | nil => simp [view, hu, hl] at h
  | cons L' Ls' =>
    simp only [view, hu, hl, Option.some.injEq, Prod.mk.injEq] at h
    refine ⟨_, pop_eq hu, ⟨h.1, h.2.1, ?_⟩⟩
    show List.Forall₂ _ Ls Ls'
    rw [h.2.2]
    exact forall2_refl _

theorem view_popN {n : Nat} {t u t' : DL W} (h : u.view = t.view) (hp : popN (n + 1) t = .ok t') : ∃ u', popN (n + 1) u = .ok u' ∧ SameNet t' u' := by
  unfold popN at hp ⊢
  cases h1 : t.pop with
  | error e => rw [h1] at hp; cases hp
  | ok t1 =>
    rw [h1] at hp
    obtain ⟨u1, h2, h3⟩ := view_pop h h1
    rw [h2]
    exact h3.popN hp

theorem Within.hist {n : Nat} {x y : DL W × List (List (Dist W × Bool))} (h : Within n x y) (hx : Hist x) : Hist y := by
  induction h with
  | refl _ => exact hx
  | call _ hc _ ih => exact ih.call hc

/-- Popping down to the level below which nothing happened gives back the network of that level. -/
theorem within_popN {t u : DL W} {A B : List (List (Dist W × Bool))} (ht : Hist (t, A)) (h : Within (A.length + 1) (t.push, [] :: A) (u, B)) :
    ∃ k B', B.length = A.length + 1 + k ∧ popN (k + 1) u = .ok B' ∧ SameNet t B' := by
  have hp : Hist (t.push, [] :: A) := ht.call Call.push
  generalize hy : (u, B) = y at h
  induction h generalizing u B with
  | refl hl =>
    cases hy
    refine ⟨0, { t.push with d := fun i j => (none : Option (WithTop W)).getD (t.push.d i j), pred := fun i j => (none : Option (Option Nat)).getD (t.push.pred i j), cur := fun i j => popC none (t.push.cur i j), layers := t.layers }, rfl, ?_, ?_⟩
    · unfold popN
      rw [show t.push.pop = _ from pop_eq rfl]
      rfl
    · exact ⟨rfl, rfl, forall2_refl _⟩
  | @call y z hw hc hl ih =>
    subst hy
    obtain ⟨v, C⟩ := y
    obtain ⟨k, B', h1, h2, h3⟩ := ih rfl
    have hv : Hist (v, C) := hw.hist hp
    obtain ⟨hg, hr⟩ := hv.good
    cases hc with
    | newVar =>
      refine ⟨k, ?_⟩
      obtain ⟨c, _, e⟩ := newVar_eqv hg.core
      obtain ⟨w, h4, h5⟩ := SameNet.popN (t := v) (u := v.newVar.1) ⟨e.d, e.cur, e.lay⟩ h2
      exact ⟨w, h1, h4, h3.trans h5⟩
    | register =>
      obtain ⟨w, h4, h5⟩ := SameNet.popN (t := v) (u := v.register _) ⟨rfl, rfl, forall2_refl _⟩ h2
      exact ⟨k, w, h1, h4, h3.trans h5⟩
    | @lit _ _ a A' val p dd sg hv' hs he =>
      obtain ⟨_, a2, a3, a4⟩ := hr.vd _ _ hv'
      have hf := ends_frame hg a2 a3 a4 (propagate_ends hv' hs he)
      obtain ⟨w, h4, h5⟩ := view_popN hf.2.2.2 h2
      exact ⟨k, w, h1, h4, h3.trans h5⟩
    | refused he =>
      rw [(propagate_confl he).1]
      exact ⟨k, B', h1, h2, h3⟩
    | push =>
      refine ⟨k + 1, ?_⟩
      unfold popN
      rw [show v.push.pop = _ from pop_eq rfl]
      obtain ⟨w, h4, h5⟩ := SameNet.popN (t := v)
        (u := { v.push with d := fun i j => (none : Option (WithTop W)).getD (v.push.d i j), pred := fun i j => (none : Option (Option Nat)).getD (v.push.pred i j), cur := fun i j => popC none (v.push.cur i j), layers := v.layers })
        ⟨rfl, rfl, forall2_refl _⟩ h2
      refine ⟨w, ?_, h4, h3.trans h5⟩
      simp only [List.length_cons] at h1 ⊢
      omega
    | @pop _ _ a A' hne hpop =>
      simp only [List.length_cons] at h1 hl
      obtain ⟨k, rfl⟩ : ∃ k', k = k' + 1 := ⟨k - 1, by omega⟩
      refine ⟨k, B', by omega, ?_, h3⟩
      unfold popN at h2
      rw [hpop] at h2
      exact h2
    | listen hl' =>
      obtain ⟨f, rfl⟩ := listen_same hl'
      obtain ⟨w, h4, h5⟩ := SameNet.popN (t := v) (u := { v with lst := f }) ⟨rfl, rfl, forall2_refl _⟩ h2
      exact ⟨k, w, h1, h4, h3.trans h5⟩

/-- C31 (partial): after `push`, any calls that stay above the pushed level (assertions accepted or refused, new time points and constraints,
nested `push`/`pop`), and the matching `pop`, the distances and the constraints in force are exactly those before the `push`; `pop` succeeds.
Missing: the predecessors, which are not restored (`C31_witness`). -/
theorem C31_pop_restores_partial {t u : DL W} {A : List (List (Dist W × Bool))} {a : List (Dist W × Bool)} (ht : Hist (t, A))
    (h : Within (A.length + 1) (t.push, [] :: A) (u, a :: A)) :
    ∃ t', u.pop = .ok t' ∧ t'.d = t.d ∧ t'.cur = t.cur ∧ (∀ i j, t'.distance i j = t.distance i j) ∧ (∀ v, t'.bounds v = t.bounds v) ∧ Hist (t', A) := by
  obtain ⟨k, B', h1, h2, h3⟩ := within_popN ht h
  simp only [List.length_cons] at h1
  obtain rfl : k = 0 := by omega
  unfold popN at h2
  cases h4 : u.pop with
  | error e => rw [h4] at h2; cases h2
  | ok w =>
    rw [h4] at h2
    injection h2 with h2
    subst h2
    refine ⟨w, rfl, h3.d, h3.cur, fun i j => by simp only [distance, h3.d], fun v => by simp only [bounds, h3.d], ?_⟩
    have hne : A ≠ [] := by
      obtain ⟨x, y, e⟩ := ht.good.1.ne
      simp only at e
      rw [e]
      simp
    exact (h.hist (ht.call Call.push)).call (Call.pop hne h4)

/-- C36 (partial): a new time point is new, unconstrained with respect to all the others, and nothing else changes; every matrix access is within the
allocated matrix (`nv ≤ cap`), for every initial capacity of at least 1. Missing: initial capacity 0 (`C36_witness`). -/
theorem C36_growth_partial {t : DL W} {A : List (List (Dist W × Bool))} (h : Hist (t, A)) :
    t.nv ≤ t.cap ∧ t.newVar.2 = t.nv ∧ t.newVar.1.nv = t.nv + 1 ∧ t.newVar.1.nv ≤ t.newVar.1.cap ∧
    (∀ i j, i < t.nv → j < t.nv → t.newVar.1.distance i j = t.distance i j) ∧
    (∀ i, i < t.nv → t.newVar.1.distance i t.nv = (⊥, ⊤) ∧ t.newVar.1.distance t.nv i = (⊥, ⊤)) ∧
    t.newVar.1.distance t.nv t.nv = (((0 : W) : WithBot W), ((0 : W) : WithTop W)) := by
  have c := h.good.1.core
  obtain ⟨cc, hcc, e⟩ := newVar_eqv c
  have hd : t.newVar.1.d = t.d := e.d
  have h' : Hist (t.newVar.1, A) := h.call Call.newVar
  obtain ⟨a1, _, _, a4⟩ := newVar_frame c
  refine ⟨c.cap, a4, a1, h'.good.1.core.cap, fun i j _ _ => by simp only [distance, hd], fun i hi => ?_, ?_⟩
  · have h1 : t.d i t.nv = ⊤ := by rw [c.out i t.nv (fun h => lt_irrefl _ h.2)]; simp [d0, hi.ne]
    have h2 : t.d t.nv i = ⊤ := by rw [c.out t.nv i (fun h => lt_irrefl _ h.1)]; simp [d0, hi.ne']
    simp only [distance, hd, h1, h2]
    exact ⟨rfl, rfl⟩
  · have h1 : t.d t.nv t.nv = ((0 : W) : WithTop W) := by rw [c.out t.nv t.nv (fun h => lt_irrefl _ h.2)]; simp [d0]
    simp only [distance, hd, h1]
    simp [negTop]

/-- C36: no history makes the propagation of a registered literal read outside the matrix: the range test of the model is always passed. -/
theorem C36_in_range {t : DL W} {A : List (List (Dist W × Bool))} (h : Hist (t, A)) {v : Nat} {dd : Dist W} (hv : t.vd v = some dd) :
    t.nv ≤ t.cap ∧ dd.src < t.nv ∧ dd.tgt < t.nv := by
  obtain ⟨hg, hr⟩ := h.good
  obtain ⟨_, a, b, _⟩ := hr.vd _ _ hv
  exact ⟨hg.core.cap, a, b⟩

end DL
end Semitone
