import Verif.DL.Sys
import Verif.DL.Explain
import Verif.Lin.Props

/-!
# C32–C34: new_distance and the relational constructors
-/
namespace Semitone
namespace DL
variable {W : Type} [AddCommGroup W] [LinearOrder W] [IsOrderedAddMonoid W] [Dom W]

/-! ### C32 -/

/-- C32: `new_distance(from, to, dist)` on existing time points always returns; it returns `TRUE_lit` when every solution of the asserted constraints
satisfies `to - from <= dist`, `FALSE_lit` when none does; otherwise both are possible, and it returns a new literal such that accepting it enforces
`to - from <= dist` and accepting its negation enforces `from - to <= -dist - one` (`one` is 1 over the integers, the infinitesimal over the
rationals: `< -dist`). -/
theorem C32_new_distance {s : Sat (DL W)} {a : List (Dist W × Bool)} {A : List (List (Dist W × Bool))} (h : Hist (s.th, a :: A)) {i j : Nat} (w : W)
    (hi : i < s.th.nv) (hj : j < s.th.nv) (hf : s.th.vd s.newVar.2 = none) :
    ∃ s' p, newDistance s i j w = .ok (s', p) ∧
      ((s' = s ∧ p = trueLit ∧ ∀ X, SatF X (a :: A).flatten → X j - X i ≤ w) ∨
       (s' = s ∧ p = falseLit ∧ ∀ X, SatF X (a :: A).flatten → ¬ X j - X i ≤ w) ∨
       ((∃ X, SatF X (a :: A).flatten ∧ X j - X i ≤ w) ∧ (∃ X, SatF X (a :: A).flatten ∧ ¬ X j - X i ≤ w) ∧
        p = ⟨s.newVar.2, true⟩ ∧ Hist (s'.th, a :: A) ∧ s'.th.d = s.th.d ∧
        (∀ v dd, s'.th.vd v = some dd ↔ (v = p.var ∧ dd = ⟨p.var, i, j, w⟩) ∨ s.th.vd v = some dd) ∧
        (∀ val t', val ⟨p.var, true⟩ = some true → (s'.th.propagate val p).Ends t' → (t'.distance i j).2 ≤ (w : WithTop W)) ∧
        (∀ val t', val ⟨p.var, true⟩ = some false → (s'.th.propagate val p.neg).Ends t' → (t'.distance j i).2 ≤ ((-w - Dom.one : W) : WithTop W)))) := by
  have c := h.good.1.core
  have hcap := c.cap
  have tight := (C28_distances_tight h).2.2.2
  unfold newDistance
  rw [if_pos ⟨hi.trans_le hcap, hj.trans_le hcap⟩]
  split
  · next h1 =>
    refine ⟨_, _, rfl, Or.inr (Or.inl ⟨rfl, rfl, fun X hX hle => ?_⟩)⟩
    have := (c.sound X hX j i hj hi).trans_lt h1
    norm_cast at this
    grind
  · next h1 =>
    split
    · next h2 =>
      refine ⟨_, _, rfl, Or.inl ⟨rfl, rfl, fun X hX => ?_⟩⟩
      exact_mod_cast (c.sound X hX i j hi hj).trans h2
    · next h2 =>
      refine ⟨_, _, rfl, Or.inr (Or.inr ⟨?_, ?_, rfl, ?_, ?_, ?_, ?_, ?_⟩)⟩
      · have t2 := tight j i hj hi
        cases hd : s.th.d j i with
        | top =>
          obtain ⟨X, hX, hlt⟩ := t2.2.1 hd (-w)
          exact ⟨X, hX, by grind⟩
        | coe x =>
          obtain ⟨X, hX, he⟩ := t2.1 x hd
          rw [hd] at h1
          norm_cast at h1
          exact ⟨X, hX, by grind⟩
      · have t2 := tight i j hi hj
        cases hd : s.th.d i j with
        | top =>
          obtain ⟨X, hX, hlt⟩ := t2.2.1 hd w
          exact ⟨X, hX, by grind⟩
        | coe x =>
          obtain ⟨X, hX, he⟩ := t2.1 x hd
          rw [hd] at h2
          norm_cast at h2
          exact ⟨X, hX, by grind⟩
      all_goals
        have hth : (s.newVar.1.bind s.newVar.2 0).th = s.th := rfl
        simp only [hth]
      · exact h.call (.register (dd := ⟨s.newVar.2, i, j, w⟩) hi hj h1 h2 hf)
      · rfl
      · intro v dd
        simp only [DL.register, upd]
        split
        · next e =>
          subst e
          rw [hf]
          constructor
          · intro e; injection e with e; exact Or.inl ⟨rfl, e.symm⟩
          · rintro (⟨_, rfl⟩ | e)
            · rfl
            · cases e
        · next e =>
          constructor
          · exact Or.inr
          · rintro (⟨e', _⟩ | e')
            · exact absurd e' e
            · exact e'
      all_goals
        intro val t' hv he
        have h' := h.call (.register (dd := ⟨s.newVar.2, i, j, w⟩) hi hj h1 h2 hf)
        have := (h'.call (Call.lit (dd := ⟨s.newVar.2, i, j, w⟩) (by simp [DL.register, upd]) hv he)).good.1.core.compl _ (List.mem_append_left _ List.mem_cons_self)
        simpa [es, et, ew, distance] using this.2.2.2

/-! ### Relations between linear expressions -/

/-- The five relations. -/
inductive Rel where
  | lt | leq | eq | geq | gt
deriving DecidableEq

/-- Their meaning. -/
def Rel.holds (R : Rel) (a b : ℚ) : Prop :=
  match R with
  | .lt => a < b
  | .leq => a ≤ b
  | .eq => a = b
  | .geq => a ≥ b
  | .gt => a > b

/-- The five constructors `new_lt`, `new_leq`, `new_eq`, `new_geq`, `new_gt`. -/
def newRel (E : Env) (R : Rel) (s : Sat (DL W)) (l r : Lin) : Except Err (Sat (DL W) × Lit) :=
  match R with
  | .lt => newLt s l r
  | .leq => newLeq s l r
  | .eq => newEqD E s l r
  | .geq => newGeq s l r
  | .gt => newGt E s l r

/-- How positions in `V` are seen by the theory (`emb`) and by the user (`q`). -/
structure Interp (V W : Type) [AddCommGroup W] [LinearOrder W] [IsOrderedAddMonoid W] [Dom W] where
  emb : V → W
  q : V → ℚ
  le : ∀ x y κ k, Dom.ofQ κ = some k → (emb x - emb y ≤ k ↔ q x - q y ≤ κ)
  lt : ∀ x y κ k, Dom.ofQ κ = some k → (emb x - emb y < k ↔ q x - q y < κ)

/-- Integer positions. -/
def intI : Interp ℤ ℤ where
  emb := id
  q := fun x => (x : ℚ)
  le := fun x y κ k h => by
    simp only [Dom.ofQ] at h
    split at h
    · next hd =>
      injection h with h; subst h
      have : κ = (κ.num : ℚ) := (Rat.den_eq_one_iff κ).mp hd |>.symm
      rw [this]
      simp only [id]
      norm_cast
    · cases h
  lt := fun x y κ k h => by
    simp only [Dom.ofQ] at h
    split at h
    · next hd =>
      injection h with h; subst h
      have : κ = (κ.num : ℚ) := (Rat.den_eq_one_iff κ).mp hd |>.symm
      rw [this]
      simp only [id]
      norm_cast
    · cases h

/-- Rational positions. -/
def ratI : Interp ℚ (ℚ ×ₗ ℤ) where
  emb := fun x => toLex (x, 0)
  q := id
  le := fun x y κ k h => by
    simp only [Dom.ofQ] at h
    injection h with h; subst h
    have : (toLex (x, (0 : ℤ)) - toLex (y, 0) : ℚ ×ₗ ℤ) = toLex (x - y, 0) := by
      rw [← toLex_sub]; simp
    rw [this, Prod.Lex.toLex_le_toLex]
    simp only [le_refl, and_true, id]
    exact le_iff_lt_or_eq.symm
  lt := fun x y κ k h => by
    simp only [Dom.ofQ] at h
    injection h with h; subst h
    have : (toLex (x, (0 : ℤ)) - toLex (y, 0) : ℚ ×ₗ ℤ) = toLex (x - y, 0) := by
      rw [← toLex_sub]; simp
    rw [this, Prod.Lex.toLex_lt_toLex]
    simp

/-- The difference of the two expressions has the shape the difference-logic theories accept: a constant, `c (x + κ)` or `c (x - y + κ)`, `κ` being
a number of the theory. -/
def IsDiff (W : Type) [AddCommGroup W] [LinearOrder W] [IsOrderedAddMonoid W] [Dom W] (l r : Lin) : Prop :=
  (∃ k : ℚ, ∀ x : Nat → ℚ, l.eval 1 x - r.eval 1 x = k) ∨
  (∃ (c κ : ℚ) (a : Nat), c ≠ 0 ∧ (Dom.ofQ κ : Option W).isSome ∧ ∀ x : Nat → ℚ, l.eval 1 x - r.eval 1 x = c * (x a + κ)) ∨
  (∃ (c κ : ℚ) (a b : Nat), c ≠ 0 ∧ a ≠ b ∧ (Dom.ofQ κ : Option W).isSome ∧ ∀ x : Nat → ℚ, l.eval 1 x - r.eval 1 x = c * (x a - x b + κ))

/-- What the form found says about the expression `e`. -/
def FormOK (e : Lin) : Form W → Prop
  | .const k => ∀ x : Nat → ℚ, e.eval 1 x = k
  | .diff ng a b k => (∃ c κ : ℚ, c ≠ 0 ∧ (ng = true ↔ c < 0) ∧ Dom.ofQ κ = some k ∧
        ∀ x : Nat → ℚ, x 0 = 0 → e.eval 1 x = c * (x a - x b + κ)) ∧
        (∃ t ∈ e.vars, t.1 = a) ∧ (b = 0 ∨ ∃ t ∈ e.vars, t.1 = b)

/-- The analysis of a canonical expression. -/
theorem form_spec {e : Lin} (hc : e.Canon) {f : Form W} (h : form (W := W) e = some f) : FormOK e f := by
  unfold form at h
  split at h
  · next hv =>
    injection h with h; subst h
    intro x
    simp [Lin.eval, hv]
  · next v c hv =>
    split at h
    · cases h
    · next k hk =>
      injection h with h; subst h
      have c0 : c ≠ 0 := hc.2 (v, c) (by rw [hv]; simp)
      refine ⟨⟨c, e.kt / c, c0, by simp, hk, fun x hx => ?_⟩, ⟨(v, c), by rw [hv]; simp⟩, Or.inl rfl⟩
      simp only [Lin.eval, hv, Lin.evalT_cons, Lin.evalT_nil, smul_eq_mul, hx]
      field_simp
      ring
  · next v0 c0 v1 c1 hv =>
    split at h
    · next hm =>
      split at h
      · cases h
      · next k hk =>
        injection h with h; subst h
        have h0 : c0 ≠ 0 := hc.2 (v0, c0) (by rw [hv]; simp)
        have h1 : c1 = -c0 := by field_simp at hm; linarith
        refine ⟨⟨c0, e.kt / c0, h0, by simp, hk, fun x _ => ?_⟩, ⟨(v0, c0), by rw [hv]; simp⟩, Or.inr ⟨(v1, c1), by rw [hv]; simp, rfl⟩⟩
        simp only [Lin.eval, hv, Lin.evalT_cons, Lin.evalT_nil, smul_eq_mul, h1]
        field_simp
        ring
    · cases h
  · cases h

theorem sub_keys {l r : Lin} {n : Nat} (hl : ∀ t ∈ l.vars, t.1 < n) (hr : ∀ t ∈ r.vars, t.1 < n) : ∀ t ∈ (l.sub r).vars, t.1 < n := by
  have key : ∀ (r l : List (Nat × ℚ)), (∀ t ∈ l, t.1 < n) → (∀ t ∈ r, t.1 < n) → ∀ t ∈ Lin.subTerms l r, t.1 < n := by
    intro r
    induction r with
    | nil => intro l hl _; simpa [Lin.subTerms] using hl
    | cons a r ih =>
      intro l hl hr
      have : Lin.subTerms l (a :: r) = Lin.subTerms (Lin.addTerm a.1 (-a.2) l) r := rfl
      rw [this]
      refine ih _ (fun t ht => ?_) (fun t ht => hr t (List.mem_cons_of_mem _ ht))
      rcases Lin.addTerm_keys _ _ _ t ht with e | ⟨t', h1, h2⟩
      · rw [e]; exact hr a List.mem_cons_self
      · rw [← h2]; exact hl t' h1
  exact key r.vars l.vars hl hr


/-- The case of `new_gt` in which the integer theory calls the wrong `new_distance`. -/
def GtBug (W : Type) [AddCommGroup W] [LinearOrder W] [IsOrderedAddMonoid W] [Dom W] (R : Rel) (l r : Lin) : Prop :=
  R = .gt ∧ Dom.gtSplit W = true ∧ ∃ a b c c', 0 < c ∧ (l.sub r).vars = [(a, c), (b, c')]

theorem form_bug {e : Lin} {a b k} (hc : e.Canon) (h : form (W := W) e = some (.diff false a b k)) (h2 : e.vars.length = 2) :
    ∃ a b c c', 0 < c ∧ e.vars = [(a, c), (b, c')] := by
  unfold form at h
  split at h
  · cases h
  · next hv => rw [hv] at h2; simp at h2
  · next v0 c0 v1 c1 hv =>
    split at h
    · split at h
      · cases h
      · injection h with h; injection h with h _ _ _
        have h0 : c0 ≠ 0 := hc.2 (v0, c0) (by rw [hv]; simp)
        refine ⟨v0, v1, c0, c1, ?_, hv⟩
        simp only [decide_eq_false_iff_not, not_lt] at h
        exact lt_of_le_of_ne h (Ne.symm h0)
    · cases h
  · cases h

theorem sg_pos {c z L R : ℚ} (hc : 0 < c) (h : L - R = c * z) : (L < R ↔ z < 0) ∧ (L ≤ R ↔ z ≤ 0) ∧ (L ≥ R ↔ 0 ≤ z) ∧ (L > R ↔ 0 < z) := by
  have h1 : L = R + c * z := by linarith
  subst h1
  refine ⟨⟨fun h => ?_, fun h => ?_⟩, ⟨fun h => ?_, fun h => ?_⟩, ⟨fun h => ?_, fun h => ?_⟩, ⟨fun h => ?_, fun h => ?_⟩⟩ <;> (try by_contra h'; push Not at h') <;> nlinarith

theorem sg_neg {c z L R : ℚ} (hc : c < 0) (h : L - R = c * z) : (L < R ↔ 0 < z) ∧ (L ≤ R ↔ 0 ≤ z) ∧ (L ≥ R ↔ z ≤ 0) ∧ (L > R ↔ z < 0) := by
  obtain ⟨a, b, d, e⟩ := sg_pos (c := -c) (z := -z) (L := L) (R := R) (by linarith) (by rw [h]; ring)
  rw [a, b, d, e]
  simp

variable {Z : Asg → Prop}

theorem Adds.trans {s s' s'' : Sat (DL W)} {p q : Lit} {P Q : (Nat → W) → Prop} (hs : SInv Z s) (h1 : Adds Z s s' p P) (h2 : Adds Z s' s'' q Q) : Adds Z s s'' q Q := by
  refine ⟨h2.sinv, h1.mild.trans h2.mild, h2.nv.trans h1.nv, h2.d.trans h1.d, h2.cap.trans h1.cap, h2.dec.trans h1.dec, h2.root.trans h1.root, h1.more.trans h2.more, h2.var,
    fun α X hm hz hd => h2.means α X hm hz (by rw [h1.dec]; exact hd), fun α X hm => h1.keeps α X (h2.keeps α X hm), fun α X hm hz => ?_⟩
  obtain ⟨β, a, b⟩ := h1.ext α X hm hz
  obtain ⟨γ, c, d⟩ := h2.ext β X b (hs.zloc _ _ a hz)
  exact ⟨γ, fun v hv => (a v hv).trans (c v (hv.trans_le h1.more)), d⟩

/-- What the constructors do, as a condition on the positions: a constant; one `new_distance`; `new_conj` of two of them; `FALSE_lit` when the matrix
excludes an equality. -/
inductive Shape (E : Env) (s : Sat (DL W)) : Sat (DL W) → Lit → ((Nat → W) → Prop) → Prop
  | const {P : Prop} [Decidable P] : Shape E s s (constLit (decide P)) (fun _ => P)
  | dist {s' p i j w} : i < s.th.nv → j < s.th.nv → newDistance s i j w = .ok (s', p) → Shape E s s' p (fun X => X j - X i ≤ w)
  | two {s1 s2 s3 l1 l2 p i j w i' j' w'} : i < s.th.nv → j < s.th.nv → newDistance s i j w = .ok (s1, l1) → i' < s.th.nv → j' < s.th.nv →
      newDistance s1 i' j' w' = .ok (s2, l2) → s2.newConj E [l1, l2] = .ok (s3, p) → Shape E s s3 p (fun X => X j - X i ≤ w ∧ X j' - X i' ≤ w')
  | never {a b} {k : W} : a < s.th.nv → b < s.th.nv → ¬ (((-k : W) : WithTop W) ≤ s.th.d b a ∧ ((k : W) : WithTop W) ≤ s.th.d a b) →
      Shape E s s falseLit (fun X => X b - X a ≤ k ∧ X a - X b ≤ -k)

theorem newRel_shape {V : Type} (I : Interp V W) {E : Env} {R : Rel} {s s' : Sat (DL W)} {l r : Lin} {p : Lit} (h0 : 0 < s.th.nv) (hl : l.Canon) (hr : r.Canon)
    (hlv : ∀ t ∈ l.vars, t.1 < s.th.nv) (hrv : ∀ t ∈ r.vars, t.1 < s.th.nv) (hb : ¬ GtBug W R l r) (hn : newRel E R s l r = .ok (s', p)) :
    ∃ Q : (Nat → W) → Prop, Shape E s s' p Q ∧ ∀ x : Nat → V, I.q (x 0) = 0 →
      (Q (fun i => I.emb (x i)) ↔ R.holds (l.eval 1 (fun i => I.q (x i))) (r.eval 1 (fun i => I.q (x i)))) := by
  have hc : (l.sub r).Canon := (C26_canonical hl hr 0).2.2.1
  have he : ∀ x : Nat → ℚ, (l.sub r).eval 1 x = l.eval 1 x - r.eval 1 x := fun x => Lin.eval_sub 1 x l r
  have hk := sub_keys hlv hrv
  have hgt : R = .gt → Dom.gtSplit W = true → ∀ a b k, form (W := W) (l.sub r) = some (.diff false a b k) → ¬ (l.sub r).vars.length = 2 :=
    fun e1 e2 a b k hf h2 => hb ⟨e1, e2, form_bug hc hf h2⟩
  cases hf : form (W := W) (l.sub r) with
  | none => cases R <;> simp [newRel, newLt, newLeq, newEqD, newGeq, newGt, hf] at hn
  | some f =>
    have ok := form_spec hc hf
    cases f with
    | const k =>
      simp only [FormOK] at ok
      have key : ∀ P : Prop, ∀ _ : Decidable P, s' = s → p = constLit (decide P) → (∀ x : Nat → ℚ, P ↔ R.holds (l.eval 1 x) (r.eval 1 x)) →
          ∃ Q : (Nat → W) → Prop, Shape E s s' p Q ∧ ∀ x : Nat → V, I.q (x 0) = 0 →
            (Q (fun i => I.emb (x i)) ↔ R.holds (l.eval 1 (fun i => I.q (x i))) (r.eval 1 (fun i => I.q (x i)))) := by
        intro P hP e1 e2 h
        subst e1 e2
        exact ⟨fun _ => P, .const, fun x _ => h _⟩
      have hx : ∀ x : Nat → ℚ, l.eval 1 x - r.eval 1 x = k := fun x => by rw [← he]; exact ok x
      cases R <;> simp only [newRel, newLt, newLeq, newEqD, newGeq, newGt, hf] at hn <;> injection hn with hn <;> injection hn with e1 e2 <;>
        refine key _ _ e1.symm e2.symm (fun x => ?_) <;> rw [← hx x] <;> simp only [Rel.holds]
      · exact sub_neg
      · exact sub_nonpos
      · exact sub_eq_zero
      · exact sub_nonneg
      · exact sub_pos
    | diff ng a b k =>
      obtain ⟨⟨c, κ, c0, hng, hok, hev⟩, ⟨ta, hta, rfl⟩, hbv⟩ := ok
      have ha : ta.1 < s.th.nv := hk _ hta
      have hbb : b < s.th.nv := by
        rcases hbv with rfl | ⟨t, ht, rfl⟩
        · exact h0
        · exact hk _ ht
      generalize ta.1 = a at *
      have hx : ∀ x : Nat → V, I.q (x 0) = 0 → l.eval 1 (fun i => I.q (x i)) - r.eval 1 (fun i => I.q (x i)) = c * (I.q (x a) - I.q (x b) + κ) := fun x hx0 => by
        rw [← he]; exact hev _ hx0
      -- the two directions, weak and strict
      have le1 : ∀ x : Nat → V, (I.emb (x b) - I.emb (x a) ≤ k ↔ 0 ≤ I.q (x a) - I.q (x b) + κ) := fun x => by
        rw [I.le _ _ _ _ hok]; constructor <;> intro h <;> linarith
      have lt1 : ∀ x : Nat → V, (I.emb (x b) - I.emb (x a) ≤ k - Dom.one ↔ 0 < I.q (x a) - I.q (x b) + κ) := fun x => by
        have h1 := Dom.succ (I.emb (x b) - I.emb (x a)) k
        rw [I.lt _ _ _ _ hok] at h1
        have h2 : (I.emb (x b) - I.emb (x a) ≤ k - Dom.one) ↔ (I.emb (x b) - I.emb (x a) + Dom.one ≤ k) := le_sub_iff_add_le
        rw [h2, ← h1]; constructor <;> intro h <;> linarith
      have le2 : ∀ x : Nat → V, (I.emb (x a) - I.emb (x b) ≤ -k ↔ I.q (x a) - I.q (x b) + κ ≤ 0) := fun x => by
        have h1 := I.lt (x b) (x a) _ _ hok
        have h2 : (I.emb (x a) - I.emb (x b) ≤ -k) ↔ ¬ (I.emb (x b) - I.emb (x a) < k) := by
          rw [not_lt]; constructor <;> intro h <;> grind
        rw [h2, h1]; constructor <;> intro h <;> linarith
      have lt2 : ∀ x : Nat → V, (I.emb (x a) - I.emb (x b) ≤ -k - Dom.one ↔ I.q (x a) - I.q (x b) + κ < 0) := fun x => by
        have h1 := I.le (x b) (x a) _ _ hok
        have h3 := Dom.succ (I.emb (x a) - I.emb (x b)) (-k)
        have h2 : (I.emb (x a) - I.emb (x b) ≤ -k - Dom.one) ↔ ¬ (I.emb (x b) - I.emb (x a) ≤ k) := by
          rw [not_le]; constructor
          · intro h
            have := h3.mpr (le_sub_iff_add_le.mp h)
            grind
          · intro h
            have := h3.mp (by grind)
            exact le_sub_iff_add_le.mpr this
        rw [h2, h1]; constructor <;> intro h <;> linarith
      have pos : ng = false → 0 < c := fun e => by
        have : ¬ c < 0 := fun h => by rw [hng.mpr h] at e; cases e
        exact lt_of_le_of_ne (not_lt.mp this) (Ne.symm c0)
      have neg : ng = true → c < 0 := hng.mp
      cases R with
      | lt =>
        cases ng with
        | true =>
          simp only [newRel, newLt, hf] at hn
          exact ⟨_, Shape.dist ha hbb hn, fun x hx0 => (lt1 x).trans (sg_neg (neg rfl) (hx x hx0)).1.symm⟩
        | false =>
          simp only [newRel, newLt, hf] at hn
          exact ⟨_, Shape.dist hbb ha hn, fun x hx0 => (lt2 x).trans (sg_pos (pos rfl) (hx x hx0)).1.symm⟩
      | leq =>
        cases ng with
        | true =>
          simp only [newRel, newLeq, hf] at hn
          exact ⟨_, Shape.dist ha hbb hn, fun x hx0 => (le1 x).trans (sg_neg (neg rfl) (hx x hx0)).2.1.symm⟩
        | false =>
          simp only [newRel, newLeq, hf] at hn
          exact ⟨_, Shape.dist hbb ha hn, fun x hx0 => (le2 x).trans (sg_pos (pos rfl) (hx x hx0)).2.1.symm⟩
      | geq =>
        cases ng with
        | true =>
          simp only [newRel, newGeq, hf] at hn
          exact ⟨_, Shape.dist hbb ha hn, fun x hx0 => (le2 x).trans (sg_neg (neg rfl) (hx x hx0)).2.2.1.symm⟩
        | false =>
          simp only [newRel, newGeq, hf] at hn
          exact ⟨_, Shape.dist ha hbb hn, fun x hx0 => (le1 x).trans (sg_pos (pos rfl) (hx x hx0)).2.2.1.symm⟩
      | gt =>
        cases ng with
        | true =>
          simp only [newRel, newGt, hf] at hn
          exact ⟨_, Shape.dist hbb ha hn, fun x hx0 => (lt2 x).trans (sg_neg (neg rfl) (hx x hx0)).2.2.2.symm⟩
        | false =>
          simp only [newRel, newGt, hf] at hn
          rw [if_neg (by
            intro h
            rw [Bool.and_eq_true] at h
            exact hgt rfl h.1 a b k hf (by simpa using h.2))] at hn
          exact ⟨_, Shape.dist ha hbb hn, fun x hx0 => (lt1 x).trans (sg_pos (pos rfl) (hx x hx0)).2.2.2.symm⟩
      | eq =>
        have heq : ∀ x : Nat → V, I.q (x 0) = 0 →
            ((I.emb (x b) - I.emb (x a) ≤ k ∧ I.emb (x a) - I.emb (x b) ≤ -k) ↔ Rel.eq.holds (l.eval 1 (fun i => I.q (x i))) (r.eval 1 (fun i => I.q (x i)))) := fun x hx0 => by
          rw [le1, le2]
          simp only [Rel.holds]
          rw [← sub_eq_zero (a := l.eval 1 _), hx x hx0, mul_eq_zero]
          constructor
          · intro h; exact Or.inr (le_antisymm h.2 h.1)
          · rintro (h | h)
            · exact absurd h c0
            · exact ⟨h.ge, h.le⟩
        simp only [newRel, newEqD, hf] at hn
        split at hn
        · split at hn
          · cases h1 : newDistance s a b k with
            | error e => rw [h1] at hn; cases hn
            | ok v1 =>
              obtain ⟨s1, l1⟩ := v1
              rw [h1] at hn
              simp only at hn
              cases h2 : newDistance s1 b a (-k) with
              | error e => rw [h2] at hn; cases hn
              | ok v2 =>
                obtain ⟨s2, l2⟩ := v2
                rw [h2] at hn
                simp only at hn
                exact ⟨_, .two ha hbb h1 hbb ha h2 hn, heq⟩
          · next hneg =>
            injection hn with hn; injection hn with e1 e2
            subst e1 e2
            exact ⟨_, .never ha hbb hneg, heq⟩
        · cases hn

theorem Shape.adds {E : Env} {s s' : Sat (DL W)} {p : Lit} {Q : (Nat → W) → Prop} (hs : SInv Z s) (h : Shape E s s' p Q) : Adds Z s s' p Q := by
  cases h with
  | const => exact adds_same hs (by rw [constLit_var]; exact hs.nvars_pos) (fun α X hm _ _ => hm.const _)
  | dist hi hj hn => exact newDistance_adds hs hi hj hn
  | two hi hj h1 hi' hj' h2 hn =>
    have A1 := newDistance_adds hs hi hj h1
    have A2 := newDistance_adds A1.sinv (by rw [A1.nv]; exact hi') (by rw [A1.nv]; exact hj') h2
    have A3 := newConj_adds (E := E) A2.sinv hn
      (fun α X hm hz hd => A1.means α X (A2.keeps α X hm) hz (by rw [← A1.dec, ← A2.dec]; exact hd))
      (fun α X hm hz hd => A2.means α X hm hz (by rw [← A2.dec]; exact hd))
    exact A1.trans hs (A2.trans A1.sinv A3)
  | never ha hbb hneg =>
    refine adds_same hs hs.nvars_pos (fun α X hm hz hd => ⟨fun h => absurd h hm.false, fun h => ?_⟩)
    exfalso
    apply hneg
    constructor
    · refine le_trans ?_ (hs.bound hm hz hd hbb ha)
      norm_cast
      grind
    · refine le_trans ?_ (hs.bound hm hz hd ha hbb)
      norm_cast
      grind

theorem SInv.nv_pos {s : Sat (DL W)} (hs : SInv Z s) : 0 < s.th.nv := by
  obtain ⟨_, As, hg, _⟩ := hs.parts
  exact hg.coreG.core.one

/-! ### Which expressions are accepted -/

theorem sorted_one {l : List (Nat × ℚ)} (hs : (l.map Prod.fst).Pairwise (· < ·)) {a : Nat} (h : ∀ v, v ∈ l.map Prod.fst ↔ v = a) : ∃ c, l = [(a, c)] := by
  match l, hs, h with
  | [], _, h => exact absurd ((h a).mpr rfl) (by simp)
  | [(v, c)], _, h => have : v = a := (h v).mp (by simp); exact ⟨c, by rw [this]⟩
  | (v, c) :: (v', c') :: l, hs, h =>
    have h1 : v = a := (h v).mp (by simp)
    have h2 : v' = a := (h v').mp (by simp)
    have := hs
    simp only [List.map_cons, List.pairwise_cons, List.mem_cons, forall_eq_or_imp] at this
    omega

theorem sorted_two {l : List (Nat × ℚ)} (hs : (l.map Prod.fst).Pairwise (· < ·)) {a b : Nat} (hab : a < b) (h : ∀ v, v ∈ l.map Prod.fst ↔ v = a ∨ v = b) :
    ∃ c c', l = [(a, c), (b, c')] := by
  match l, hs, h with
  | [], _, h => exact absurd ((h a).mpr (Or.inl rfl)) (by simp)
  | [(v, c)], _, h =>
    have h1 := (h a).mpr (Or.inl rfl)
    have h2 := (h b).mpr (Or.inr rfl)
    simp only [List.map_cons, List.map_nil, List.mem_singleton] at h1 h2
    omega
  | [(v, c), (v', c')], hs, h =>
    have h1 := (h v).mp (by simp)
    have h2 := (h v').mp (by simp)
    have := hs
    simp only [List.map_cons, List.pairwise_cons, List.mem_cons, forall_eq_or_imp] at this
    have e1 : v = a := by omega
    have e2 : v' = b := by omega
    exact ⟨c, c', by rw [e1, e2]⟩
  | (v, c) :: (v', c') :: (v'', c'') :: l, hs, h =>
    have h1 := (h v).mp (by simp)
    have h2 := (h v').mp (by simp)
    have h3 := (h v'').mp (by simp)
    have := hs
    simp only [List.map_cons, List.pairwise_cons, List.mem_cons, forall_eq_or_imp] at this
    omega

theorem form_iff {l r : Lin} (hl : l.Canon) (hr : r.Canon) (hW : ∀ κ : ℚ, (Dom.ofQ κ : Option W).isSome → (Dom.ofQ (-κ) : Option W).isSome) :
    (form (W := W) (l.sub r)).isSome ↔ IsDiff W l r := by
  have hc : (l.sub r).Canon := (C26_canonical hl hr 0).2.2.1
  have he : ∀ x : Nat → ℚ, (l.sub r).eval 1 x = l.eval 1 x - r.eval 1 x := fun x => Lin.eval_sub 1 x l r
  unfold IsDiff
  simp only [← he]
  generalize l.sub r = e at *
  have hdep := C26_terms_are_dependencies hc
  constructor
  · intro h
    unfold form at h
    split at h
    · next hv => exact Or.inl ⟨e.kt, fun x => by simp [Lin.eval, hv]⟩
    · next v c hv =>
      split at h
      · cases h
      · next k hk =>
        have c0 : c ≠ 0 := hc.2 (v, c) (by rw [hv]; simp)
        refine Or.inr (Or.inl ⟨c, e.kt / c, v, c0, by rw [hk]; rfl, fun x => ?_⟩)
        simp only [Lin.eval, hv, Lin.evalT_cons, Lin.evalT_nil, smul_eq_mul]
        field_simp
        ring
    · next v0 c0 v1 c1 hv =>
      split at h
      · next hm =>
        split at h
        · cases h
        · next k hk =>
          have h0 : c0 ≠ 0 := hc.2 (v0, c0) (by rw [hv]; simp)
          have h1 : c1 = -c0 := by field_simp at hm; linarith
          have hne : v0 ≠ v1 := by
            have := hc.1
            unfold Lin.Sorted at this
            rw [hv] at this
            simp only [List.map_cons, List.map_nil, List.pairwise_cons, List.mem_cons, List.not_mem_nil, or_false, forall_eq] at this
            omega
          refine Or.inr (Or.inr ⟨c0, e.kt / c0, v0, v1, h0, hne, by rw [hk]; rfl, fun x => ?_⟩)
          simp only [Lin.eval, hv, Lin.evalT_cons, Lin.evalT_nil, smul_eq_mul, h1]
          field_simp
          ring
      · cases h
    · cases h
  · rintro (⟨k, hk⟩ | ⟨c, κ, a, c0, hκ, hx⟩ | ⟨c, κ, a, b, c0, hab, hκ, hx⟩)
    · have : e.vars = [] := by
        cases hv : e.vars with
        | nil => rfl
        | cons t l =>
          obtain ⟨x, y, _, hne⟩ := (hdep t.1).mp (by rw [hv]; simp)
          exact absurd (by rw [hk x, hk y]) hne
      unfold form
      rw [this]
      rfl
    · obtain ⟨c', hv⟩ := sorted_one (a := a) hc.1 (fun v => by
        rw [hdep v]
        constructor
        · rintro ⟨x, y, h1, h2⟩
          by_contra hne
          apply h2
          rw [hx, hx, h1 a (Ne.symm hne)]
        · rintro rfl
          refine ⟨fun _ => 0, fun w => if w = v then 1 else 0, fun w hw => by simp [hw], ?_⟩
          rw [hx, hx]
          simp only [if_true]
          intro h
          apply c0
          linarith)
      have e0 := hx (fun _ => 0)
      have e1 := hx (fun w => if w = a then 1 else 0)
      simp only [Lin.eval, hv, Lin.evalT_cons, Lin.evalT_nil, smul_eq_mul, if_true] at e0 e1
      have hcc : c' = c := by linarith
      have hkt : e.kt / c' = κ := by rw [hcc, div_eq_iff c0]; linarith
      unfold form
      rw [hv]
      simp only [hkt]
      cases hh : (Dom.ofQ κ : Option W) with
      | none => rw [hh] at hκ; cases hκ
      | some k => rfl
    · have main : ∀ (c κ : ℚ) (a b : Nat), c ≠ 0 → a < b → (Dom.ofQ κ : Option W).isSome → (∀ x : Nat → ℚ, e.eval 1 x = c * (x a - x b + κ)) →
          (form (W := W) e).isSome := by
        clear hx hκ hab c0
        intro c κ a b c0 hab hκ hx
        obtain ⟨c1, c2, hv⟩ := sorted_two (a := a) (b := b) hc.1 hab (fun v => by
          rw [hdep v]
          constructor
          · rintro ⟨x, y, h1, h2⟩
            by_contra hne
            push Not at hne
            apply h2
            rw [hx, hx, h1 a (Ne.symm hne.1), h1 b (Ne.symm hne.2)]
          · intro hv
            refine ⟨fun _ => 0, fun w => if w = v then 1 else 0, fun w hw => by simp [hw], ?_⟩
            rw [hx, hx]
            rcases hv with rfl | rfl
            · simp only [if_true, hab.ne', if_false]
              intro h
              apply c0
              linarith
            · simp only [if_true, hab.ne, if_false]
              intro h
              apply c0
              linarith)
        have e0 := hx (fun _ => 0)
        have e1 := hx (fun w => if w = a then 1 else 0)
        have e2 := hx (fun w => if w = b then 1 else 0)
        simp only [Lin.eval, hv, Lin.evalT_cons, Lin.evalT_nil, smul_eq_mul, if_true, hab.ne, hab.ne', if_false] at e0 e1 e2
        have h1 : c1 = c := by linarith
        have h2 : c2 = -c := by linarith
        have hkt : e.kt / c1 = κ := by rw [h1, div_eq_iff c0]; linarith
        unfold form
        rw [hv]
        simp only
        rw [if_pos (by rw [h1, h2]; field_simp)]
        simp only [hkt]
        cases hh : (Dom.ofQ κ : Option W) with
        | none => rw [hh] at hκ; cases hκ
        | some k => rfl
      rcases Nat.lt_or_gt_of_ne hab with h | h
      · exact main c κ a b c0 h hκ hx
      · exact main (-c) (-κ) b a (neg_ne_zero.mpr c0) h (hW κ hκ) (fun x => by rw [hx]; ring)

theorem newDistance_total {s : Sat (DL W)} (h : SInv Z s) {i j : Nat} {w : W} (hi : i < s.th.nv) (hj : j < s.th.nv) : ∃ s' p, newDistance s i j w = .ok (s', p) := by
  obtain ⟨_, As, hg, _⟩ := h.parts
  have := hg.coreG.core.cap
  unfold newDistance
  rw [if_pos ⟨hi.trans_le this, hj.trans_le this⟩]
  split
  · exact ⟨_, _, rfl⟩
  · split
    · exact ⟨_, _, rfl⟩
    · exact ⟨_, _, rfl⟩

theorem newRel_invalid {E : Env} {R : Rel} {s : Sat (DL W)} {l r : Lin} (h : form (W := W) (l.sub r) = none) : newRel E R s l r = .error .invalid := by
  cases R <;> simp [newRel, newLt, newLeq, newEqD, newGeq, newGt, h]

/-- The conjunction of two `new_distance`. -/
theorem dist2_total {E : Env} {s : Sat (DL W)} (hs : SInv Z s) (hr : s.root = true) {i j i' j' : Nat} {w w' : W} (hi : i < s.th.nv) (hj : j < s.th.nv)
    (hi' : i' < s.th.nv) (hj' : j' < s.th.nv) : ∃ s1 l1 s2 l2 s3 p, newDistance s i j w = .ok (s1, l1) ∧ newDistance s1 i' j' w' = .ok (s2, l2) ∧
      s2.newConj E [l1, l2] = .ok (s3, p) := by
  obtain ⟨s1, l1, h1⟩ := newDistance_total hs (w := w) hi hj
  have A1 := newDistance_adds hs hi hj h1
  obtain ⟨s2, l2, h2⟩ := newDistance_total A1.sinv (w := w') (i := i') (j := j') (by rw [A1.nv]; exact hi') (by rw [A1.nv]; exact hj')
  have A2 := newDistance_adds A1.sinv (by rw [A1.nv]; exact hi') (by rw [A1.nv]; exact hj') h2
  obtain ⟨s3, p, h3, _⟩ := Sat.newConj_spec (E := E) A2.sinv.rinv.inv (by rw [A2.root, A1.root]; exact hr) (ls := [l1, l2]) (fun l hl => by
    simp only [List.mem_cons, List.not_mem_nil, or_false] at hl
    rcases hl with rfl | rfl
    · exact A1.var.trans_le A2.more
    · exact A2.var)
  exact ⟨s1, l1, s2, l2, s3, p, h1, h2, h3⟩

theorem newRel_total {E : Env} {R : Rel} {s : Sat (DL W)} {l r : Lin} (hs : SInv Z s) (hroot : s.root = true) (hl : l.Canon) (hr : r.Canon)
    (hlv : ∀ t ∈ l.vars, t.1 < s.th.nv) (hrv : ∀ t ∈ r.vars, t.1 < s.th.nv) (hf : (form (W := W) (l.sub r)).isSome) :
    ∃ s' p, newRel E R s l r = .ok (s', p) := by
  have hc : (l.sub r).Canon := (C26_canonical hl hr 0).2.2.1
  have hk := sub_keys hlv hrv
  obtain ⟨_, As, hg, _⟩ := hs.parts
  have h0 : 0 < s.th.nv := hg.coreG.core.one
  have hcap := hg.coreG.core.cap
  cases hf' : form (W := W) (l.sub r) with
  | none => rw [hf'] at hf; cases hf
  | some f =>
    have ok := form_spec hc hf'
    cases f with
    | const k => cases R <;> simp only [newRel, newLt, newLeq, newEqD, newGeq, newGt, hf'] <;> exact ⟨_, _, rfl⟩
    | diff ng a b k =>
      obtain ⟨_, ⟨ta, hta, rfl⟩, hbv⟩ := ok
      have ha : ta.1 < s.th.nv := hk _ hta
      have hbb : b < s.th.nv := by
        rcases hbv with rfl | ⟨t, ht, rfl⟩
        · exact h0
        · exact hk _ ht
      have dt := fun i j (w : W) => newDistance_total hs (i := i) (j := j) (w := w)
      have d2 : ∀ i j i' j' (w w' : W), i < s.th.nv → j < s.th.nv → i' < s.th.nv → j' < s.th.nv → _ :=
        fun i j i' j' w w' a b c d => dist2_total (E := E) hs hroot (i := i) (j := j) (i' := i') (j' := j') (w := w) (w' := w') a b c d
      cases R with
      | lt => cases ng <;> simp only [newRel, newLt, hf'] <;> exact dt _ _ _ (by assumption) (by assumption)
      | leq => cases ng <;> simp only [newRel, newLeq, hf'] <;> exact dt _ _ _ (by assumption) (by assumption)
      | geq => cases ng <;> simp only [newRel, newGeq, hf'] <;> exact dt _ _ _ (by assumption) (by assumption)
      | gt =>
        cases ng with
        | true => simp only [newRel, newGt, hf']; exact dt _ _ _ (by assumption) (by assumption)
        | false =>
          simp only [newRel, newGt, hf']
          split
          · obtain ⟨s1, l1, s2, l2, s3, p, h1, h2, h3⟩ := d2 b ta.1 ta.1 b (-k) (-Dom.one) hbb ha ha hbb
            unfold newDistance2
            rw [h1]; simp only; rw [h2]; simp only
            exact ⟨s3, p, h3⟩
          · exact dt _ _ _ (by assumption) (by assumption)
      | eq =>
        simp only [newRel, newEqD, hf']
        rw [if_pos ⟨ha.trans_le hcap, hbb.trans_le hcap⟩]
        split
        · obtain ⟨s1, l1, s2, l2, s3, p, h1, h2, h3⟩ := d2 ta.1 b b ta.1 k (-k) ha hbb hbb ha
          rw [h1]; simp only; rw [h2]; simp only
          exact ⟨s3, p, h3⟩
        · exact ⟨_, _, rfl⟩

/-- What `new_distance` and `new_conj` keep, the constructors keep. -/
theorem newRel_ind {E : Env} {R : Rel} {s s' : Sat (DL W)} {l r : Lin} {p : Lit} {P : Sat (DL W) → Prop} (h : SInv Z s) (hP : P s)
    (hD : ∀ {u u' : Sat (DL W)} {i j : Nat} {w : W} {p : Lit}, SInv Z u → P u → i < u.th.nv → j < u.th.nv → newDistance u i j w = .ok (u', p) → P u')
    (hC : ∀ {u u' : Sat (DL W)} {l1 l2 p : Lit}, SInv Z u → P u → u.newConj E [l1, l2] = .ok (u', p) → P u')
    (hl : l.Canon) (hr : r.Canon)
    (hlv : ∀ t ∈ l.vars, t.1 < s.th.nv) (hrv : ∀ t ∈ r.vars, t.1 < s.th.nv) (hn : newRel E R s l r = .ok (s', p)) : P s' := by
  have hc : (l.sub r).Canon := (C26_canonical hl hr 0).2.2.1
  have hk := sub_keys hlv hrv
  obtain ⟨_, As, hg, _⟩ := h.parts
  have h0 : 0 < s.th.nv := hg.coreG.core.one
  have two : ∀ i j i' j' (w w' : W), i < s.th.nv → j < s.th.nv → i' < s.th.nv → j' < s.th.nv →
      (match newDistance s i j w with
        | .error e => .error e
        | .ok (s, l1) =>
          match newDistance s i' j' w' with
          | .error e => .error e
          | .ok (s, l2) => s.newConj E [l1, l2]) = Except.ok (s', p) → P s' := by
    intro i j i' j' w w' hi hj hi' hj' hn
    cases h1 : newDistance s i j w with
    | error e => rw [h1] at hn; cases hn
    | ok v1 =>
      obtain ⟨s1, l1⟩ := v1
      rw [h1] at hn
      simp only at hn
      have A1 := newDistance_adds h hi hj h1
      have R1 := hD h hP hi hj h1
      cases h2 : newDistance s1 i' j' w' with
      | error e => rw [h2] at hn; cases hn
      | ok v2 =>
        obtain ⟨s2, l2⟩ := v2
        rw [h2] at hn
        simp only at hn
        have A2 := newDistance_adds A1.sinv (by rw [A1.nv]; exact hi') (by rw [A1.nv]; exact hj') h2
        have R2 := hD A1.sinv R1 (by rw [A1.nv]; exact hi') (by rw [A1.nv]; exact hj') h2
        exact hC A2.sinv R2 hn
  cases hf : form (W := W) (l.sub r) with
  | none => rw [newRel_invalid hf] at hn; cases hn
  | some f =>
    have ok := form_spec hc hf
    cases f with
    | const k =>
      cases R <;> simp only [newRel, newLt, newLeq, newEqD, newGeq, newGt, hf] at hn <;> injection hn with hn <;> injection hn with e1 e2 <;> exact e1 ▸ hP
    | diff ng a b k =>
      obtain ⟨_, ⟨ta, hta, rfl⟩, hbv⟩ := ok
      have ha : ta.1 < s.th.nv := hk _ hta
      have hbb : b < s.th.nv := by
        rcases hbv with rfl | ⟨t, ht, rfl⟩
        · exact h0
        · exact hk _ ht
      cases R with
      | lt => cases ng <;> simp only [newRel, newLt, hf] at hn <;> exact hD h hP (by assumption) (by assumption) hn
      | leq => cases ng <;> simp only [newRel, newLeq, hf] at hn <;> exact hD h hP (by assumption) (by assumption) hn
      | geq => cases ng <;> simp only [newRel, newGeq, hf] at hn <;> exact hD h hP (by assumption) (by assumption) hn
      | gt =>
        cases ng with
        | true => simp only [newRel, newGt, hf] at hn; exact hD h hP (by assumption) (by assumption) hn
        | false =>
          simp only [newRel, newGt, hf] at hn
          split at hn
          · exact two _ _ _ _ _ _ hbb ha ha hbb hn
          · exact hD h hP (by assumption) (by assumption) hn
      | eq =>
        simp only [newRel, newEqD, hf] at hn
        split at hn
        · split at hn
          · exact two _ _ _ _ _ _ ha hbb hbb ha hn
          · injection hn with hn; injection hn with e1 e2; exact e1 ▸ hP
        · cases hn

/-- The constructors lead to reachable states. -/
theorem newRel_reach {E : Env} {R : Rel} {s s' : Sat (DL W)} {l r : Lin} {p : Lit} (h : DReach E s) (hl : l.Canon) (hr : r.Canon)
    (hlv : ∀ t ∈ l.vars, t.1 < s.th.nv) (hrv : ∀ t ∈ r.vars, t.1 < s.th.nv) (hn : newRel E R s l r = .ok (s', p)) : DReach E s' := by
  refine newRel_ind (P := fun u => DReach E u) h.sinv h (fun _ hu hi hj hn => .newDistance hu hi hj hn) (@fun u u' l1 l2 q _ hu hn => ?_) hl hr hlv hrv hn
  exact .step (op := .newConj [l1, l2]) (out := .lit q) hu (fun e => by cases e) (by simp only [Sat.step, hn]; rfl)

end DL
end Semitone
