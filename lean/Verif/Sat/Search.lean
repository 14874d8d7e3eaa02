import Verif.Sat.Ops
import Mathlib.Data.Finset.Card
import Mathlib.Tactic.Ring

/-!
# A client that keeps deciding

The library offers no search procedure: its clients decide. `solve` is the simplest client: it propagates and then assumes any unassigned literal (chosen by an arbitrary
heuristic) until none is left or the core answers false. It terminates: with every decision, the numbers of variables assigned at levels `0`, `0..1`, `0..2`, … grow lexicographically.
-/
namespace Semitone
namespace Sat
variable {T : Type}

/-- The decisions of a client after propagation (client code; the calls are `sat_core::assume`, `sat_core.cpp:357-366`, and `sat_core::value`). `pick` gives an unassigned literal, if
there is one. -/
def solveLoop (E : Env) (O : TheoryOps T) (pick : Sat T → Option Lit) : Nat → Sat T → Except Err (Sat T × Bool)
  | 0, _ => .error .fuel
  | k + 1, s =>
    match pick s with
    | none => .ok (s, true)
    | some p =>
      match s.assume E O p with
      | .error e => .error e
      | .ok (s, false) => .ok (s, false)
      | .ok (s, true) => solveLoop E O pick k s

/-- The client: `propagate()`, then decisions; `k` bounds the number of rounds. -/
def solve (E : Env) (O : TheoryOps T) (pick : Sat T → Option Lit) (k : Nat) (s : Sat T) : Except Err (Sat T × Bool) :=
  match s.propagate E O with
  | .error e => .error e
  | .ok (s, false) => .ok (s, false)
  | .ok (s, true) => solveLoop E O pick k s

/-- A heuristic: it proposes an existing unassigned variable, with either sign, as long as there is one. -/
structure Heuristic (pick : Sat T → Option Lit) : Prop where
  some : ∀ s p, pick s = some p → p.var < s.nvars ∧ s.value p = none
  none : ∀ s, pick s = none → ∀ v, v < s.nvars → s.assigns v ≠ none

/-! ### Progress -/

/-- The number of variables assigned at level `i` or below. -/
def upTo (s : Sat T) (i : Nat) : Nat := ((Finset.range s.nvars).filter (fun v => s.assigns v ≠ none ∧ s.level v ≤ i)).card

theorem upTo_le (s : Sat T) (i : Nat) : s.upTo i ≤ s.nvars := by
  unfold upTo
  exact (Finset.card_filter_le _ _).trans (by simp)

/-- The levels above `m` have variables of their own. -/
def Strict (s : Sat T) (m : Nat) : Prop := ∀ i, m ≤ i → i < s.dl → s.upTo i < s.upTo (i + 1)

theorem Strict.dl {s : Sat T} {m : Nat} (h : Strict s m) : s.dl ≤ m + s.nvars := by
  have key : ∀ j, m + j ≤ s.dl → j ≤ s.upTo (m + j) := by
    intro j
    induction j with
    | zero => intro _; exact Nat.zero_le _
    | succ j ih =>
      intro hj
      have a := ih (by omega)
      have b := h (m + j) (by omega) (by omega)
      have e : m + (j + 1) = m + j + 1 := by omega
      rw [e]; omega
  by_cases hm : m ≤ s.dl
  · have := key (s.dl - m) (by omega)
    have := s.upTo_le (m + (s.dl - m))
    omega
  · omega

/-- What one decision does to the counts. -/
structure Prog (s s' : Sat T) : Prop where
  nv : s'.nvars = s.nvars
  dl : s'.dl ≤ s.dl + 1
  same : ∀ i, i < s'.dl → s'.upTo i = s.upTo i
  more : s'.dl ≤ s.dl → s.upTo s'.dl < s'.upTo s'.dl
  own : s'.dl = s.dl + 1 → s.upTo s.dl < s'.upTo s'.dl

theorem assume_prog {E : Env} {O : TheoryOps T} {C : Contract O} {s s' : Sat T} {p : Lit} (h : s.Inv C) (hv : s.value p = none) (hp : s.assume E O p = .ok (s', true)) : Prog s s' := by
  have A := assume_spec h hp
  have F := A.facts h
  have hd : Done C (s.assumed0 O p) s' true := A.done (by rw [hv]; simp)
  obtain ⟨f1, f2, f3, f4, f5, f6, f7, f8, f9, f10, f11⟩ := assumed0_facts (O := O) s p
  have hsub : ∀ i, i ≤ s'.dl → (Finset.range s.nvars).filter (fun v => s.assigns v ≠ none ∧ s.level v ≤ i) ⊆ (Finset.range s'.nvars).filter (fun v => s'.assigns v ≠ none ∧ s'.level v ≤ i) := by
    intro i hi v hm
    rw [Finset.mem_filter, Finset.mem_range] at hm ⊢
    obtain ⟨a, b, c⟩ := hm
    obtain ⟨d, e⟩ := F.low v b (c.trans hi)
    exact ⟨by rw [F.nv]; exact a, by rw [d]; exact b, by rw [e]; exact c⟩
  refine ⟨F.nv, F.dl, fun i hi => ?_, fun hle => ?_, fun heq => ?_⟩
  · unfold upTo
    refine congrArg Finset.card (Finset.Subset.antisymm ?_ (hsub i hi.le))
    intro v hm
    rw [Finset.mem_filter, Finset.mem_range] at hm ⊢
    obtain ⟨a, b, c⟩ := hm
    rcases F.new v b with ⟨d, e⟩ | e
    · exact ⟨by rw [← F.nv]; exact a, d, by rw [← (F.low v d e).2]; exact c⟩
    · omega
  · obtain ⟨-, v, g1, g2, g3⟩ := hd.jump (by rw [f2]; omega)
    refine Finset.card_lt_card ((Finset.ssubset_iff_of_subset (hsub _ (Nat.le_refl _))).mpr ⟨v, ?_, ?_⟩)
    · rw [Finset.mem_filter, Finset.mem_range]
      exact ⟨F.inv.wf.rng _ g1, g1, g2.le⟩
    · rw [Finset.mem_filter, Finset.mem_range]
      rintro ⟨-, b, c⟩
      obtain ⟨d, e⟩ := f10 v b
      have := g3 (by rw [d]; exact b)
      omega
  · have hpt := F.mean rfl heq
    rw [value_true] at hpt
    refine Finset.card_lt_card ((Finset.ssubset_iff_of_subset ?_).mpr ⟨p.var, ?_, ?_⟩)
    · refine (hsub s.dl (by omega)).trans ?_
      intro v hm
      rw [Finset.mem_filter, Finset.mem_range] at hm ⊢
      exact ⟨hm.1, hm.2.1, by omega⟩
    · rw [Finset.mem_filter, Finset.mem_range]
      exact ⟨F.inv.wf.rng _ (by rw [hpt]; simp), by rw [hpt]; simp, F.inv.wf.level_le _⟩
    · rw [Finset.mem_filter, Finset.mem_range]
      rintro ⟨-, b, -⟩
      rw [value_none] at hv
      exact b hv

theorem Prog.strict {s s' : Sat T} {m : Nat} (h : Prog s s') (hs : Strict s m) : Strict s' m := by
  intro i h1 h2
  by_cases e : i + 1 < s'.dl
  · rw [h.same i h2, h.same _ e]
    exact hs i h1 (by have := h.dl; omega)
  · have e : i + 1 = s'.dl := by omega
    rw [h.same i h2, e]
    by_cases hle : s'.dl ≤ s.dl
    · have a := hs i h1 (by omega)
      have b := h.more hle
      rw [← e] at b
      rw [← e]; omega
    · have hle : s'.dl = s.dl + 1 := by have := h.dl; omega
      have := h.own hle
      have e2 : i = s.dl := by omega
      rw [e2]; exact this

/-! ### The measure -/

/-- A number in base `n + 2` whose digits are `f 0, …, f B`. -/
def digits (n : Nat) (f : Nat → Nat) : Nat → Nat
  | 0 => f 0
  | B + 1 => digits n f B * (n + 2) + f (B + 1)

theorem digits_congr {n : Nat} {f g : Nat → Nat} : ∀ B, (∀ j, j ≤ B → f j = g j) → digits n f B = digits n g B
  | 0, h => h 0 (Nat.le_refl _)
  | B + 1, h => by
    unfold digits
    rw [digits_congr B (fun j hj => h j (by omega)), h (B + 1) (Nat.le_refl _)]

theorem digits_lt {n : Nat} {f g : Nat → Nat} {k : Nat} (he : ∀ j, j < k → f j = g j) (hk : f k < g k) (hb : ∀ j, f j ≤ n + 1) : ∀ B, k ≤ B → digits n f B < digits n g B
  | 0, h => by
    have : k = 0 := by omega
    subst this
    exact hk
  | B + 1, h => by
    unfold digits
    by_cases e : k = B + 1
    · subst e
      rw [digits_congr B (fun j hj => he j (by omega))]
      omega
    · have a := digits_lt he hk hb B (by omega)
      have b := hb (B + 1)
      calc digits n f B * (n + 2) + f (B + 1) < digits n f B * (n + 2) + (n + 2) := by omega
        _ = (digits n f B + 1) * (n + 2) := by ring
        _ ≤ digits n g B * (n + 2) := Nat.mul_le_mul_right _ a
        _ ≤ _ := Nat.le_add_right _ _

theorem digits_bound {n : Nat} {f : Nat → Nat} (hb : ∀ j, f j ≤ n + 1) : ∀ B, digits n f B < (n + 2) ^ (B + 1)
  | 0 => by
    unfold digits
    have := hb 0
    rw [Nat.zero_add, pow_one]
    omega
  | B + 1 => by
    unfold digits
    have a := digits_bound hb B
    have b := hb (B + 1)
    calc digits n f B * (n + 2) + f (B + 1) < digits n f B * (n + 2) + (n + 2) := by omega
      _ = (digits n f B + 1) * (n + 2) := by ring
      _ ≤ (n + 2) ^ (B + 1) * (n + 2) := Nat.mul_le_mul_right _ a
      _ = (n + 2) ^ (B + 1 + 1) := (pow_succ _ _).symm

/-- The measure of a state. -/
def weight (s : Sat T) (B : Nat) : Nat := digits s.nvars (fun i => if i ≤ s.dl then s.nvars - s.upTo i else s.nvars + 1) B

theorem weight_bound (s : Sat T) (B : Nat) : s.weight B < (s.nvars + 2) ^ (B + 1) := digits_bound (fun j => by split <;> omega) B

theorem Prog.weight {s s' : Sat T} {B : Nat} (h : Prog s s') (hB : s'.dl ≤ B) : s'.weight B < s.weight B := by
  unfold Sat.weight
  rw [h.nv]
  refine digits_lt (k := s'.dl) (fun j hj => ?_) ?_ (fun j => by split <;> omega) B hB
  · have := h.dl
    rw [if_pos (by omega), if_pos (by omega), h.same j hj]
  · rw [if_pos (Nat.le_refl _)]
    by_cases hle : s'.dl ≤ s.dl
    · rw [if_pos hle]
      have := h.more hle
      have := s'.upTo_le s'.dl
      rw [h.nv] at this
      omega
    · rw [if_neg hle]
      omega

/-! ### The client terminates -/

/-- `P`: an invariant of the client that makes `assume` succeed, unless it fails in one of the permitted ways `F`. -/
theorem solveLoop_permits {F : Err → Prop} {E : Env} {O : TheoryOps T} {C : Contract O} {pick : Sat T → Option Lit} (hh : Heuristic pick) {P : Sat T → Prop} (hI : ∀ s, P s → s.Inv C)
    (hstep : ∀ s p, P s → p.var < s.nvars → s.value p = none → (∃ e, F e ∧ s.assume E O p = .error e) ∨ ∃ s' b, s.assume E O p = .ok (s', b) ∧ (b = true → P s')) :
    ∀ k s m, P s → Strict s m → s.weight (m + s.nvars) < k →
      (∃ e, F e ∧ solveLoop E O pick k s = .error e) ∨ ∃ s' b, solveLoop E O pick k s = .ok (s', b) ∧ s'.posted = s.posted ∧ s'.nvars = s.nvars ∧ (∀ α, C.Th s'.th α ↔ C.Th s.th α) ∧
        (b = true → P s' ∧ ∀ v, v < s'.nvars → s'.assigns v ≠ none) ∧ (b = false → s.Unsat C.Th) := by
  intro k
  induction k with
  | zero => intro s m _ _ hk; omega
  | succ k ih =>
    intro s m hP hS hk
    unfold solveLoop
    match hpk : pick s with
    | none => exact .inr ⟨s, true, rfl, rfl, rfl, fun _ => Iff.rfl, fun _ => ⟨hP, hh.none s hpk⟩, by simp⟩
    | some p =>
      obtain ⟨hr, hv⟩ := hh.some s p hpk
      rcases hstep s p hP hr hv with ⟨e, he, h1⟩ | ⟨s1, b, h1, h2⟩
      · exact .inl ⟨e, he, by simp only [h1]⟩
      have A := assume_spec (hI s hP) h1
      have A' := A.facts (hI s hP)
      simp only [h1]
      cases b with
      | false =>
        refine .inr ⟨s1, false, rfl, A'.posted, A'.nv, A'.th, by simp, fun _ => ?_⟩
        have hd : Done C (s.assumed0 O p) s1 false := A.done (by rw [hv]; simp)
        obtain ⟨f1, f2, f3, f4, f5, f6, f7, f8, f9, f10, f11⟩ := assumed0_facts (O := O) s p
        have hpush := (C.push s.th s.dl s.tru (hI s hP).ti (by intro q hqt; exact ⟨hqt.1, Nat.le_succ_of_le hqt.2⟩)).2
        have hsol : ∀ α, (s.assumed0 O p).Sol C.Th α ↔ s.Sol C.Th α := Sol.congr f3 (by rw [f7]; exact hpush)
        exact fun α hα => (hd.bad rfl).2.2 α ((hsol α).2 hα)
      | true =>
        have pr := assume_prog (hI s hP) hv h1
        have hS1 := pr.strict hS
        have hdl := hS1.dl
        rw [A'.nv] at hdl
        have hw := pr.weight hdl
        rcases ih s1 m (h2 rfl) hS1 (by rw [A'.nv]; omega) with ⟨e, he, g1⟩ | ⟨s2, b2, g1, g2, g3, g4, g5, g6⟩
        · exact .inl ⟨e, he, g1⟩
        refine .inr ⟨s2, b2, g1, g2.trans A'.posted, g3.trans A'.nv, fun α => (g4 α).trans (A'.th α), g5, fun hb α hα => g6 hb α ?_⟩
        exact (Sol.congr A'.posted A'.th α).mpr hα

/-- `P`: an invariant of the client that makes `assume` succeed. -/
theorem solveLoop_spec {E : Env} {O : TheoryOps T} {C : Contract O} {pick : Sat T → Option Lit} (hh : Heuristic pick) {P : Sat T → Prop} (hI : ∀ s, P s → s.Inv C)
    (hstep : ∀ s p, P s → p.var < s.nvars → s.value p = none → ∃ s' b, s.assume E O p = .ok (s', b) ∧ (b = true → P s')) :
    ∀ k s m, P s → Strict s m → s.weight (m + s.nvars) < k →
      ∃ s' b, solveLoop E O pick k s = .ok (s', b) ∧ s'.posted = s.posted ∧ s'.nvars = s.nvars ∧ (∀ α, C.Th s'.th α ↔ C.Th s.th α) ∧
        (b = true → P s' ∧ ∀ v, v < s'.nvars → s'.assigns v ≠ none) ∧ (b = false → s.Unsat C.Th) :=
  fun k s m h1 h2 h3 => (solveLoop_permits (F := fun _ => False) hh hI (fun s p a b c => .inr (hstep s p a b c)) k s m h1 h2 h3).resolve_left (fun ⟨_, h, _⟩ => h)

end Sat
end Semitone
