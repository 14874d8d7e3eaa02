import Verif.LRA.Num

/-!
# Infinitesimals encode strictness (C46)

A small specification of linear constraints over the rationals, of their encoding as non-strict comparisons of numbers with an
infinitesimal part (`c_right` of `new_lt`, `new_leq`, `new_geq`, `new_gt`: `lra_theory.cpp:73`, `114`, `155`, `196`), and the
proof that the encoding is faithful.
-/
namespace Semitone
namespace LRA

/-- The comparisons. -/
inductive Cmp where
  | lt | le | eq | ge | gt
deriving DecidableEq

/-- A linear constraint: `l` compared with `k`. -/
structure LC where
  l : Lin
  cmp : Cmp
  k : ℚ

/-- Comparison of two rationals. -/
def Cmp.holds : Cmp → ℚ → ℚ → Prop
  | .lt, a, b => a < b
  | .le, a, b => a ≤ b
  | .eq, a, b => a = b
  | .ge, a, b => b ≤ a
  | .gt, a, b => b < a

/-- The constraint holds under the rational valuation `x`. -/
def LC.holds (c : LC) (x : Nat → ℚ) : Prop := c.cmp.holds (c.l.eval 1 x) c.k

/-- The encoded constraint holds under a valuation with infinitesimal parts: strict comparisons with `k` are non-strict comparisons with
`k - ε`, `k + ε`. -/
def LC.enc (c : LC) (X : Nat → IQ) : Prop :=
  match c.cmp with
  | .lt => c.l.eval IQ.one X ≤ IQ.mk c.k (-1)
  | .le => c.l.eval IQ.one X ≤ IQ.ofQ c.k
  | .eq => c.l.eval IQ.one X = IQ.ofQ c.k
  | .ge => IQ.ofQ c.k ≤ c.l.eval IQ.one X
  | .gt => IQ.mk c.k 1 ≤ c.l.eval IQ.one X

/-- The number obtained by giving the infinitesimal the value `δ`. -/
def at_ (δ : ℚ) (a : IQ) : ℚ := (ofLex a).1 + δ * (ofLex a).2

theorem at_add (δ : ℚ) (a b : IQ) : at_ δ (a + b) = at_ δ a + at_ δ b := by
  unfold at_; rw [IQ.fst_add, IQ.snd_add]; ring
theorem at_smul (δ c : ℚ) (a : IQ) : at_ δ (c • a) = c * at_ δ a := by
  unfold at_; rw [IQ.fst_smul, IQ.snd_smul]; ring
theorem at_mk (δ r i : ℚ) : at_ δ (IQ.mk r i) = r + δ * i := rfl
theorem at_ofQ (δ r : ℚ) : at_ δ (IQ.ofQ r) = r := by
  show r + δ * 0 = r
  ring

theorem evalT_at (δ : ℚ) (X : Nat → IQ) (l : List (Nat × ℚ)) : Lin.evalT (fun v => at_ δ (X v)) l = at_ δ (Lin.evalT X l) := by
  induction l with
  | nil => show (0 : ℚ) = (0 : ℚ) + δ * 0; ring
  | cons t l ih =>
    show t.2 * at_ δ (X t.1) + Lin.evalT (fun v => at_ δ (X v)) l = at_ δ (t.2 • X t.1 + Lin.evalT X l)
    rw [ih, at_add, at_smul]

/-- Linear expressions commute with the choice of a value for the infinitesimal. -/
theorem eval_at (δ : ℚ) (X : Nat → IQ) (l : Lin) : l.eval 1 (fun v => at_ δ (X v)) = at_ δ (l.eval IQ.one X) := by
  unfold Lin.eval
  rw [evalT_at, at_add, at_smul]
  show _ + l.kt * 1 = _ + l.kt * at_ δ (IQ.ofQ 1)
  rw [at_ofQ]

theorem le_at {a b : IQ} (h : a ≤ b) : ∃ δ0 : ℚ, 0 < δ0 ∧ ∀ δ, 0 < δ → δ ≤ δ0 → at_ δ a ≤ at_ δ b := by
  rw [IQ.le_def] at h
  rcases h with h | ⟨h1, h2⟩
  · have hp : 0 < |(ofLex a).2 - (ofLex b).2| + 1 := by positivity
    refine ⟨((ofLex b).1 - (ofLex a).1) / (|(ofLex a).2 - (ofLex b).2| + 1), div_pos (by linarith) hp, fun δ hδ hle => ?_⟩
    rw [le_div_iff₀ hp] at hle
    have h3 := le_abs_self ((ofLex a).2 - (ofLex b).2)
    unfold at_
    nlinarith
  · refine ⟨1, one_pos, fun δ hδ _ => ?_⟩
    unfold at_
    nlinarith

/-- C46: if a valuation with infinitesimal parts satisfies every constraint of a finite set (as encoded), then so does, over the rationals, the
valuation obtained by giving the infinitesimal *any* small enough positive value. -/
theorem C46_infinitesimals_to_rationals (cs : List LC) (X : Nat → IQ) (h : ∀ c ∈ cs, c.enc X) :
    ∃ δ0 : ℚ, 0 < δ0 ∧ ∀ δ, 0 < δ → δ ≤ δ0 → ∀ c ∈ cs, c.holds (fun v => at_ δ (X v)) := by
  induction cs with
  | nil => exact ⟨1, one_pos, fun _ _ _ _ h => by cases h⟩
  | cons c cs ih =>
    obtain ⟨d, hd, hcs⟩ := ih (fun c hc => h c (List.mem_cons_of_mem _ hc))
    have hc := h c List.mem_cons_self
    have key : ∃ δ0 : ℚ, 0 < δ0 ∧ ∀ δ, 0 < δ → δ ≤ δ0 → c.holds (fun v => at_ δ (X v)) := by
      unfold LC.enc at hc
      unfold LC.holds
      split at hc
      · next e =>
        obtain ⟨d0, h0, h1⟩ := le_at hc
        refine ⟨d0, h0, fun δ hδ hle => ?_⟩
        have := h1 δ hδ hle
        rw [e, eval_at]
        rw [at_mk] at this
        show _ < _
        linarith
      · next e =>
        obtain ⟨d0, h0, h1⟩ := le_at hc
        refine ⟨d0, h0, fun δ hδ hle => ?_⟩
        have := h1 δ hδ hle
        rw [e, eval_at]
        rw [at_ofQ] at this
        exact this
      · next e =>
        refine ⟨1, one_pos, fun δ hδ hle => ?_⟩
        rw [e, eval_at, hc, at_ofQ]
        rfl
      · next e =>
        obtain ⟨d0, h0, h1⟩ := le_at hc
        refine ⟨d0, h0, fun δ hδ hle => ?_⟩
        have := h1 δ hδ hle
        rw [e, eval_at]
        rw [at_ofQ] at this
        exact this
      · next e =>
        obtain ⟨d0, h0, h1⟩ := le_at hc
        refine ⟨d0, h0, fun δ hδ hle => ?_⟩
        have := h1 δ hδ hle
        rw [e, eval_at]
        rw [at_mk] at this
        show _ < _
        linarith
    obtain ⟨d', hd', hc'⟩ := key
    refine ⟨min d d', lt_min hd hd', fun δ hδ hle c' hc0 => ?_⟩
    rcases List.mem_cons.mp hc0 with rfl | hc0
    · exact hc' δ hδ (hle.trans (min_le_right _ _))
    · exact hcs δ hδ (hle.trans (min_le_left _ _)) c' hc0

/-- C46, the other direction: on rational valuations the encoded constraint is the constraint. -/
theorem C46_rationals (c : LC) (x : Nat → ℚ) : c.enc (fun v => IQ.ofQ (x v)) ↔ c.holds x := by
  obtain ⟨l, cmp, k⟩ := c
  unfold LC.enc LC.holds
  rw [Lin.eval_ofQ]
  cases cmp
  · show _ ↔ _ < _
    simp only [IQ.ofQ_le_mk]
    norm_num
  · exact IQ.ofQ_le _ _
  · show _ ↔ _ = _
    constructor
    · intro h
      exact congrArg (fun a : IQ => (ofLex a).1) h
    · intro h; rw [h]
  · exact IQ.ofQ_le _ _
  · show _ ↔ _ < _
    simp only [IQ.mk_le_ofQ]
    norm_num

/-- C46, together: a finite set of constraints has a rational solution exactly when its encoding has a solution with infinitesimal parts. -/
theorem C46_equisatisfiable (cs : List LC) : (∃ X : Nat → IQ, ∀ c ∈ cs, c.enc X) ↔ ∃ x : Nat → ℚ, ∀ c ∈ cs, c.holds x := by
  constructor
  · rintro ⟨X, hX⟩
    obtain ⟨d, hd, h⟩ := C46_infinitesimals_to_rationals cs X hX
    exact ⟨_, h d hd (le_refl _)⟩
  · rintro ⟨x, hx⟩
    exact ⟨_, fun c hc => (C46_rationals c x).mpr (hx c hc)⟩

/-- Non-vacuity: `0 < x`, `x < y`, `y <= 1`, with `x = ε`, `y = 3 ε`: the rational `δ = 1/3` works, `δ = 1` would not. -/
example : ∀ c ∈ [⟨Lin.ofVar 0 1, .gt, 0⟩, ⟨⟨[(0, 1), (1, -1)], 0⟩, .lt, 0⟩, ⟨Lin.ofVar 1 1, .le, 1⟩],
    LC.enc c (fun v => if v = 0 then IQ.mk 0 1 else IQ.mk 0 3) := by
  intro c hc
  simp only [List.mem_cons, List.not_mem_nil, or_false] at hc
  rcases hc with rfl | rfl | rfl <;> simp only [LC.enc] <;> decide +kernel

end LRA
end Semitone
