import Verif.Lin.Model

/-!
# C23–C26: linear expressions
-/
namespace Semitone
namespace Lin
variable {M : Type} [AddCommGroup M] [Module ℚ M]

@[simp] theorem evalT_nil (x : Nat → M) : evalT x [] = 0 := rfl
@[simp] theorem evalT_cons (x : Nat → M) (t : Nat × ℚ) (l) : evalT x (t :: l) = t.2 • x t.1 + evalT x l := by simp [evalT]

theorem evalT_addTerm (x : Nat → M) (v : Nat) (c : ℚ) (l) : evalT x (addTerm v c l) = evalT x l + c • x v := by
  induction l with
  | nil => simp [addTerm]
  | cons t l ih =>
    obtain ⟨w, d⟩ := t
    simp only [addTerm]
    split
    · simp only [evalT_cons]; module
    · split
      · rename_i h; subst h
        split
        · rename_i h
          have : d = -c := by linarith
          subst this
          simp only [evalT_cons]; module
        · simp only [evalT_cons]; module
      · simp only [evalT_cons, ih]; module

theorem evalT_addTerms (x : Nat → M) (r) : ∀ l, evalT x (addTerms l r) = evalT x l + evalT x r := by
  induction r with
  | nil => intro l; simp [addTerms]
  | cons t r ih =>
    intro l
    have := ih (addTerm t.1 t.2 l)
    simp only [addTerms, List.foldl_cons] at this ⊢
    rw [this, evalT_addTerm, evalT_cons]; module

theorem evalT_subTerms (x : Nat → M) (r) : ∀ l, evalT x (subTerms l r) = evalT x l - evalT x r := by
  induction r with
  | nil => intro l; simp [subTerms]
  | cons t r ih =>
    intro l
    have := ih (addTerm t.1 (-t.2) l)
    simp only [subTerms, List.foldl_cons] at this ⊢
    rw [this, evalT_addTerm, evalT_cons]; module

theorem evalT_scale (x : Nat → M) (c : ℚ) (l) : evalT x (l.map (fun t => (t.1, t.2 * c))) = c • evalT x l := by
  induction l with
  | nil => simp
  | cons t l ih => simp only [List.map_cons, evalT_cons, ih]; module

theorem evalT_div (x : Nat → M) (c : ℚ) (l) : evalT x (l.map (fun t => (t.1, t.2 / c))) = c⁻¹ • evalT x l := by
  have : (fun t : Nat × ℚ => (t.1, t.2 / c)) = (fun t => (t.1, t.2 * c⁻¹)) := by funext t; rw [div_eq_mul_inv]
  rw [this, evalT_scale]

/-- Keys of the result of `addTerm`. -/
theorem addTerm_keys (v : Nat) (c : ℚ) (l) : ∀ t ∈ addTerm v c l, t.1 = v ∨ ∃ t' ∈ l, t'.1 = t.1 := by
  induction l with
  | nil => intro t ht; simp [addTerm] at ht; exact Or.inl (by rw [ht])
  | cons s l ih =>
    obtain ⟨w, d⟩ := s
    intro t ht
    simp only [addTerm] at ht
    split at ht
    · rcases List.mem_cons.1 ht with h | h
      · exact Or.inl (by rw [h])
      · exact Or.inr ⟨t, h, rfl⟩
    · split at ht
      · split at ht
        · exact Or.inr ⟨t, by simp [ht], rfl⟩
        · rcases List.mem_cons.1 ht with h | h
          · exact Or.inr ⟨(w, d), by simp, by rw [h]⟩
          · exact Or.inr ⟨t, by simp [h], rfl⟩
      · rcases List.mem_cons.1 ht with h | h
        · exact Or.inr ⟨(w, d), by simp, by rw [h]⟩
        · rcases ih t h with h | ⟨t', h1, h2⟩
          · exact Or.inl h
          · exact Or.inr ⟨t', by simp [h1], h2⟩

theorem addTerm_sorted (v : Nat) (c : ℚ) (l : List (Nat × ℚ)) (h : (l.map Prod.fst).Pairwise (· < ·)) :
    ((addTerm v c l).map Prod.fst).Pairwise (· < ·) := by
  induction l with
  | nil => simp [addTerm]
  | cons s l ih =>
    obtain ⟨w, d⟩ := s
    rw [List.map_cons, List.pairwise_cons] at h
    simp only [addTerm]
    split
    · rename_i hv
      rw [List.map_cons, List.pairwise_cons]
      refine ⟨?_, by rw [List.map_cons, List.pairwise_cons]; exact h⟩
      intro a ha
      rw [List.map_cons] at ha
      rcases List.mem_cons.1 ha with rfl | ha
      · exact hv
      · exact lt_trans hv (h.1 a ha)
    · split
      · split
        · exact h.2
        · rw [List.map_cons, List.pairwise_cons]; exact h
      · rename_i h1 h2
        rw [List.map_cons, List.pairwise_cons]
        refine ⟨?_, ih h.2⟩
        intro a ha
        obtain ⟨t, ht, rfl⟩ := List.mem_map.1 ha
        rcases addTerm_keys v c l t ht with e | ⟨t', ht', e⟩
        · rw [e]; simp only; omega
        · rw [← e]; exact h.1 _ (List.mem_map.2 ⟨t', ht', rfl⟩)

theorem addTerm_nonzero (v : Nat) {c : ℚ} (hc : c ≠ 0) (l : List (Nat × ℚ)) (h : ∀ t ∈ l, t.2 ≠ 0) : ∀ t ∈ addTerm v c l, t.2 ≠ 0 := by
  induction l with
  | nil => intro t ht; simp [addTerm] at ht; rw [ht]; exact hc
  | cons s l ih =>
    obtain ⟨w, d⟩ := s
    intro t ht
    simp only [addTerm] at ht
    split at ht
    · rcases List.mem_cons.1 ht with e | ht
      · rw [e]; exact hc
      · exact h t ht
    · split at ht
      · split at ht
        · exact h t (by simp [ht])
        · rename_i hn
          rcases List.mem_cons.1 ht with e | ht
          · rw [e]; exact hn
          · exact h t (by simp [ht])
      · rcases List.mem_cons.1 ht with e | ht
        · rw [e]; exact h (w, d) (by simp)
        · exact ih (fun t ht => h t (by simp [ht])) t ht

theorem addTerms_canon (r : List (Nat × ℚ)) : ∀ l : List (Nat × ℚ), (l.map Prod.fst).Pairwise (· < ·) →
    ((addTerms l r).map Prod.fst).Pairwise (· < ·) ∧ ((∀ t ∈ l, t.2 ≠ 0) → (∀ t ∈ r, t.2 ≠ 0) → ∀ t ∈ addTerms l r, t.2 ≠ 0) := by
  induction r with
  | nil => intro l hl; exact ⟨hl, fun h _ => h⟩
  | cons s r ih =>
    intro l hl
    obtain ⟨h1, h2⟩ := ih (addTerm s.1 s.2 l) (addTerm_sorted _ _ _ hl)
    exact ⟨h1, fun a b => h2 (addTerm_nonzero _ (b s (by simp)) _ a) (fun t ht => b t (by simp [ht]))⟩

theorem subTerms_eq (l r : List (Nat × ℚ)) : subTerms l r = addTerms l (r.map (fun t => (t.1, -t.2))) := by
  unfold subTerms addTerms
  rw [List.foldl_map]

theorem subTerms_canon (l r : List (Nat × ℚ)) (hl : (l.map Prod.fst).Pairwise (· < ·)) :
    ((subTerms l r).map Prod.fst).Pairwise (· < ·) ∧ ((∀ t ∈ l, t.2 ≠ 0) → (∀ t ∈ r, t.2 ≠ 0) → ∀ t ∈ subTerms l r, t.2 ≠ 0) := by
  rw [subTerms_eq]
  obtain ⟨h1, h2⟩ := addTerms_canon (r.map (fun t => (t.1, -t.2))) l hl
  refine ⟨h1, fun a b => h2 a ?_⟩
  intro t ht
  obtain ⟨t', h', rfl⟩ := List.mem_map.1 ht
  exact neg_ne_zero.2 (b t' h')

/-- The only case in which the code's `+` is right about the known terms: both are equal. -/
theorem eval_add (u : M) (x : Nat → M) (a b : Lin) : (a.add b).eval u x = a.eval u x + b.eval u x + (a.kt - b.kt) • u := by
  simp only [eval, add, evalT_addTerms]; module
theorem eval_addAssign (u : M) (x : Nat → M) (a b : Lin) : (a.addAssign b).eval u x = a.eval u x + b.eval u x := by
  simp only [eval, addAssign, evalT_addTerms]; module
theorem eval_sub (u : M) (x : Nat → M) (a b : Lin) : (a.sub b).eval u x = a.eval u x - b.eval u x := by
  simp only [eval, sub, evalT_subTerms]; module
theorem eval_subAssign (u : M) (x : Nat → M) (a b : Lin) : (a.subAssign b).eval u x = a.eval u x - b.eval u x := by
  simp only [eval, subAssign, evalT_subTerms]; module
theorem eval_mul (u : M) (x : Nat → M) (a : Lin) (c : ℚ) : (a.mul c).eval u x = c • a.eval u x := by
  simp only [eval, mul, evalT_scale]; module
theorem eval_div (u : M) (x : Nat → M) (a : Lin) (c : ℚ) : (a.div c).eval u x = c⁻¹ • a.eval u x := by
  simp only [eval, div, evalT_div, smul_add, smul_smul]
  rw [div_eq_mul_inv, mul_comm]

end Lin
open Lin

/-! ### C23 -/
section
variable {M : Type} [AddCommGroup M] [Module ℚ M] (u : M) (x : Nat → M)

/-- `a += b`, `a + c`, `c + a`, `a += c` evaluate to the sum; `a + b` does when the known terms are equal (see `C23_known_term_lost`). Any
module over the rationals (numbers with infinitesimal part included). -/
theorem C23_partial (a b : Lin) (c : ℚ) :
    (a.addAssign b).eval u x = a.eval u x + b.eval u x ∧
    (a.addC c).eval u x = a.eval u x + c • u ∧
    (Lin.cAdd c a).eval u x = c • u + a.eval u x ∧
    (a.addAssignC c).eval u x = a.eval u x + c • u ∧
    (a.kt = b.kt → (a.add b).eval u x = a.eval u x + b.eval u x) := by
  refine ⟨eval_addAssign u x a b, ?_, ?_, ?_, ?_⟩
  · simp only [eval, addC]; module
  · simp only [eval, cAdd]; module
  · simp only [eval, addAssignC]; module
  · intro h; rw [eval_add, h]; simp

/-- What `a + b` really computes: twice the known term of `a`, not the one of `b`. -/
theorem C23_add_exact (a b : Lin) : (a.add b).eval u x = a.eval u x + b.eval u x + (a.kt - b.kt) • u := eval_add u x a b
end

/-- `x1 + (x2 + 3)` evaluates to `x1 + x2`. -/
theorem C23_known_term_lost : ((Lin.ofVar 1 1).add ⟨[(2, 1)], 3⟩).eval 1 (fun _ => (0 : ℚ)) ≠
    (Lin.ofVar 1 1).eval 1 (fun _ => (0 : ℚ)) + Lin.eval 1 (fun _ => (0 : ℚ)) ⟨[(2, 1)], 3⟩ := by
  rw [eval_add]
  simp [eval, ofVar]

/-! ### C24 -/
section
variable {M : Type} [AddCommGroup M] [Module ℚ M] (u : M) (x : Nat → M)

/-- `a - b`, `a -= b`, `a - c`, `a -= c` evaluate to the difference; `-a` and `c - a` do whenever they return. -/
theorem C24_partial (a b : Lin) (c : ℚ) :
    (a.sub b).eval u x = a.eval u x - b.eval u x ∧
    (a.subAssign b).eval u x = a.eval u x - b.eval u x ∧
    (a.subC c).eval u x = a.eval u x - c • u ∧
    (a.subAssignC c).eval u x = a.eval u x - c • u ∧
    (∀ r, a.neg = .ok r → r.eval u x = - a.eval u x) ∧
    (∀ r, Lin.cSub c a = .ok r → r.eval u x = c • u - a.eval u x) := by
  refine ⟨eval_sub u x a b, eval_subAssign u x a b, ?_, ?_, ?_, ?_⟩
  · simp only [eval, subC]; module
  · simp only [eval, subAssignC]; module
  · intro r hr
    unfold Lin.neg at hr
    match hv : a.vars with
    | [] => rw [hv] at hr; injection hr with hr; subst hr; simp [eval, hv]
    | _ :: _ => rw [hv] at hr; cases hr
  · intro r hr
    unfold Lin.cSub Lin.neg at hr
    match hv : a.vars with
    | [] => rw [hv] at hr; injection hr with hr; subst hr; simp only [eval, hv, evalT_nil]; module
    | _ :: _ => rw [hv] at hr; cases hr
end

/-- `-a` and `c - a` end the program for every expression with a variable. -/
theorem C24_negation_terminates (a : Lin) (c : ℚ) (h : a.vars ≠ []) : a.neg = .error .terminate ∧ Lin.cSub c a = .error .terminate := by
  unfold Lin.cSub Lin.neg
  match hv : a.vars with
  | [] => exact absurd hv h
  | _ :: _ => exact ⟨rfl, rfl⟩

example : (Lin.ofVar 1 2).vars ≠ [] := by simp [Lin.ofVar]

/-- `a -= a` increments an iterator to an erased element for every expression with a variable. -/
theorem C24_self_subtraction_ub (a : Lin) (h : a.vars ≠ []) : a.subAssignSelf = .error .ub := by
  unfold Lin.subAssignSelf
  match hv : a.vars with
  | [] => exact absurd hv h
  | _ :: _ => rfl

/-! ### C25 -/
section
variable {M : Type} [AddCommGroup M] [Module ℚ M] (u : M) (x : Nat → M)

/-- `a * c`, `c * a`, `a / c`, `a /= c` scale the value; `a *= c` does when the known term is zero, or `c` is 0 or 1. -/
theorem C25_partial (a : Lin) (c : ℚ) :
    (a.mul c).eval u x = c • a.eval u x ∧
    (Lin.cMul c a).eval u x = c • a.eval u x ∧
    (c ≠ 0 → c • (a.div c).eval u x = a.eval u x) ∧
    (c ≠ 0 → ∃ r, a.divAssign c = .ok r ∧ c • r.eval u x = a.eval u x) ∧
    (a.kt = 0 ∨ c = 0 ∨ c = 1 → (a.mulAssign c).eval u x = c • a.eval u x) := by
  have hd : c ≠ 0 → c • (a.div c).eval u x = a.eval u x := by
    intro hc; rw [eval_div, smul_smul, mul_inv_cancel₀ hc, one_smul]
  refine ⟨eval_mul u x a c, eval_mul u x a c, hd, ?_, ?_⟩
  · intro hc
    refine ⟨a.div c, by unfold Lin.divAssign; rw [if_neg hc]; rfl, hd hc⟩
  · intro h
    unfold Lin.mulAssign
    by_cases hc : c = 0
    · simp [hc, eval]
    · rw [if_neg hc]
      simp only [eval, evalT_scale]
      rcases h with h | h | h
      · rw [h]; module
      · exact absurd h hc
      · rw [h]; module

/-- What `a *= c` really computes for `c ≠ 0`: the known term is not scaled. -/
theorem C25_mul_assign_exact (a : Lin) (c : ℚ) (hc : c ≠ 0) : (a.mulAssign c).eval u x = c • a.eval u x + ((1 - c) * a.kt) • u := by
  unfold Lin.mulAssign
  rw [if_neg hc]
  simp only [eval, evalT_scale]; module
end

/-- `(x1 + 1) *= 2` evaluates to `2 * x1 + 1`. -/
theorem C25_mul_assign_wrong : (Lin.mulAssign ⟨[(1, 1)], 1⟩ 2).eval 1 (fun _ => (0 : ℚ)) ≠ (2 : ℚ) • Lin.eval 1 (fun _ => (0 : ℚ)) ⟨[(1, 1)], 1⟩ := by
  rw [C25_mul_assign_exact _ _ _ _ (by norm_num)]
  norm_num [eval]

/-! ### C26 -/

/-- Sums and differences of canonical expressions are canonical. -/
theorem C26_canonical {a b : Lin} (ha : a.Canon) (hb : b.Canon) (c : ℚ) :
    (a.add b).Canon ∧ (a.addAssign b).Canon ∧ (a.sub b).Canon ∧ (a.subAssign b).Canon ∧
    (a.addC c).Canon ∧ (Lin.cAdd c a).Canon ∧ (a.subC c).Canon ∧ (a.addAssignC c).Canon ∧ (a.subAssignC c).Canon := by
  obtain ⟨h1, h2⟩ := addTerms_canon b.vars a.vars ha.1
  obtain ⟨h3, h4⟩ := subTerms_canon a.vars b.vars ha.1
  exact ⟨⟨h1, h2 ha.2 hb.2⟩, ⟨h1, h2 ha.2 hb.2⟩, ⟨h3, h4 ha.2 hb.2⟩, ⟨h3, h4 ha.2 hb.2⟩, ha, ha, ha, ha, ha⟩

/-- Multiplication and division by a non-zero constant, and the compound forms, keep expressions canonical. -/
theorem C26_scaled {a : Lin} (ha : a.Canon) {c : ℚ} (hc : c ≠ 0) :
    (a.mul c).Canon ∧ (Lin.cMul c a).Canon ∧ (a.div c).Canon ∧ (a.mulAssign c).Canon := by
  have key : ∀ (f : ℚ → ℚ) (k : ℚ), (∀ q, q ≠ 0 → f q ≠ 0) → Lin.Canon ⟨a.vars.map (fun t => (t.1, f t.2)), k⟩ := by
    intro f k hf
    refine ⟨?_, ?_⟩
    · show ((a.vars.map (fun t => (t.1, f t.2))).map Prod.fst).Pairwise (· < ·)
      rw [List.map_map]; exact ha.1
    · intro t ht
      obtain ⟨t', h', rfl⟩ := List.mem_map.1 ht
      exact hf _ (ha.2 t' h')
  refine ⟨key (· * c) _ (fun q hq => mul_ne_zero hq hc), key (· * c) _ (fun q hq => mul_ne_zero hq hc),
    key (· / c) _ (fun q hq => div_ne_zero hq hc), ?_⟩
  unfold Lin.mulAssign
  rw [if_neg hc]
  exact key (· * c) _ (fun q hq => mul_ne_zero hq hc)

theorem evalT_of_not_mem {l : List (Nat × ℚ)} {v : Nat} {x y : Nat → ℚ} (h : ∀ w, w ≠ v → x w = y w) (hv : v ∉ l.map Prod.fst) :
    evalT x l = evalT y l := by
  induction l with
  | nil => rfl
  | cons t l ih =>
    simp only [List.map_cons, List.mem_cons, not_or] at hv
    rw [evalT_cons, evalT_cons, ih hv.2, h t.1 (Ne.symm hv.1)]

/-- The terms of a canonical expression are exactly the variables it depends on. -/
theorem C26_terms_are_dependencies {a : Lin} (ha : a.Canon) (v : Nat) : v ∈ a.vars.map Prod.fst ↔ a.Depends v := by
  constructor
  · intro hv
    refine ⟨fun _ => 0, fun w => if w = v then 1 else 0, fun w hw => by simp [hw], ?_⟩
    have h0 : ∀ l : List (Nat × ℚ), evalT (fun _ => (0 : ℚ)) l = 0 := by
      intro l; induction l with
      | nil => rfl
      | cons t l ih => simp [ih]
    have key : ∀ l : List (Nat × ℚ), (l.map Prod.fst).Pairwise (· < ·) → (∀ t ∈ l, t.2 ≠ 0) → v ∈ l.map Prod.fst →
        evalT (fun w => if w = v then (1 : ℚ) else 0) l ≠ 0 := by
      intro l
      induction l with
      | nil => intro _ _ h; cases h
      | cons t l ih =>
        intro hs hn hm
        rw [List.map_cons, List.pairwise_cons] at hs
        rw [evalT_cons]
        by_cases e : t.1 = v
        · have : v ∉ l.map Prod.fst := fun h => by have := hs.1 v h; omega
          have e0 : evalT (fun w => if w = v then (1 : ℚ) else 0) l = evalT (fun _ => (0 : ℚ)) l :=
            evalT_of_not_mem (v := v) (fun w hw => by simp [hw]) this
          rw [e0, h0]
          simpa [e] using hn t (by simp)
        · rw [List.map_cons, List.mem_cons] at hm
          have hm := hm.resolve_left (Ne.symm e)
          simpa [e] using ih hs.2 (fun t ht => hn t (by simp [ht])) hm
    simp only [eval, h0]
    intro h
    exact key a.vars ha.1 ha.2 hv (by linarith)
  · rintro ⟨x, y, h1, h2⟩
    by_contra hv
    exact h2 (by simp only [eval]; rw [evalT_of_not_mem h1 hv])

theorem evalT_zero : ∀ l : List (Nat × ℚ), evalT (fun _ => (0 : ℚ)) l = 0
  | [] => rfl
  | t :: l => by simp [evalT_zero l]

/-- Value of a sorted list of terms at the indicator of its first variable. -/
theorem evalT_head {t : Nat × ℚ} {l : List (Nat × ℚ)} (h : ((t :: l).map Prod.fst).Pairwise (· < ·)) : evalT (fun w => if w = t.1 then (1 : ℚ) else 0) (t :: l) = t.2 := by
  rw [List.map_cons, List.pairwise_cons] at h
  have hn : t.1 ∉ l.map Prod.fst := fun hm => Nat.lt_irrefl _ (h.1 _ hm)
  rw [evalT_cons, evalT_of_not_mem (y := fun _ => (0 : ℚ)) (v := t.1) (fun w hw => by simp [hw]) hn, evalT_zero]
  simp

theorem evalT_below {v : Nat} {t : Nat × ℚ} {l : List (Nat × ℚ)} (hv : v < t.1) (h : ((t :: l).map Prod.fst).Pairwise (· < ·)) :
    evalT (fun w => if w = v then (1 : ℚ) else 0) (t :: l) = 0 := by
  have hn : v ∉ (t :: l).map Prod.fst := by
    rw [List.map_cons, List.pairwise_cons] at h
    rw [List.map_cons, List.mem_cons, not_or]
    exact ⟨Nat.ne_of_lt hv, fun hm => absurd (h.1 _ hm) (by omega)⟩
  rw [evalT_of_not_mem (y := fun _ => (0 : ℚ)) (v := v) (fun w hw => by simp [hw]) hn, evalT_zero]

theorem evalT_unique : ∀ {l m : List (Nat × ℚ)}, (l.map Prod.fst).Pairwise (· < ·) → (m.map Prod.fst).Pairwise (· < ·) → (∀ t ∈ l, t.2 ≠ 0) → (∀ t ∈ m, t.2 ≠ 0) →
    (∀ x : Nat → ℚ, evalT x l = evalT x m) → l = m
  | [], [], _, _, _, _, _ => rfl
  | [], t :: m, _, h2, _, n2, he => absurd ((evalT_head h2).symm.trans ((he _).symm.trans rfl)) (n2 t (by simp))
  | t :: l, [], h1, _, n1, _, he => absurd ((evalT_head h1).symm.trans ((he _).trans rfl)) (n1 t (by simp))
  | t :: l, u :: m, h1, h2, n1, n2, he => by
    have e1 : t.1 = u.1 := by
      rcases Nat.lt_trichotomy t.1 u.1 with h | h | h
      · exact absurd ((evalT_head h1).symm.trans ((he _).trans (evalT_below h h2))) (n1 t (by simp))
      · exact h
      · exact absurd ((evalT_head h2).symm.trans ((he _).symm.trans (evalT_below h h1))) (n2 u (by simp))
    have e2 : t.2 = u.2 := by
      have a := evalT_head h1
      have b := evalT_head h2
      rw [← e1] at b
      rw [← a, ← b]; exact he _
    have e : t = u := Prod.ext e1 e2
    subst e
    have := evalT_unique (l := l) (m := m) (by rw [List.map_cons, List.pairwise_cons] at h1; exact h1.2) (by rw [List.map_cons, List.pairwise_cons] at h2; exact h2.2)
      (fun t ht => n1 t (by simp [ht])) (fun t ht => n2 t (by simp [ht])) (fun x => by have := he x; rw [evalT_cons, evalT_cons] at this; exact add_left_cancel this)
    rw [this]

/-- Two canonical expressions with the same values are the same expression: the canonical form decides equivalence. -/
theorem C26_unique {a b : Lin} (ha : a.Canon) (hb : b.Canon) : a = b ↔ ∀ x : Nat → ℚ, a.eval 1 x = b.eval 1 x := by
  refine ⟨fun h _ => by rw [h], fun h => ?_⟩
  have hk : a.kt = b.kt := by
    have := h (fun _ => 0)
    simpa [eval, evalT_zero] using this
  have hv : a.vars = b.vars := evalT_unique ha.1 hb.1 ha.2 hb.2 (fun x => by have := h x; simp only [eval, hk] at this; exact add_right_cancel this)
  cases a; cases b; simp only at hk hv; rw [hk, hv]

example : Lin.Canon ⟨[(1, 2), (4, -1)], 3⟩ ∧ Lin.Canon ⟨[(1, 1), (4, 1)], 0⟩ ∧
    (Lin.addAssign ⟨[(1, 2), (4, -1)], 3⟩ ⟨[(1, 1), (4, 1)], 0⟩) = ⟨[(1, 3)], 3⟩ := by
  refine ⟨⟨by simp [Lin.Sorted], by simp⟩, ⟨by simp [Lin.Sorted], by simp⟩, ?_⟩
  norm_num [Lin.addAssign, Lin.addTerms, Lin.addTerm]

/-- `a * 0` (unlike `a *= 0`) keeps zero coefficients. -/
theorem C26_mul_zero_not_canonical : ¬ ((Lin.ofVar 1 1).mul 0).Canon := by
  rintro ⟨-, h⟩
  exact h (1, 0) (by simp [Lin.mul, Lin.ofVar]) rfl

end Semitone
