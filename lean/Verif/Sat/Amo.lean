import Verif.Sat.Reify
import Mathlib.Tactic.Ring
import Mathlib.Tactic.Linarith

/-!
# `new_at_most_one` and `new_exct_one`
-/
namespace Semitone
namespace Sat
variable {T : Type}

/-! ### the filter -/

theorem filt_sublist (stop : Bool) (val : Lit → Option Bool) : ∀ (ls : List Lit) (p : Option Lit) (out : List Lit),
    filt stop val p ls = some out → out.Sublist ls ∧ ∀ l ∈ out, val l = none := by
  intro ls
  induction ls with
  | nil => intro p out h; simp [filt] at h; subst h; simp
  | cons x ls ih =>
    intro p out h
    simp only [filt] at h
    split at h
    · cases h
    · rename_i h1
      split at h
      · rename_i h2
        cases hx : filt stop val (some x) ls with
        | none => rw [hx] at h; cases h
        | some o =>
          rw [hx] at h
          simp at h; subst h
          obtain ⟨a, b⟩ := ih _ _ hx
          refine ⟨a.cons_cons x, ?_⟩
          intro l hl
          rcases List.mem_cons.1 hl with rfl | hl
          · cases hv : val l with
            | none => rfl
            | some v =>
              exfalso
              rw [hv] at h1 h2
              simp at h1 h2
              cases v <;> cases stop <;> simp_all
          · exact b l hl
      · obtain ⟨a, b⟩ := ih _ _ h
        exact ⟨a.cons x, b⟩

theorem amoFilt_sublist (val : Lit → Option Bool) : ∀ (ls : List Lit) (p : Option Lit) (out : List Lit),
    amoFilt val p ls = some out → out.Sublist ls ∧ ∀ l ∈ out, val l = none := by
  intro ls
  induction ls with
  | nil => intro p out h; simp [amoFilt] at h; subst h; simp
  | cons x ls ih =>
    intro p out h
    simp only [amoFilt] at h
    split at h
    · obtain ⟨a, b⟩ := filt_sublist _ _ _ _ _ h
      exact ⟨a.cons x, b⟩
    · rename_i h1
      split at h
      · rename_i h2
        cases hx : amoFilt val (some x) ls with
        | none => rw [hx] at h; cases h
        | some o =>
          rw [hx] at h
          simp at h; subst h
          obtain ⟨a, b⟩ := ih _ _ hx
          refine ⟨a.cons_cons x, ?_⟩
          intro l hl
          rcases List.mem_cons.1 hl with rfl | hl
          · cases hv : val l with
            | none => rfl
            | some v => rw [hv] at h1 h2; cases v <;> simp at h1 h2
          · exact b l hl
      · obtain ⟨a, b⟩ := ih _ _ h
        exact ⟨a.cons x, b⟩

/-- A literal that does not occur together with its complement is kept at most once. -/
theorem amoFilt_once (val : Lit → Option Bool) (l : Lit) : ∀ (ls : List Lit) (out : List Lit),
    ls.Pairwise (fun a b => a.var ≤ b.var) → (∀ m ∈ ls, l.var ≤ m.var) → (l ∈ ls → l.neg ∉ ls) → (∀ m ∈ ls, val m ≠ some true) →
    amoFilt val (some l) ls = some out → l ∉ out := by
  intro ls
  induction ls with
  | nil => intro out _ _ _ _ h; simp [amoFilt] at h; subst h; simp
  | cons x ls ih =>
    intro out hs hm hc hv h
    rw [List.pairwise_cons] at hs
    by_cases e : x = l
    · subst e
      simp only [amoFilt] at h
      rw [if_neg (hv x (by simp)), if_neg (by simp)] at h
      exact ih out hs.2 (fun m hm' => hm m (by simp [hm'])) (fun _ hn => hc (by simp) (by simp [hn])) (fun m hm' => hv m (by simp [hm'])) h
    · have hsub := (amoFilt_sublist _ _ _ _ h).1
      intro hl
      have hl' := hsub.subset hl
      by_cases e2 : x.var = l.var
      · have : x = l.neg := by
          obtain ⟨v, b⟩ := x; obtain ⟨w, c⟩ := l
          simp at e2; subst e2
          simp [Lit.neg] at e ⊢
          cases b <;> cases c <;> simp_all
        exact hc hl' (by simp [this])
      · have h1 := hm x (by simp)
        rcases List.mem_cons.1 hl' with h2 | h2
        · exact e h2.symm
        · have := hs.1 l h2; omega

theorem amoFilt_nodup (val : Lit → Option Bool) : ∀ (ls : List Lit) (p : Option Lit) (out : List Lit),
    ls.Pairwise (fun a b => a.var ≤ b.var) → (∀ l ∈ ls, l.neg ∈ ls → ls.count l ≤ 1) → (∀ m ∈ ls, val m ≠ some true) →
    amoFilt val p ls = some out → out.Nodup := by
  intro ls
  induction ls with
  | nil => intro p out _ _ _ h; simp [amoFilt] at h; subst h; simp
  | cons x ls ih =>
    intro p out hs hc hv h
    have hs' := hs
    rw [List.pairwise_cons] at hs
    have hc' : ∀ l ∈ ls, l.neg ∈ ls → ls.count l ≤ 1 := by
      intro l hl hn
      have := hc l (by simp [hl]) (by simp [hn])
      rw [List.count_cons] at this; omega
    have hv' : ∀ m ∈ ls, val m ≠ some true := fun m hm => hv m (by simp [hm])
    simp only [amoFilt] at h
    rw [if_neg (hv x (by simp))] at h
    split at h
    · cases hx : amoFilt val (some x) ls with
      | none => rw [hx] at h; cases h
      | some o =>
        rw [hx] at h
        simp at h; subst h
        rw [List.nodup_cons]
        refine ⟨?_, ih _ _ hs.2 hc' hv' hx⟩
        refine amoFilt_once val x ls o hs.2 hs.1 ?_ hv' hx
        intro h1 h2
        have h3 := hc x (by simp) (by simp [h2])
        rw [List.count_cons_self] at h3
        have := List.count_pos_iff.2 h1
        omega
    · exact ih _ _ hs.2 hc' hv' h

/-! ### sizes of the product encoding -/

theorem ceilSqrt_go (n : Nat) : ∀ f k, n ≤ (k + f) * (k + f) → (∀ j, j < k → j * j < n) →
    n ≤ ceilSqrt.go n f k * ceilSqrt.go n f k ∧ ∀ j, j < ceilSqrt.go n f k → j * j < n := by
  intro f
  induction f with
  | zero => intro k h1 h2; exact ⟨by simpa [ceilSqrt.go] using h1, by simpa [ceilSqrt.go] using h2⟩
  | succ f ih =>
    intro k h1 h2
    simp only [ceilSqrt.go]
    split
    · rename_i h; exact ⟨h, h2⟩
    · rename_i h
      apply ih
      · rw [show k + 1 + f = k + (f + 1) by omega]; exact h1
      · intro j hj
        rcases Nat.lt_succ_iff_lt_or_eq.1 hj with h3 | h3
        · exact h2 j h3
        · subst h3; omega

theorem ceilSqrt_spec (n : Nat) : n ≤ ceilSqrt n * ceilSqrt n ∧ ∀ j, j < ceilSqrt n → j * j < n := by
  apply ceilSqrt_go
  · simpa using Nat.le_mul_self n
  · intro j hj; omega

/-- Sizes of the grid for `n ≥ 4` literals. -/
theorem grid_size {n : Nat} (h : 4 ≤ n) : 2 ≤ ceilSqrt n ∧ ceilSqrt n < n ∧ 2 ≤ (n + ceilSqrt n - 1) / ceilSqrt n ∧
    (n + ceilSqrt n - 1) / ceilSqrt n < n ∧ n ≤ (n + ceilSqrt n - 1) / ceilSqrt n * ceilSqrt n := by
  obtain ⟨h1, h2⟩ := ceilSqrt_spec n
  generalize ceilSqrt n = p at h1 h2
  have hp2 : 2 ≤ p := by
    by_contra hlt
    have : p = 0 ∨ p = 1 := by omega
    rcases this with rfl | rfl <;> omega
  have hpn : p < n := by
    by_contra hge
    have := h2 (n - 1) (by omega)
    obtain ⟨m, rfl⟩ : ∃ m, n = m + 2 := ⟨n - 2, by omega⟩
    have e : m + 2 - 1 = m + 1 := by omega
    rw [e] at this
    nlinarith
  refine ⟨hp2, hpn, ?_, ?_, ?_⟩
  · rw [Nat.le_div_iff_mul_le (by omega)]; omega
  · rw [Nat.div_lt_iff_lt_mul (by omega)]
    have : n * 2 ≤ n * p := Nat.mul_le_mul_left n hp2
    omega
  · have := Nat.div_add_mod (n + p - 1) p
    have hm := Nat.mod_lt (n + p - 1) (show 0 < p by omega)
    rw [Nat.mul_comm] at this
    omega

/-! ### fresh variables -/

theorem newVars_spec {O : TheoryOps T} {C : Contract O} : ∀ (n : Nat) (s : Sat T), s.Inv C →
    ∃ s', newVars n s = (s', (List.range n).map (fun i => ⟨s.nvars + i, true⟩)) ∧ Defd C s s' ∧ s'.nvars = s.nvars + n ∧
      s'.posted = s.posted ∧ s'.assigns = s.assigns ∧ s'.propQ = s.propQ ∧ s'.dead = s.dead ∧
      (∀ ls r, (key .amo ls, r) ∈ s'.exprs → (key .amo ls, r) ∈ s.exprs) := by
  intro n
  induction n with
  | zero => intro s h; exact ⟨s, rfl, Defd.refl h, rfl, rfl, rfl, rfl, rfl, fun _ _ h => h⟩
  | succ n ih =>
    intro s h
    obtain ⟨a, b, c, d, e, f, g, i, j, kb, l, m⟩ := newVar_spec h
    obtain ⟨s', h1, h2, h3, h4, h5, h6, h7, h8⟩ := ih s.newVar.1 a
    refine ⟨s', ?_, (newVar_defd h).trans h2, by rw [h3, d]; omega, h4.trans f, h5.trans i, h6.trans j, h7.trans g, ?_⟩
    · simp only [newVars, h1]
      rw [c, d]
      congr 1
      rw [List.range_succ_eq_map, List.map_cons, List.map_map]
      congr 1
      apply List.map_congr_left
      intro x _
      simp; omega
    · intro ls r hm
      have := h8 ls r hm
      rw [l] at this
      rcases List.mem_cons.1 this with h9 | h9
      · injection h9 with h10; exact absurd h10 (key_ne_var _ _ _)
      · exact h9

/-- `new_conj` adds no key of an at-most-one. -/
theorem newConj_keys {E : Env} {O : TheoryOps T} {C : Contract O} {s s' : Sat T} {ls : List Lit} {r : Lit} (h : s.Inv C)
    (hc : s.newConj E ls = .ok (s', r)) : ∀ ms q, (key .amo ms, q) ∈ s'.exprs → (key .amo ms, q) ∈ s.exprs := by
  intro ms q hm
  unfold newConj at hc
  split at hc
  · cases hc
  split at hc
  · cases hc
  rename_i hroot hin
  have hroot' : s.root = true := by simpa using hroot
  split at hc
  · injection hc with hc; injection hc with h1 h2; subst h1; exact hm
  · injection hc with hc; injection hc with h1 h2; subst h1; exact hm
  · injection hc with hc; injection hc with h1 h2; subst h1; exact hm
  · rename_i out hne1 hne2 hf
    split at hc
    · injection hc with hc; injection hc with h1 h2; subst h1; exact hm
    · have hnv : s.newVar.2 = s.nvars := (newVar_spec h).2.2.1
      obtain ⟨a, b, c, d, e, f, g, i, j, kb, l, m⟩ := newVar_spec h
      simp only [hnv] at hc
      unfold define at hc
      split at hc
      · cases hc
      · rename_i s1 hp
        obtain ⟨a1, a2, a3⟩ := filt_sorted E _ _ _ _ hf
        obtain ⟨s2, b2, hp2, k2⟩ := postAll_spec (E := E) (List.map (fun l => [Lit.neg ⟨s.nvars, true⟩, l]) out ++ [⟨s.nvars, true⟩ :: out.map Lit.neg]) s.newVar.1 a (by rw [b.root]; exact hroot') (by
          have hr := inRange_true hin
          intro c hc l hl
          rw [d]
          simp only [List.mem_append, List.mem_map, List.mem_singleton] at hc
          rcases hc with ⟨x, hx, rfl⟩ | rfl
          · simp at hl
            rcases hl with rfl | rfl
            · exact Nat.lt_succ_self _
            · exact Nat.lt_succ_of_lt (hr _ (a1 _ hx).1)
          · rcases List.mem_cons.1 hl with rfl | hl
            · exact Nat.lt_succ_self _
            · rw [List.mem_map] at hl
              obtain ⟨x, hx, rfl⟩ := hl
              exact Nat.lt_succ_of_lt (hr x (a1 x hx).1))
        rw [hp] at hp2
        injection hp2 with hp2; injection hp2 with e1 e2; subst e1
        injection hc with hc; injection hc with e3 e4; subst e3
        rw [k2.exprs, l] at hm
        rcases List.mem_cons.1 hm with h9 | h9
        · injection h9 with h10; exact absurd h10 (key_ne_var _ _ _)
        · exact h9
      · rename_i s1 hp
        obtain ⟨a1, a2, a3⟩ := filt_sorted E _ _ _ _ hf
        obtain ⟨s2, b2, hp2, k2⟩ := postAll_spec (E := E) (List.map (fun l => [Lit.neg ⟨s.nvars, true⟩, l]) out ++ [⟨s.nvars, true⟩ :: out.map Lit.neg]) s.newVar.1 a (by rw [b.root]; exact hroot') (by
          have hr := inRange_true hin
          intro c hc l hl
          rw [d]
          simp only [List.mem_append, List.mem_map, List.mem_singleton] at hc
          rcases hc with ⟨x, hx, rfl⟩ | rfl
          · simp at hl
            rcases hl with rfl | rfl
            · exact Nat.lt_succ_self _
            · exact Nat.lt_succ_of_lt (hr _ (a1 _ hx).1)
          · rcases List.mem_cons.1 hl with rfl | hl
            · exact Nat.lt_succ_self _
            · rw [List.mem_map] at hl
              obtain ⟨x, hx, rfl⟩ := hl
              exact Nat.lt_succ_of_lt (hr x (a1 x hx).1))
        rw [hp] at hp2
        injection hp2 with hp2; injection hp2 with e1 e2; subst e1
        injection hc with hc; injection hc with e3 e4; subst e3
        rcases List.mem_cons.1 hm with h8 | hm
        · injection h8 with h8
          have : key .amo ms = key .conj out := h8
          exact absurd (key_inj this).1 (by decide)
        rw [k2.exprs, l] at hm
        rcases List.mem_cons.1 hm with h9 | h9
        · injection h9 with h10; exact absurd h10 (key_ne_var _ _ _)
        · exact h9

/-! ### new_at_most_one -/

/-- No two positions of the list are both true. -/
def Alone (α : Asg) (ls : List Lit) : Prop := ls.Pairwise (fun x y => ¬ (α.sat x ∧ α.sat y))

theorem Alone.amo {α : Asg} {ls : List Lit} (h : Alone α ls) : α.atMostOne ls := by
  intro x hx y hy sx sy
  unfold Alone at h
  induction ls with
  | nil => cases hx
  | cons z ls ih =>
    rw [List.pairwise_cons] at h
    rcases List.mem_cons.1 hx with ex | hx2 <;> rcases List.mem_cons.1 hy with ey | hy2
    · rw [ex, ey]
    · exact absurd ⟨ex ▸ sx, sy⟩ (h.1 y hy2)
    · exact absurd ⟨ey ▸ sy, sx⟩ (h.1 x hx2)
    · exact ih h.2 hx2 hy2

theorem Alone.of_amo {α : Asg} {ls : List Lit} (hn : ls.Nodup) (h : α.atMostOne ls) : Alone α ls := by
  unfold Alone
  induction ls with
  | nil => simp
  | cons z ls ih =>
    rw [List.nodup_cons] at hn
    rw [List.pairwise_cons]
    refine ⟨?_, ih hn.2 (fun x hx y hy => h x (by simp [hx]) y (by simp [hy]))⟩
    rintro y hy ⟨sz, sy⟩
    exact hn.1 (by rw [h z (by simp) y (by simp [hy]) sz sy]; exact hy)

theorem agree_alone {n : Nat} {α β : Asg} (h : Asg.agree n α β) {c : List Lit} (hl : ∀ l ∈ c, l.var < n) (ha : Alone α c) : Alone β c := by
  unfold Alone at *
  refine ha.imp_of_mem ?_
  rintro x y hx hy hn ⟨sx, sy⟩
  exact hn ⟨(agree_sat h (hl x hx)).2 sx, (agree_sat h (hl y hy)).2 sy⟩

theorem mem_pairs {a b : Lit} : ∀ {ls : List Lit}, (a, b) ∈ pairs ls → a ∈ ls ∧ b ∈ ls := by
  intro ls
  induction ls with
  | nil => intro h; simp [pairs] at h
  | cons x ls ih =>
    intro h
    simp only [pairs, List.mem_append, List.mem_map] at h
    rcases h with ⟨m, hm, e⟩ | h
    · injection e with e1 e2; subst e1 e2; simp [hm]
    · have := ih h; simp [this.1, this.2]

theorem pairs_alone (α : Asg) : ∀ ls : List Lit, (∀ p ∈ pairs ls, ¬ (α.sat p.1 ∧ α.sat p.2)) ↔ Alone α ls := by
  intro ls
  unfold Alone
  induction ls with
  | nil => simp [pairs]
  | cons x ls ih =>
    rw [List.pairwise_cons, ← ih]
    simp only [pairs, List.mem_append, List.mem_map]
    constructor
    · intro h
      exact ⟨fun y hy => h (x, y) (Or.inl ⟨y, hy, rfl⟩), fun p hp => h p (Or.inr hp)⟩
    · rintro ⟨h1, h2⟩ p (⟨m, hm, rfl⟩ | hp)
      · exact h1 m hm
      · exact h2 p hp

/-- Result of `new_at_most_one` on the filtered literals `out`. -/
structure AmoRes {O : TheoryOps T} (C : Contract O) (s s' : Sat T) (r : Lit) (out : List Lit) : Prop where
  reif : Reifies C s s' r (fun r α => α.sat r → α.atMostOne out)
  keys : ∀ ls q, (key .amo ls, q) ∈ s'.exprs → (key .amo ls, q) ∈ s.exprs ∨ ls = out ∨ ∃ l ∈ ls, s.nvars ≤ l.var
  fresh : 2 ≤ out.length → s.findExpr (key .amo out) = none →
    (s.Local C.Th → ∀ α, s.Sol C.Th α → ∀ b : Bool, (b = true → Alone α out) →
    ∃ β, Asg.agree s.nvars α β ∧ s'.Sol C.Th β ∧ (β.sat r ↔ b = true)) ∧
    (∀ α, s'.Sol C.Th α → α.sat r → Alone α out)

theorem amo_small {E : Env} {O : TheoryOps T} {C : Contract O} {s : Sat T} {out : List Lit} (h : s.Inv C) (hr : s.root = true)
    (hv : ∀ l ∈ out, l.var < s.nvars) (hn : ∀ l ∈ out, s.value l = none) (hfe : s.findExpr (key .amo out) = none) :
    ∃ s' r, define E s.newVar.1 (key .amo out) ⟨s.nvars, true⟩
        ((pairs out).map (fun (a, b) => [a.neg, b.neg, Lit.neg ⟨s.nvars, true⟩])) = .ok (s', r) ∧ AmoRes C s s' r out := by
  have base : ∀ P : Asg → Prop, (∀ α β, Asg.agree s.nvars α β → (P α ↔ P β)) → (∀ α, P α → Alone α out) →
      ∃ s', define E s.newVar.1 (key .amo out) ⟨s.nvars, true⟩
        ((pairs out).map (fun (a, b) => [a.neg, b.neg, Lit.neg ⟨s.nvars, true⟩])) = .ok (s', ⟨s.nvars, true⟩) ∧
        Reifies C s s' ⟨s.nvars, true⟩ (fun r α => α.sat r → Alone α out) ∧
      (s.Local C.Th → ∀ α, s.Sol C.Th α → ∃ β, Asg.agree s.nvars α β ∧ s'.Sol C.Th β ∧ (β.sat ⟨s.nvars, true⟩ ↔ P α)) ∧
      s'.nvars = s.nvars + 1 ∧ s'.exprs = (key .amo out, ⟨s.nvars, true⟩) :: ("b" ++ toString s.nvars, ⟨s.nvars, true⟩) :: s.exprs := by
    intro P hP1 hP2
    refine reify_fresh h hr hv ?_ ?_ hP1 ?_ (fun α hα hs => hP2 α (hα.1 hs)) (fun α hα hs => (hα hs).amo)
    · intro c hc l hl
      rw [List.mem_map] at hc
      obtain ⟨⟨a, b⟩, hp, rfl⟩ := hc
      have := mem_pairs hp
      simp at hl
      rcases hl with rfl | rfl | rfl
      · exact Nat.le_of_lt (hv a this.1)
      · exact Nat.le_of_lt (hv b this.2)
      · exact Nat.le_refl _
    · intro c hc
      rw [List.mem_map] at hc
      obtain ⟨⟨a, b⟩, hp, rfl⟩ := hc
      have := mem_pairs hp
      refine ⟨Lit.neg ⟨s.nvars, true⟩, by simp, a.neg, by simp, rfl, hv a this.1, ?_⟩
      rw [value_neg, hn a this.1]; rfl
    · intro α
      rw [← pairs_alone]
      constructor
      · intro hc hs p hp hpp
        obtain ⟨l, hl, hls⟩ := hc _ (List.mem_map.2 ⟨p, hp, rfl⟩)
        simp at hl
        rcases hl with rfl | rfl | rfl
        · exact (α.sat_neg _).1 hls hpp.1
        · exact (α.sat_neg _).1 hls hpp.2
        · exact (α.sat_neg _).1 hls hs
      · intro hc c hcc
        rw [List.mem_map] at hcc
        obtain ⟨⟨a, b⟩, hp, rfl⟩ := hcc
        by_cases hs : α.sat ⟨s.nvars, true⟩
        · have := hc hs _ hp
          simp only [not_and_or] at this
          rcases this with h1 | h1
          · exact ⟨a.neg, by simp, (α.sat_neg _).2 h1⟩
          · exact ⟨b.neg, by simp, (α.sat_neg _).2 h1⟩
        · exact ⟨Lit.neg ⟨s.nvars, true⟩, by simp, (α.sat_neg _).2 hs⟩
  obtain ⟨s', h1, h2, h3, h4, h5⟩ := base (fun α => Alone α out)
    (fun α β hab => ⟨agree_alone hab hv, agree_alone (fun v hv => (hab v hv).symm) hv⟩) (fun _ h => h)
  obtain ⟨s'', g1, g2, g3, g4, g5⟩ := base (fun _ => False) (fun _ _ _ => Iff.rfl) (fun _ h => h.elim)
  rw [h1] at g1
  injection g1 with g1; injection g1 with g1 _; subst g1
  refine ⟨s', _, h1, ⟨h2.defd, h2.var, fun α hα hs => (h2.rel α hα hs).amo, h2.ext, h2.assigns, h2.propQ, h2.isDead⟩, ?_, ?_⟩
  · intro ls q hm
    rw [h5] at hm
    rcases List.mem_cons.1 hm with hm | hm
    · injection hm with hm
      exact Or.inr (Or.inl (key_inj hm).2)
    rcases List.mem_cons.1 hm with hm | hm
    · injection hm with h10; exact absurd h10 (key_ne_var _ _ _)
    · exact Or.inl hm
  · intro _ _
    refine ⟨?_, h2.rel⟩
    intro hL α hα b hb
    cases b with
    | true =>
      obtain ⟨β, b1, b2, b3⟩ := h3 hL α hα
      exact ⟨β, b1, b2, by rw [b3]; simp [hb rfl]⟩
    | false =>
      obtain ⟨β, b1, b2, b3⟩ := g3 hL α hα
      exact ⟨β, b1, b2, by rw [b3]; simp⟩

/-- What the recursion of `new_at_most_one` provides. -/
def AmoGen {O : TheoryOps T} (C : Contract O) (E : Env) (s s' : Sat T) (r : Lit) (ls : List Lit) : Prop :=
  (∀ out, amoFilt s.value none (E.sortVar ls) = some out → AmoRes C s s' r out) ∧
  (amoFilt s.value none (E.sortVar ls) = none → s' = s ∧ r = FALSE_lit)

/-- The call on fresh literals numbered `m, …, m + n - 1`. -/
theorem amo_fresh_call {E : Env} {O : TheoryOps T} {C : Contract O} {s s' : Sat T} {r : Lit} {m n : Nat} (hn : 2 ≤ n)
    (hun : ∀ i, i < n → s.assigns (m + i) = none)
    (hkey : ∀ ls q, (∃ l ∈ ls, ∃ i, i < n ∧ l = ⟨m + i, true⟩) → (∀ l ∈ ls, ∃ i, i < n ∧ l = ⟨m + i, true⟩) → (key .amo ls, q) ∉ s.exprs)
    (h : AmoGen C E s s' r ((List.range n).map (fun i => ⟨m + i, true⟩))) :
    Reifies C s s' r (fun r α => α.sat r → Alone α ((List.range n).map (fun i => ⟨m + i, true⟩))) ∧
    (∀ ls q, (key .amo ls, q) ∈ s'.exprs → (key .amo ls, q) ∈ s.exprs ∨ (ls ≠ [] ∧ ∀ l ∈ ls, ∃ i, i < n ∧ l = ⟨m + i, true⟩) ∨
      ∃ l ∈ ls, s.nvars ≤ l.var) ∧
    (s.Local C.Th → ∀ α, s.Sol C.Th α → ∀ b : Bool,
      (b = true → Alone α ((List.range n).map (fun i => ⟨m + i, true⟩))) →
      ∃ β, Asg.agree s.nvars α β ∧ s'.Sol C.Th β ∧ (β.sat r ↔ b = true)) := by
  generalize hu : ((List.range n).map (fun i => (⟨m + i, true⟩ : Lit))) = u at h
  have hmem : ∀ l, l ∈ u ↔ ∃ i, i < n ∧ l = ⟨m + i, true⟩ := by
    intro l; rw [← hu, List.mem_map]
    constructor
    · rintro ⟨i, hi, rfl⟩; exact ⟨i, by simpa using hi, rfl⟩
    · rintro ⟨i, hi, rfl⟩; exact ⟨i, by simpa using hi, rfl⟩
  have hund : u.Nodup := by
    rw [← hu]
    refine List.Pairwise.map _ ?_ List.nodup_range
    intro i j hij e
    simp at e; exact hij e
  have hval : ∀ l ∈ u, s.value l = none := by
    intro l hl
    obtain ⟨i, hi, rfl⟩ := (hmem l).1 hl
    rw [value_none]; exact hun i hi
  have hperm := E.sortVar_perm u
  obtain ⟨out, hout, hsub, ho1, ho2⟩ := amoFilt_some s.value (E.sortVar u) none (by
    intro l hl; rw [hval l (hperm.mem_iff.1 hl)]; simp)
  have hoeq : ∀ l, l ∈ out ↔ l ∈ u := by
    intro l
    constructor
    · intro hl; exact hperm.mem_iff.1 (hsub.subset hl)
    · intro hl
      rcases ho2 l (hperm.mem_iff.2 hl) with h1 | h1 | h1
      · exact h1
      · rw [hval l hl] at h1; cases h1
      · cases h1
  have hond : out.Nodup := (hperm.nodup_iff.2 hund).sublist hsub
  have hlen : out.length = n := by
    have h1 : out.Perm u := (List.perm_ext_iff_of_nodup hond hund).2 hoeq
    rw [h1.length_eq, ← hu]; simp
  have hA : ∀ α : Asg, Alone α out ↔ Alone α u := by
    intro α
    have h1 : α.atMostOne out ↔ α.atMostOne u := by
      unfold Asg.atMostOne; simp only [hoeq]
    exact ⟨fun h => Alone.of_amo hund (h1.1 h.amo), fun h => Alone.of_amo hond (h1.2 h.amo)⟩
  have R := h.1 out hout
  have hfe : s.findExpr (key .amo out) = none := by
    cases hx : s.findExpr (key .amo out) with
    | none => rfl
    | some q =>
      exfalso
      refine hkey out q ?_ ?_ (findExpr_mem hx)
      · refine ⟨⟨m + 0, true⟩, (hoeq _).2 ((hmem _).2 ⟨0, by omega, rfl⟩), 0, by omega, rfl⟩
      · intro l hl; exact (hmem l).1 ((hoeq l).1 hl)
  obtain ⟨f2, f3⟩ := R.fresh (by omega) hfe
  have hr := R.reif
  refine ⟨⟨hr.defd, hr.var, fun α hα hs => (hA α).1 (f3 α hα hs), hr.ext, hr.assigns, hr.propQ, hr.isDead⟩, ?_, ?_⟩
  · intro ls q hm
    rcases R.keys ls q hm with h1 | h1 | h1
    · exact Or.inl h1
    · right; left; subst h1
      refine ⟨?_, fun l hl => (hmem l).1 ((hoeq l).1 hl)⟩
      intro e; rw [e] at hlen; simp at hlen; omega
    · exact Or.inr (Or.inr h1)
  · intro hL α hα b hb
    exact f2 hL α hα b (fun h => (hA α).2 (hb h))

/-- Membership in the clauses of the grid. -/
theorem mem_grid {ls : List Lit} {m ps qs : Nat} {ctr : Lit} (hq : 0 < qs) (hsz : ls.length ≤ qs * ps) {c : List Lit} :
    c ∈ gridClauses ls ((List.range ps).map (fun i => ⟨m + i, true⟩)) ((List.range qs).map (fun i => ⟨m + ps + i, true⟩)) qs ctr ↔
      ∃ k l, ls[k]? = some l ∧ (c = [l.neg, ⟨m + k / qs, true⟩, ctr.neg] ∨ c = [l.neg, ⟨m + ps + k % qs, true⟩, ctr.neg]) := by
  unfold gridClauses
  simp only [List.mem_flatMap]
  have key : ∀ k l, ls[k]? = some l → k / qs < ps ∧ k % qs < qs := by
    intro k l hk
    have : k < ls.length := by
      by_contra h; rw [List.getElem?_eq_none (by omega)] at hk; cases hk
    exact ⟨Nat.div_lt_of_lt_mul (by omega), Nat.mod_lt _ hq⟩
  constructor
  · rintro ⟨⟨l, k⟩, hm, hc⟩
    have hk : ls[k]? = some l := List.mem_zipIdx_iff_getElem?.1 hm
    obtain ⟨k1, k2⟩ := key k l hk
    refine ⟨k, l, hk, ?_⟩
    simp [List.getElem?_map, List.getElem?_range, k1, k2] at hc
    exact hc
  · rintro ⟨k, l, hk, hc⟩
    obtain ⟨k1, k2⟩ := key k l hk
    refine ⟨(l, k), List.mem_zipIdx_iff_getElem?.2 hk, ?_⟩
    simp [List.getElem?_map, List.getElem?_range, k1, k2]
    exact hc

theorem alone_iff (α : Asg) (ls : List Lit) : Alone α ls ↔ ∀ (i j : Nat) (a b : Lit), ls[i]? = some a → ls[j]? = some b → α.sat a → α.sat b → i = j := by
  unfold Alone
  rw [List.pairwise_iff_getElem]
  constructor
  · intro h i j a b hi hj sa sb
    obtain ⟨hi1, rfl⟩ := List.getElem?_eq_some_iff.1 hi
    obtain ⟨hj1, rfl⟩ := List.getElem?_eq_some_iff.1 hj
    rcases Nat.lt_trichotomy i j with h1 | h1 | h1
    · exact absurd ⟨sa, sb⟩ (h i j hi1 hj1 h1)
    · exact h1
    · exact absurd ⟨sb, sa⟩ (h j i hj1 hi1 h1)
  · rintro h i j hi hj hij ⟨sa, sb⟩
    have := h i j _ _ (List.getElem?_eq_getElem hi) (List.getElem?_eq_getElem hj) sa sb
    omega

theorem alone_range (α : Asg) (m n : Nat) : Alone α ((List.range n).map (fun i => ⟨m + i, true⟩)) ↔
    ∀ i j, i < n → j < n → α (m + i) = true → α (m + j) = true → i = j := by
  rw [alone_iff]
  constructor
  · intro h i j hi hj h1 h2
    exact h i j ⟨m + i, true⟩ ⟨m + j, true⟩ (by simp [List.getElem?_map, List.getElem?_range, hi]) (by simp [List.getElem?_map, List.getElem?_range, hj]) h1 h2
  · intro h i j a b hi hj sa sb
    rw [List.getElem?_map, Option.map_eq_some_iff] at hi hj
    obtain ⟨i', hi', rfl⟩ := hi
    obtain ⟨j', hj', rfl⟩ := hj
    obtain ⟨hi1, hi2⟩ := List.getElem?_eq_some_iff.1 hi'
    obtain ⟨hj1, hj2⟩ := List.getElem?_eq_some_iff.1 hj'
    simp at hi1 hi2 hj1 hj2
    subst hi2 hj2
    exact h _ _ hi1 hj1 sa sb

set_option maxHeartbeats 800000 in
theorem amo_big {E : Env} {O : TheoryOps T} {C : Contract O} {s : Sat T} {out : List Lit} {f : Nat} (h : s.Inv C) (hr : s.root = true)
    (hv : ∀ l ∈ out, l.var < s.nvars) (hn : ∀ l ∈ out, s.value l = none) (hfe : s.findExpr (key .amo out) = none)
    (h4 : 4 ≤ out.length) (hf : out.length ≤ f)
    (ih : ∀ (s : Sat T) (ls : List Lit), s.Inv C → s.root = true → (∀ l ∈ ls, l.var < s.nvars) → ls.length < f →
      ∃ s' r, newAMOGo E f s ls = .ok (s', r) ∧ AmoGen C E s s' r ls) :
    ∃ s1 u s2 v s3 au s4 av s5 ctr s6, newVars (ceilSqrt out.length) s = (s1, u) ∧
      newVars ((out.length + ceilSqrt out.length - 1) / ceilSqrt out.length) s1 = (s2, v) ∧
      newAMOGo E f s2 u = .ok (s3, au) ∧ newAMOGo E f s3 v = .ok (s4, av) ∧ newConj E s4 [au, av] = .ok (s5, ctr) ∧
      define E s5 (key .amo out) ctr (gridClauses out u v ((out.length + ceilSqrt out.length - 1) / ceilSqrt out.length) ctr) = .ok (s6, ctr) ∧
      AmoRes C s s6 ctr out := by
  obtain ⟨p1, p2, q1, q2, q3⟩ := grid_size h4
  generalize ceilSqrt out.length = ps at *
  generalize (out.length + ps - 1) / ps = qs at *
  obtain ⟨s1, a1, a2, a3, a4, a5, a6, a7, a8⟩ := newVars_spec ps s h
  obtain ⟨s2, b1, b2, b3, b4, b5, b6, b7, b8⟩ := newVars_spec qs s1 a2.inv
  rw [a3] at b1
  have hr2 : s2.root = true := by rw [b2.rstep.root, a2.rstep.root]; exact hr
  have hn2 : s2.nvars = s.nvars + ps + qs := by rw [b3, a3]
  have hun : ∀ v, s.nvars ≤ v → s2.assigns v = none := by
    intro v hv
    rw [b5, a5]
    by_contra hx; have := h.wf.rng v hx; omega
  have hold : ∀ ls q, (key .amo ls, q) ∈ s2.exprs → ∀ l ∈ ls, l.var < s.nvars :=
    fun ls q hm => (h.cache _ _ _ (a8 _ _ (b8 _ _ hm))).1
  -- rows
  obtain ⟨s3, au, c1, c2⟩ := ih s2 ((List.range ps).map (fun i => ⟨s.nvars + i, true⟩)) b2.inv hr2 (by
    intro l hl; rw [List.mem_map] at hl; obtain ⟨i, hi, rfl⟩ := hl
    rw [List.mem_range] at hi; show s.nvars + i < _; omega) (by simp; omega)
  obtain ⟨R1, R3, R4⟩ := amo_fresh_call p1 (fun i _ => hun _ (by omega)) (by
    rintro ls q ⟨l, hl, i, hi, rfl⟩ _ hm
    have := hold ls q hm _ hl
    have : s.nvars + i < s.nvars := this
    omega) c2
  have hr3 : s3.root = true := by rw [R1.defd.rstep.root]; exact hr2
  have hn3 : s2.nvars ≤ s3.nvars := R1.defd.rstep.nv
  -- columns
  obtain ⟨s4, av, d1, d2⟩ := ih s3 ((List.range qs).map (fun i => ⟨s.nvars + ps + i, true⟩)) R1.defd.inv hr3 (by
    intro l hl; rw [List.mem_map] at hl; obtain ⟨i, hi, rfl⟩ := hl
    rw [List.mem_range] at hi; show s.nvars + ps + i < _; omega) (by simp; omega)
  obtain ⟨U1, U3, U4⟩ := amo_fresh_call q1 (fun i _ => by rw [R1.assigns]; exact hun _ (by omega)) (by
    rintro ls q ⟨l, hl, i, hi, rfl⟩ hall hm
    rcases R3 ls q hm with h1 | ⟨_, h1⟩ | ⟨l, hl', h1⟩
    · have := hold ls q h1 _ hl
      have : s.nvars + ps + i < s.nvars := this
      omega
    · obtain ⟨j, hj, e⟩ := h1 _ hl
      injection e with e _; omega
    · obtain ⟨j, hj, rfl⟩ := hall l hl'
      have : s2.nvars ≤ s.nvars + ps + j := h1
      omega) d2
  have hr4 : s4.root = true := by rw [U1.defd.rstep.root]; exact hr3
  have hn4 : s3.nvars ≤ s4.nvars := U1.defd.rstep.nv
  -- conjunction
  obtain ⟨s5, ctr, e1, V1⟩ := newConj_spec (E := E) (ls := [au, av]) U1.defd.inv hr4 (by
    intro l hl; simp at hl
    rcases hl with rfl | rfl
    · exact Nat.lt_of_lt_of_le R1.var hn4
    · exact U1.var)
  have e2 := newConj_keys U1.defd.inv e1
  have hr5 : s5.root = true := by rw [V1.defd.rstep.root]; exact hr4
  have hn5 : s4.nvars ≤ s5.nvars := V1.defd.rstep.nv
  have hass : s5.assigns = s.assigns := by rw [V1.assigns, U1.assigns, R1.assigns, b5, a5]
  have hsz : out.length ≤ qs * ps := q3
  have hq0 : 0 < qs := by omega
  -- the meaning of the grid
  have hmean : ∀ α : Asg, s5.Sol C.Th α → (∀ c ∈ gridClauses out ((List.range ps).map (fun i => ⟨s.nvars + i, true⟩)) ((List.range qs).map (fun i => ⟨s.nvars + ps + i, true⟩)) qs ctr, α.clause c) →
      α.sat ctr → Alone α out := by
    intro α hα hc hs
    have hall := (V1.rel α hα).1 hs
    have hu := R1.rel α (U1.defd.rstep.sol (V1.defd.rstep.sol hα)) (hall au (by simp))
    have hvv := U1.rel α (V1.defd.rstep.sol hα) (hall av (by simp))
    rw [alone_range] at hu hvv
    rw [alone_iff]
    intro i j a b hi hj sa sb
    have hin : ∀ (k : Nat) (l : Lit), out[k]? = some l → α.sat l → α (s.nvars + k / qs) = true ∧ α (s.nvars + ps + k % qs) = true := by
      intro k l hk sl
      constructor
      · obtain ⟨x, hx, sx⟩ := hc _ ((mem_grid hq0 hsz).2 ⟨k, l, hk, Or.inl rfl⟩)
        simp at hx
        rcases hx with rfl | rfl | rfl
        · exact absurd sl ((α.sat_neg _).1 sx)
        · exact sx
        · exact absurd hs ((α.sat_neg _).1 sx)
      · obtain ⟨x, hx, sx⟩ := hc _ ((mem_grid hq0 hsz).2 ⟨k, l, hk, Or.inr rfl⟩)
        simp at hx
        rcases hx with rfl | rfl | rfl
        · exact absurd sl ((α.sat_neg _).1 sx)
        · exact sx
        · exact absurd hs ((α.sat_neg _).1 sx)
    have hlt : ∀ (k : Nat) (l : Lit), out[k]? = some l → k / qs < ps ∧ k % qs < qs := by
      intro k l hk
      obtain ⟨h1, -⟩ := List.getElem?_eq_some_iff.1 hk
      exact ⟨Nat.div_lt_of_lt_mul (by omega), Nat.mod_lt _ hq0⟩
    have x1 := hu (i / qs) (j / qs) (hlt i a hi).1 (hlt j b hj).1 (hin i a hi sa).1 (hin j b hj sb).1
    have x2 := hvv (i % qs) (j % qs) (hlt i a hi).2 (hlt j b hj).2 (hin i a hi sa).2 (hin j b hj sb).2
    have y1 := Nat.div_add_mod i qs
    have y2 := Nat.div_add_mod j qs
    rw [x1, x2] at y1
    omega
  obtain ⟨s6, g1, g2, g3, g4, g5, g6, g7, g8⟩ := define_quiet (E := E) (k := .amo) (ls := out) (ctr := ctr)
    (cls := gridClauses out ((List.range ps).map (fun i => ⟨s.nvars + i, true⟩)) ((List.range qs).map (fun i => ⟨s.nvars + ps + i, true⟩)) qs ctr)
    V1.defd.inv hr5 (by
      intro c hc l hl
      obtain ⟨k, x, hk, hc⟩ := (mem_grid hq0 hsz).1 hc
      obtain ⟨hk1, hk2⟩ := List.getElem?_eq_some_iff.1 hk
      have hx := hv x (hk2 ▸ List.getElem_mem hk1)
      have hd1 : k / qs < ps := Nat.div_lt_of_lt_mul (by omega)
      have hd2 := Nat.mod_lt k hq0
      have hc2 := V1.var
      have hxn : x.neg.var = x.var := rfl
      have hcn : ctr.neg.var = ctr.var := rfl
      rcases hc with rfl | rfl <;> simp at hl <;> rcases hl with rfl | rfl | rfl <;> simp only [hxn, hcn] <;> omega) V1.var
    (by intro l hl; have := hv l hl; omega) (by
      intro c hc
      obtain ⟨k, x, hk, hc⟩ := (mem_grid hq0 hsz).1 hc
      obtain ⟨hk1, hk2⟩ := List.getElem?_eq_some_iff.1 hk
      have hxm : x ∈ out := hk2 ▸ List.getElem_mem hk1
      have hx := hv x hxm
      have hxv : s5.value x.neg = none := by
        rw [value_none, hass, Lit.neg_var, ← value_none]; exact hn x hxm
      rcases hc with rfl | rfl
      · refine ⟨x.neg, by simp, ⟨s.nvars + k / qs, true⟩, by simp, ?_, hxv, ?_⟩
        · exact Nat.ne_of_lt (Nat.lt_of_lt_of_le hx (Nat.le_add_right _ _))
        · rw [value_none, hass, ← a5, ← b5]; exact hun _ (Nat.le_add_right _ _)
      · refine ⟨x.neg, by simp, ⟨s.nvars + ps + k % qs, true⟩, by simp, ?_, hxv, ?_⟩
        · show x.var ≠ s.nvars + ps + k % qs; omega
        · rw [value_none, hass, ← a5, ← b5]; exact hun _ (by show s.nvars ≤ s.nvars + ps + k % qs; omega))
    (fun α hα hc hs => (hmean α hα hc hs).amo)
  have hD5 : Defd C s s5 := a2.trans (b2.trans (R1.defd.trans (U1.defd.trans V1.defd)))
  have hext : s.Local C.Th → ∀ α, s.Sol C.Th α → ∀ b : Bool, (b = true → Alone α out) →
      ∃ β, Asg.agree s.nvars α β ∧ s6.Sol C.Th β ∧ (β.sat ctr ↔ b = true) := by
    classical
    intro hL α hα b hb
    have hL2 := (hL.mono a2.rstep).mono b2.rstep
    have hL3 := hL2.mono R1.defd.rstep
    have hL4 := hL3.mono U1.defd.rstep
    -- rows and columns of the true literals
    obtain ⟨α1, hα1⟩ : ∃ α1 : Asg, α1 = fun x => if s.nvars ≤ x ∧ x < s.nvars + ps then decide (∃ k l, out[k]? = some l ∧ α.sat l ∧ x = s.nvars + k / qs)
      else if s.nvars + ps ≤ x then decide (∃ k l, out[k]? = some l ∧ α.sat l ∧ x = s.nvars + ps + k % qs) else α x := ⟨_, rfl⟩
    have hag1 : Asg.agree s.nvars α α1 := by
      intro x hx; rw [hα1]; simp only
      rw [if_neg (by omega), if_neg (by omega)]
    have hrow : ∀ i, i < ps → (α1 (s.nvars + i) = true ↔ ∃ k l, out[k]? = some l ∧ α.sat l ∧ i = k / qs) := by
      intro i hi; rw [hα1]; simp only
      rw [if_pos (by omega)]
      simp
    have hcol : ∀ i, α1 (s.nvars + ps + i) = true ↔ ∃ k l, out[k]? = some l ∧ α.sat l ∧ i = k % qs := by
      intro i; rw [hα1]; simp only
      rw [if_neg (by omega), if_pos (by omega)]
      simp
    have hS1 : s2.Sol C.Th α1 := by
      have := h.sol_agree hL hag1 hα
      exact ⟨this.1, by rw [b4, a4]; exact this.2.1, by rw [b2.rstep.th, a2.rstep.th]; exact this.2.2⟩
    obtain ⟨β1, x1, x2, x3⟩ := R4 hL2 α1 hS1 b (by
      intro hb'
      have hA := (alone_iff α out).1 (hb hb')
      rw [alone_range]
      intro i j hi hj h1 h2
      obtain ⟨k, l, k1, k2, k3⟩ := (hrow i hi).1 h1
      obtain ⟨k', l', k1', k2', k3'⟩ := (hrow j hj).1 h2
      have := hA k k' l l' k1 k1' k2 k2'
      rw [k3, k3', this])
    obtain ⟨β2, y1, y2, y3⟩ := U4 hL3 β1 x2 b (by
      intro hb'
      have hA := (alone_iff α out).1 (hb hb')
      rw [alone_range]
      intro i j hi hj h1 h2
      rw [← x1 _ (by omega)] at h1 h2
      obtain ⟨k, l, k1, k2, k3⟩ := (hcol i).1 h1
      obtain ⟨k', l', k1', k2', k3'⟩ := (hcol j).1 h2
      have := hA k k' l l' k1 k1' k2 k2'
      rw [k3, k3', this])
    obtain ⟨β3, z1, z2⟩ := V1.ext hL4 β2 y2
    have hag : Asg.agree s2.nvars α1 β3 := agree.trans (agree.trans x1 y1 hn3) z1 (by omega)
    have hag0 : Asg.agree s.nvars α β3 := agree.trans hag1 hag (by omega)
    have hctr : β3.sat ctr ↔ b = true := by
      rw [V1.rel β3 z2]
      have t1 : β3.sat au ↔ b = true := by
        rw [← agree_sat z1 (Nat.lt_of_lt_of_le R1.var hn4), ← agree_sat y1 R1.var]; exact x3
      have t2 : β3.sat av ↔ b = true := by
        rw [← agree_sat z1 U1.var]; exact y3
      simp [Asg.all, t1, t2]
    refine ⟨β3, hag0, ⟨z2.1, ?_, by rw [g2.rstep.th]; exact z2.2.2⟩, hctr⟩
    intro D hD
    rw [g4, List.mem_append, List.mem_reverse] at hD
    rcases hD with hD | hD
    · obtain ⟨k, l, hk, hD⟩ := (mem_grid hq0 hsz).1 hD
      obtain ⟨hk1, hk2⟩ := List.getElem?_eq_some_iff.1 hk
      have hlr := hv l (hk2 ▸ List.getElem_mem hk1)
      have hd1 : k / qs < ps := Nat.div_lt_of_lt_mul (by omega)
      have hd2 := Nat.mod_lt k hq0
      by_cases hs : β3.sat l
      · have hs' : α.sat l := (agree_sat hag0 hlr).2 hs
        rcases hD with rfl | rfl
        · refine ⟨⟨s.nvars + k / qs, true⟩, by simp, ?_⟩
          show β3 (s.nvars + k / qs) = true
          rw [← hag _ (by omega)]
          exact (hrow _ hd1).2 ⟨k, l, hk, hs', rfl⟩
        · refine ⟨⟨s.nvars + ps + k % qs, true⟩, by simp, ?_⟩
          show β3 (s.nvars + ps + k % qs) = true
          rw [← hag _ (by omega)]
          exact (hcol _).2 ⟨k, l, hk, hs', rfl⟩
      · refine ⟨l.neg, ?_, (β3.sat_neg l).2 hs⟩
        rcases hD with rfl | rfl <;> simp
    · exact z2.2.1 D hD
  refine ⟨s1, _, s2, _, s3, au, s4, av, s5, ctr, s6, a1, b1, c1, d1, e1, g1, ⟨hD5.trans g2, ?_, ?_, ?_, ?_, ?_, ?_⟩, ?_, ?_⟩
  · rw [g3]; exact V1.var
  · intro α hα hs
    refine (hmean α (g2.rstep.sol hα) ?_ hs).amo
    intro c hc; exact hα.2.1 c (by rw [g4]; simp [hc])
  · intro hL α hα
    obtain ⟨β, x1, x2, -⟩ := hext hL α hα false (by simp)
    exact ⟨β, x1, x2⟩
  · rw [g5, hass]
  · rw [g6, V1.propQ, U1.propQ, R1.propQ, b6, a6]
  · rw [g8, V1.isDead, U1.isDead, R1.isDead, b7, a7]
  · intro ls q hm
    rw [g7] at hm
    rcases List.mem_cons.1 hm with hm | hm
    · injection hm with hm; exact Or.inr (Or.inl (key_inj hm).2)
    · rcases U3 ls q (e2 ls q hm) with h1 | ⟨h1, h2⟩ | ⟨l, hl, h1⟩
      · rcases R3 ls q h1 with h1 | ⟨h1, h2⟩ | ⟨l, hl, h1⟩
        · exact Or.inl (a8 _ _ (b8 _ _ h1))
        · obtain ⟨l, hl⟩ := List.exists_mem_of_ne_nil _ h1
          obtain ⟨i, hi, e⟩ := h2 l hl
          exact Or.inr (Or.inr ⟨l, hl, by rw [e]; exact Nat.le_add_right _ _⟩)
        · exact Or.inr (Or.inr ⟨l, hl, by omega⟩)
      · obtain ⟨l, hl⟩ := List.exists_mem_of_ne_nil _ h1
        obtain ⟨i, hi, e⟩ := h2 l hl
        exact Or.inr (Or.inr ⟨l, hl, by rw [e]; show s.nvars ≤ s.nvars + ps + i; omega⟩)
      · exact Or.inr (Or.inr ⟨l, hl, by omega⟩)
  · intro _ _
    refine ⟨hext, ?_⟩
    intro α hα hs
    refine hmean α (g2.rstep.sol hα) ?_ hs
    intro c hc; exact hα.2.1 c (by rw [g4]; simp [hc])

/-- `new_at_most_one`: it terminates, and what it guarantees. -/
theorem newAMOGo_spec {E : Env} {O : TheoryOps T} {C : Contract O} : ∀ (f : Nat) (s : Sat T) (ls : List Lit), s.Inv C → s.root = true →
    (∀ l ∈ ls, l.var < s.nvars) → ls.length < f → ∃ s' r, newAMOGo E f s ls = .ok (s', r) ∧ AmoGen C E s s' r ls := by
  intro f
  induction f with
  | zero => intro s ls _ _ _ h; omega
  | succ f ih =>
    intro s ls h hr hv hf
    have hin : s.inRange ls = true := by simpa [inRange] using hv
    unfold newAMOGo AmoGen
    simp only [hr, hin, Bool.true_eq_false, if_false]
    match hfl : amoFilt s.value none (E.sortVar ls) with
    | none =>
      simp only
      exact ⟨s, _, rfl, by simp, fun _ => ⟨rfl, rfl⟩⟩
    | some [] =>
      simp only
      refine ⟨s, _, rfl, ?_, by simp⟩
      intro out e; injection e with e; subst e
      exact ⟨reifies_same h h.wf.nv (fun α _ _ => by simp [Asg.atMostOne]), fun _ _ h => Or.inl h, by simp⟩
    | some [x] =>
      simp only
      refine ⟨s, _, rfl, ?_, by simp⟩
      intro out e; injection e with e; subst e
      exact ⟨reifies_same h h.wf.nv (fun α _ _ => by simp [Asg.atMostOne]), fun _ _ h => Or.inl h, by simp⟩
    | some (x :: y :: rest) =>
      simp only
      obtain ⟨hs1, hs2⟩ := amoFilt_sublist _ _ _ _ hfl
      have hm : ∀ l ∈ x :: y :: rest, l.var < s.nvars := fun l hl => hv l ((E.sortVar_perm ls).mem_iff.1 (hs1.subset hl))
      have hl := hs1.length_le
      rw [(E.sortVar_perm ls).length_eq] at hl
      generalize hout : x :: y :: rest = out at *
      have hk : "amo" ++ litsStr out = key .amo out := rfl
      rw [hk]
      match hfe : s.findExpr (key .amo out) with
      | some q =>
        simp only
        refine ⟨s, q, rfl, ?_, by simp⟩
        intro out' e; injection e with e; subst e
        obtain ⟨c1, c2, c3⟩ := h.cache _ _ _ (findExpr_mem hfe)
        exact ⟨reifies_same h c2 c3, fun _ _ h => Or.inl h, by simp [hfe]⟩
      | none =>
        simp only
        by_cases h4 : out.length < 4
        · rw [if_pos h4]
          have hnv : s.newVar.2 = s.nvars := (newVar_spec h).2.2.1
          rw [hnv]
          obtain ⟨s', r, h1, h2⟩ := amo_small (E := E) h hr hm hs2 hfe
          refine ⟨s', r, h1, ?_, by simp⟩
          intro out' e; injection e with e; subst e
          exact h2
        · rw [if_neg h4]
          obtain ⟨s1, u, s2, v, s3, au, s4, av, s5, ctr, s6, g1, g2, g3, g4, g5, g6, g7⟩ := amo_big (E := E) (f := f) h hr hm hs2 hfe (by omega) (by omega) ih
          refine ⟨s6, ctr, ?_, ?_, by simp⟩
          · simp only [g1, g2, g3, g4, g5, g6]
          · intro out' e; injection e with e; subst e
            exact g7

end Sat
end Semitone
