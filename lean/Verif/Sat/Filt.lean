import Verif.Sat.WF
import Verif.Sat.Key

/-!
# The filtering loops of the constraint constructors
-/
namespace Semitone
namespace Sat

theorem filt_some (stop : Bool) (val : Lit → Option Bool) : ∀ (ls : List Lit) (p : Option Lit) (out : List Lit),
    ls.Pairwise (fun a b => a.var ≤ b.var) → (∀ q, p = some q → ∀ l ∈ ls, q.var ≤ l.var) → filt stop val p ls = some out →
    (∀ l ∈ out, l ∈ ls ∧ val l = none) ∧ (∀ l ∈ ls, l ∈ out ∨ val l = some (!stop) ∨ some l = p) ∧
    out.Pairwise (fun a b => a.var < b.var) ∧ (∀ q, p = some q → ∀ l ∈ out, q.var < l.var) := by
  intro ls
  induction ls with
  | nil => intro p out _ _ h; simp [filt] at h; subst h; simp
  | cons x ls ih =>
    intro p out hs hp h
    rw [List.pairwise_cons] at hs
    simp only [filt] at h
    by_cases h1 : val x = some stop ∨ some x = p.map Lit.neg
    · rw [if_pos h1] at h; cases h
    · rw [if_neg h1] at h
      rw [not_or] at h1
      by_cases h2 : val x ≠ some (!stop) ∧ some x ≠ p
      · rw [if_pos h2] at h
        match h3 : filt stop val (some x) ls with
        | none => simp [h3] at h
        | some out' =>
          simp only [h3, Option.map_some, Option.some.injEq] at h
          subst h
          obtain ⟨a, b, c, d⟩ := ih (some x) out' hs.2 (by intro q hq; cases hq; exact hs.1) h3
          have hv : val x = none := by
            have e1 := h1.1; have e2 := h2.1
            cases hx : val x with
            | none => rfl
            | some v => rw [hx] at e1 e2; cases v <;> cases stop <;> simp at e1 e2
          have hlt : ∀ q, p = some q → q.var < x.var := by
            intro q hq
            have h4 := hp q hq x (by simp)
            rcases Nat.lt_or_ge q.var x.var with h5 | h5
            · exact h5
            · exfalso
              have e : x.var = q.var := by omega
              rcases Lit.eq_or_neg e with e | e
              · exact h2.2 (by rw [hq, e])
              · exact h1.2 (by rw [hq, e]; rfl)
          refine ⟨?_, ?_, ?_, ?_⟩
          · intro l hl
            rcases List.mem_cons.1 hl with rfl | hl
            · exact ⟨by simp, hv⟩
            · exact ⟨by simp [(a l hl).1], (a l hl).2⟩
          · intro l hl
            rcases List.mem_cons.1 hl with rfl | hl
            · left; simp
            · rcases b l hl with h5 | h5 | h5
              · left; simp [h5]
              · right; left; exact h5
              · left; injection h5 with h5; simp [h5]
          · rw [List.pairwise_cons]; exact ⟨d x rfl, c⟩
          · intro q hq l hl
            rcases List.mem_cons.1 hl with rfl | hl
            · exact hlt q hq
            · exact Nat.lt_trans (hlt q hq) (d x rfl l hl)
      · rw [if_neg h2] at h
        obtain ⟨a, b, c, d⟩ := ih p out hs.2 (fun q hq l hl => hp q hq l (by simp [hl])) h
        refine ⟨fun l hl => ⟨by simp [(a l hl).1], (a l hl).2⟩, ?_, c, d⟩
        intro l hl
        rcases List.mem_cons.1 hl with rfl | hl
        · right
          by_cases h5 : val l = some (!stop)
          · exact Or.inl h5
          · right
            by_contra h6
            exact h2 ⟨h5, h6⟩
        · exact b l hl

theorem filt_none (stop : Bool) (val : Lit → Option Bool) : ∀ (ls : List Lit) (p : Option Lit), filt stop val p ls = none →
    ∃ l ∈ ls, val l = some stop ∨ l.neg ∈ ls ∨ p = some l.neg := by
  intro ls
  induction ls with
  | nil => intro p h; simp [filt] at h
  | cons x ls ih =>
    intro p h
    simp only [filt] at h
    by_cases h1 : val x = some stop ∨ some x = p.map Lit.neg
    · refine ⟨x, by simp, ?_⟩
      rcases h1 with h1 | h1
      · exact Or.inl h1
      · right; right
        cases p with
        | none => cases h1
        | some q => simp at h1; rw [h1]; simp
    · rw [if_neg h1] at h
      by_cases h2 : val x ≠ some (!stop) ∧ some x ≠ p
      · rw [if_pos h2] at h
        simp only [Option.map_eq_none_iff] at h
        obtain ⟨l, hl, h3⟩ := ih _ h
        refine ⟨l, by simp [hl], ?_⟩
        rcases h3 with h3 | h3 | h3
        · exact Or.inl h3
        · exact Or.inr (Or.inl (by simp [h3]))
        · injection h3 with h3; exact Or.inr (Or.inl (by simp [h3]))
      · rw [if_neg h2] at h
        obtain ⟨l, hl, h3⟩ := ih _ h
        refine ⟨l, by simp [hl], ?_⟩
        rcases h3 with h3 | h3 | h3
        · exact Or.inl h3
        · exact Or.inr (Or.inl (by simp [h3]))
        · exact Or.inr (Or.inr h3)

/-- The filter applied to the whole sorted input. -/
theorem filt_sorted (E : Env) (stop : Bool) (val : Lit → Option Bool) (lits out : List Lit)
    (h : filt stop val none (E.sortVar lits) = some out) :
    (∀ l ∈ out, l ∈ lits ∧ val l = none) ∧ (∀ l ∈ lits, l ∈ out ∨ val l = some (!stop)) ∧ out.Pairwise (fun a b => a.var < b.var) := by
  obtain ⟨a, b, c, -⟩ := filt_some stop val _ none out (E.sortVar_sorted lits) (by simp) h
  have hm := fun l => (E.sortVar_perm lits).mem_iff (a := l)
  refine ⟨fun l hl => ⟨(hm l).1 (a l hl).1, (a l hl).2⟩, fun l hl => ?_, c⟩
  rcases b l ((hm l).2 hl) with h1 | h1 | h1
  · exact Or.inl h1
  · exact Or.inr h1
  · cases h1

theorem filt_sorted_none (E : Env) (stop : Bool) (val : Lit → Option Bool) (lits : List Lit)
    (h : filt stop val none (E.sortVar lits) = none) : ∃ l ∈ lits, val l = some stop ∨ l.neg ∈ lits := by
  have hm := fun l => (E.sortVar_perm lits).mem_iff (a := l)
  obtain ⟨l, hl, h1⟩ := filt_none stop val _ none h
  refine ⟨l, (hm l).1 hl, ?_⟩
  rcases h1 with h1 | h1 | h1
  · exact Or.inl h1
  · exact Or.inr ((hm _).1 h1)
  · cases h1

theorem strict_nodup {l : List Lit} (h : l.Pairwise (fun a b => a.var < b.var)) : l.Nodup :=
  h.imp (fun h e => by rw [e] at h; omega)

theorem strict_no_neg {l : List Lit} (h : l.Pairwise (fun a b => a.var < b.var)) {x : Lit} (hx : x ∈ l) : x.neg ∉ l := by
  intro hn
  induction l with
  | nil => cases hx
  | cons y l ih =>
    rw [List.pairwise_cons] at h
    rcases List.mem_cons.1 hx with rfl | hx
    · rcases List.mem_cons.1 hn with hn | hn
      · exact Lit.neg_ne _ hn
      · have := h.1 _ hn; simp at this
    · rcases List.mem_cons.1 hn with hn | hn
      · have := h.1 x hx; rw [← hn] at this; simp at this
      · exact ih h.2 hx hn

/-- What the filter of `new_at_most_one` keeps when no literal is true. -/
theorem amoFilt_some (val : Lit → Option Bool) : ∀ (ls : List Lit) (p : Option Lit), (∀ l ∈ ls, val l ≠ some true) →
    ∃ out, amoFilt val p ls = some out ∧ out.Sublist ls ∧ (∀ l ∈ out, val l = none) ∧
      (∀ l ∈ ls, l ∈ out ∨ val l = some false ∨ some l = p) := by
  intro ls
  induction ls with
  | nil => intro p _; exact ⟨[], rfl, by simp, by simp, by simp⟩
  | cons x ls ih =>
    intro p hv
    have hx := hv x (by simp)
    simp only [amoFilt]
    rw [if_neg hx]
    by_cases h2 : val x ≠ some false ∧ some x ≠ p
    · rw [if_pos h2]
      obtain ⟨out, h, a, b, c⟩ := ih (some x) (fun l hl => hv l (by simp [hl]))
      refine ⟨x :: out, by rw [h]; rfl, a.cons_cons x, ?_, ?_⟩
      · intro l hl
        rcases List.mem_cons.1 hl with rfl | hl
        · cases hx2 : val l with
          | none => rfl
          | some v => rw [hx2] at hx h2; cases v <;> simp at hx h2
        · exact b l hl
      · intro l hl
        rcases List.mem_cons.1 hl with rfl | hl
        · left; simp
        · rcases c l hl with h3 | h3 | h3
          · left; simp [h3]
          · right; left; exact h3
          · left; injection h3 with h3; simp [h3]
    · rw [if_neg h2]
      obtain ⟨out, h, a, b, c⟩ := ih p (fun l hl => hv l (by simp [hl]))
      refine ⟨out, h, a.cons x, b, ?_⟩
      intro l hl
      rcases List.mem_cons.1 hl with rfl | hl
      · right
        by_cases h5 : val l = some false
        · exact Or.inl h5
        · right; by_contra h6; exact h2 ⟨h5, h6⟩
      · exact c l hl

end Sat
end Semitone
