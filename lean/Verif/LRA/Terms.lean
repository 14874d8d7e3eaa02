import Verif.LRA.Num
import Verif.Sat.WF

/-!
# Ordered lists of terms: look-up, removal, evaluation
-/
namespace Semitone
namespace Lin
variable {M : Type} [AddCommGroup M] [Module ℚ M]

/-- The variables of a list of terms. -/
abbrev keys (l : List (Nat × ℚ)) : List Nat := l.map Prod.fst

theorem lookup_none_iff {l : List (Nat × ℚ)} {v : Nat} : l.lookup v = none ↔ v ∉ keys l := by
  induction l with
  | nil => simp
  | cons t l ih =>
    obtain ⟨w, d⟩ := t
    by_cases h : v = w
    · subst h; simp
    · have hb : (v == w) = false := by simpa using h
      rw [List.lookup_cons, hb]
      show List.lookup v l = none ↔ v ∉ w :: keys l
      rw [ih, List.mem_cons, not_or]
      exact ⟨fun h' => ⟨h, h'⟩, fun h' => h'.2⟩

theorem lookup_some_mem {l : List (Nat × ℚ)} {v : Nat} {c : ℚ} (h : l.lookup v = some c) : (v, c) ∈ l := by
  induction l with
  | nil => simp at h
  | cons t l ih =>
    obtain ⟨w, d⟩ := t
    by_cases hw : v = w
    · subst hw
      simp at h
      subst h; exact List.mem_cons_self
    · have hb : (v == w) = false := by simpa using hw
      rw [List.lookup_cons, hb] at h
      exact List.mem_cons_of_mem _ (ih h)

theorem mem_lookup {l : List (Nat × ℚ)} (hs : (keys l).Pairwise (· < ·)) {v : Nat} {c : ℚ} (h : (v, c) ∈ l) : l.lookup v = some c := by
  induction l with
  | nil => cases h
  | cons t l ih =>
    obtain ⟨w, d⟩ := t
    simp only [keys, List.map_cons, List.pairwise_cons] at hs
    rcases List.mem_cons.mp h with h | h
    · injection h with h1 h2
      subst h1 h2
      simp
    · have hlt := hs.1 v (List.mem_map.mpr ⟨_, h, rfl⟩)
      have hb : (v == w) = false := by simpa using Nat.ne_of_gt hlt
      rw [List.lookup_cons, hb]
      exact ih hs.2 h

theorem mem_keys_iff {l : List (Nat × ℚ)} {v : Nat} : v ∈ keys l ↔ ∃ c, l.lookup v = some c := by
  constructor
  · intro h
    cases hl : l.lookup v with
    | none => exact absurd h (lookup_none_iff.mp hl)
    | some c => exact ⟨c, rfl⟩
  · rintro ⟨c, h⟩
    by_contra hn
    rw [lookup_none_iff.mpr hn] at h
    cases h

theorem mem_keys_of {l : List (Nat × ℚ)} {t : Nat × ℚ} (h : t ∈ l) : t.1 ∈ keys l := List.mem_map.mpr ⟨t, h, rfl⟩

/-- Look-up after the addition of a term. -/
theorem lookup_addTerm (v : Nat) (c : ℚ) (w : Nat) : ∀ l : List (Nat × ℚ), (keys l).Pairwise (· < ·) → (addTerm v c l).lookup w =
    if w = v then (match l.lookup v with
      | none => some c
      | some d => if d + c = 0 then none else some (d + c)) else l.lookup w
  | [], _ => by
    by_cases h : w = v
    · subst h; simp [addTerm]
    · have hb : (w == v) = false := by simpa using h
      simp [addTerm, List.lookup_cons, hb, h]
  | (u, d) :: l, hs => by
    have hs' := hs
    simp only [keys, List.map_cons, List.pairwise_cons] at hs'
    have ih := lookup_addTerm v c w l hs'.2
    unfold addTerm
    split
    · next h =>
      have hn : v ∉ keys ((u, d) :: l) := by
        intro hm
        rcases List.mem_cons.mp hm with hm | hm
        · exact absurd (show v = u from hm) (Nat.ne_of_lt h)
        · exact absurd (hs'.1 v hm) (Nat.lt_asymm h)
      rw [lookup_none_iff.mpr hn]
      by_cases hw : w = v
      · subst hw; simp
      · have hb : (w == v) = false := by simpa using hw
        rw [List.lookup_cons, hb, if_neg hw]
    · split
      · next h1 h =>
        subst h
        have hn : v ∉ keys l := fun hm => Nat.lt_irrefl _ (hs'.1 v hm)
        split
        · next h0 =>
          by_cases hw : w = v
          · subst hw; simp [h0, lookup_none_iff.mpr hn]
          · have hb : (w == v) = false := by simpa using hw
            simp [List.lookup_cons, hb, hw]
        · next h0 =>
          by_cases hw : w = v
          · subst hw; simp [h0]
          · have hb : (w == v) = false := by simpa using hw
            simp [List.lookup_cons, hb, hw]
      · next h1 h2 =>
        by_cases hwu : w = u
        · subst hwu
          have : w ≠ v := fun e => h2 e.symm
          simp [this]
        · have hb : (w == u) = false := by simpa using hwu
          have hb' : (v == u) = false := by simpa using h2
          rw [List.lookup_cons, hb, List.lookup_cons, hb', List.lookup_cons, hb]
          exact ih

theorem filter_sorted {l : List (Nat × ℚ)} (hs : (keys l).Pairwise (· < ·)) (f : Nat × ℚ → Bool) : (keys (l.filter f)).Pairwise (· < ·) :=
  hs.sublist (List.filter_sublist.map _)

theorem lookup_filter_ne {l : List (Nat × ℚ)} (v w : Nat) : (l.filter (fun t => decide (t.1 ≠ v))).lookup w = if w = v then none else l.lookup w := by
  induction l with
  | nil => simp
  | cons t l ih =>
    obtain ⟨u, d⟩ := t
    by_cases huv : u = v
    · subst huv
      rw [List.filter_cons_of_neg (by simp), ih]
      by_cases hw : w = u
      · simp [hw]
      · have hb : (w == u) = false := by simpa using hw
        simp [hw, List.lookup_cons, hb]
    · rw [List.filter_cons_of_pos (by simpa using huv)]
      by_cases hw : w = u
      · subst hw; simp [huv]
      · have hb : (w == u) = false := by simpa using hw
        rw [List.lookup_cons, hb, List.lookup_cons, hb]
        exact ih

theorem evalT_filter_not_mem {l : List (Nat × ℚ)} {v : Nat} (h : v ∉ keys l) : l.filter (fun t => decide (t.1 ≠ v)) = l := by
  rw [List.filter_eq_self]
  intro t ht
  simp only [decide_eq_true_eq]
  intro e
  exact h (e ▸ mem_keys_of ht)

/-- The contribution of one term. -/
theorem evalT_split (x : Nat → M) {l : List (Nat × ℚ)} (hs : (keys l).Pairwise (· < ·)) {v : Nat} {c : ℚ} (h : l.lookup v = some c) :
    evalT x l = c • x v + evalT x (l.filter (fun t => decide (t.1 ≠ v))) := by
  induction l with
  | nil => simp at h
  | cons t l ih =>
    obtain ⟨w, d⟩ := t
    have hs' := hs
    simp only [keys, List.map_cons, List.pairwise_cons] at hs'
    by_cases hw : v = w
    · subst hw
      simp at h
      subst h
      have hn : v ∉ keys l := fun hm => Nat.lt_irrefl _ (hs'.1 v hm)
      rw [List.filter_cons_of_neg (by simp), evalT_filter_not_mem hn, evalT_cons]
    · have hb : (v == w) = false := by simpa using hw
      rw [List.lookup_cons, hb] at h
      have hwv : w ≠ v := fun e => hw e.symm
      rw [List.filter_cons_of_pos (by simpa using hwv), evalT_cons, evalT_cons, ih hs'.2 h]
      module

theorem evalT_congr {x y : Nat → M} {l : List (Nat × ℚ)} (h : ∀ v ∈ keys l, x v = y v) : evalT x l = evalT y l := by
  induction l with
  | nil => rfl
  | cons t l ih =>
    rw [evalT_cons, evalT_cons, h t.1 (by simp [keys]), ih (fun v hv => h v (List.mem_cons_of_mem _ hv))]

theorem evalT_upd (x : Nat → M) (v : Nat) (a : M) {l : List (Nat × ℚ)} (hs : (keys l).Pairwise (· < ·)) {c : ℚ} (h : l.lookup v = some c) :
    evalT (upd x v a) l = evalT x l + c • (a - x v) := by
  rw [evalT_split _ hs h, evalT_split x hs h, upd_self]
  have : evalT (upd x v a) (l.filter (fun t => decide (t.1 ≠ v))) = evalT x (l.filter (fun t => decide (t.1 ≠ v))) := by
    refine evalT_congr (fun w hw => ?_)
    obtain ⟨t, ht, rfl⟩ := List.mem_map.mp hw
    simp only [List.mem_filter, decide_eq_true_eq] at ht
    exact upd_ne _ _ ht.2
  rw [this]
  module

theorem evalT_upd_not (x : Nat → M) (v : Nat) (a : M) {l : List (Nat × ℚ)} (h : v ∉ keys l) : evalT (upd x v a) l = evalT x l :=
  evalT_congr (fun w hw => upd_ne _ _ (fun e => h (e ▸ hw)))

theorem foldl_evalT (x : Nat → M) (l : List (Nat × ℚ)) : ∀ b : M, l.foldl (fun b t => b + t.2 • x t.1) b = b + evalT x l := by
  induction l with
  | nil => intro b; simp
  | cons t l ih => intro b; rw [List.foldl_cons, ih, evalT_cons]; module

end Lin

/-- `value(l)` is the value of `l` under the current values. -/
theorem LRA.valL_eq (t : LRA) (l : Lin) : t.valL l = l.eval IQ.one t.vals := by
  unfold LRA.valL Lin.eval
  rw [Lin.foldl_evalT, IQ.ofQ_eq, add_comm]

end Semitone
