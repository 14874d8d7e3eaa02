import Verif.DL.Model
import Mathlib.Tactic.Abel

/-!
# The incremental shortest-path update

`relaxEdge` computes exactly the closure of the matrix after the insertion of one edge.
-/
namespace Semitone
namespace DL
variable {W : Type} [AddCommGroup W] [LinearOrder W] [IsOrderedAddMonoid W]

/-- A closed matrix on the first `n` time points. -/
structure Closed (n : Nat) (d : Nat → Nat → WithTop W) : Prop where
  diag : ∀ i, i < n → d i i = ((0 : W) : WithTop W)
  tri : ∀ i j k, i < n → j < n → k < n → d i j ≤ d i k + d k j

/-- The length of the shortest path from `i` to `j` when the edge `s → t` of length `w` is added. -/
def relax (d : Nat → Nat → WithTop W) (s t : Nat) (w : W) (i j : Nat) : WithTop W := min (d i j) (d i s + (w : WithTop W) + d t j)

/-- The predecessor after the addition of the edge. -/
def relaxP (d : Nat → Nat → WithTop W) (p : Nat → Nat → Option Nat) (s t : Nat) (w : W) (i j : Nat) : Option Nat :=
  if relax d s t w i j < d i j then (if j = t then some s else p t j) else p i j

/-- The conditions under which an edge is added. -/
structure EdgeOK (n : Nat) (d : Nat → Nat → WithTop W) (s t : Nat) (w : W) : Prop where
  hs : s < n
  ht : t < n
  ne : s ≠ t
  lt : (w : WithTop W) < d s t
  pos : ((-w : W) : WithTop W) ≤ d t s

section
variable {n : Nat} {d : Nat → Nat → WithTop W} {s t : Nat} {w : W}

theorem EdgeOK.nonneg (h : EdgeOK n d s t w) : (0 : WithTop W) ≤ (w : WithTop W) + d t s := by
  have := h.pos
  cases hd : d t s with
  | top => simp
  | coe a =>
    rw [hd] at this
    norm_cast at this ⊢
    grind

theorem coe_nonneg_add (a : WithTop W) {x : WithTop W} (h : 0 ≤ x) : a ≤ a + x := by
  calc a = a + 0 := by simp
    _ ≤ a + x := by gcongr

theorem relax_le (i j : Nat) : relax d s t w i j ≤ d i j := min_le_left _ _
theorem relax_le' (i j : Nat) : relax d s t w i j ≤ d i s + (w : WithTop W) + d t j := min_le_right _ _

theorem relax_st (hc : Closed n d) (h : EdgeOK n d s t w) : relax d s t w s t = (w : WithTop W) := by
  unfold relax
  rw [hc.diag s h.hs, hc.diag t h.ht]
  have : ((0 : W) : WithTop W) + (w : WithTop W) + ((0 : W) : WithTop W) = (w : WithTop W) := by norm_cast; simp
  rw [this]
  exact min_eq_right h.lt.le

theorem relax_col_s (h : EdgeOK n d s t w) (i : Nat) : relax d s t w i s = d i s := by
  unfold relax
  apply min_eq_left
  rw [add_assoc]
  exact coe_nonneg_add _ h.nonneg

theorem relax_row_t (h : EdgeOK n d s t w) (j : Nat) : relax d s t w t j = d t j := by
  unfold relax
  apply min_eq_left
  rw [add_comm, add_comm (d t s)]
  exact coe_nonneg_add _ h.nonneg

theorem relax_diag (hc : Closed n d) (h : EdgeOK n d s t w) {i : Nat} (hi : i < n) : relax d s t w i i = d i i := by
  unfold relax
  apply min_eq_left
  rw [hc.diag i hi]
  calc ((0 : W) : WithTop W) ≤ (w : WithTop W) + d t s := h.nonneg
    _ ≤ (w : WithTop W) + (d t i + d i s) := by gcongr; exact hc.tri t s i h.ht h.hs hi
    _ = d i s + (w : WithTop W) + d t i := by rw [add_comm (d t i), ← add_assoc, add_comm (w : WithTop W)]

theorem relax_col_t (hc : Closed n d) (h : EdgeOK n d s t w) (i : Nat) : relax d s t w i t = min (d i t) (d i s + (w : WithTop W)) := by
  unfold relax
  rw [hc.diag t h.ht]
  simp

theorem relax_row_s (hc : Closed n d) (h : EdgeOK n d s t w) (j : Nat) : relax d s t w s j = min (d s j) ((w : WithTop W) + d t j) := by
  unfold relax
  rw [hc.diag s h.hs]
  simp

/-- Nothing changes for a source whose distance to `t` does not improve. -/
theorem relax_out_i (hc : Closed n d) (h : EdgeOK n d s t w) {i j : Nat} (hi : i < n) (hj : j < n)
    (hn : ¬ d i s + (w : WithTop W) < d i t) : relax d s t w i j = d i j := by
  unfold relax
  apply min_eq_left
  calc d i j ≤ d i t + d t j := hc.tri i j t hi hj h.ht
    _ ≤ d i s + (w : WithTop W) + d t j := by gcongr; exact le_of_not_gt hn

theorem relax_out_j (hc : Closed n d) (h : EdgeOK n d s t w) {i j : Nat} (hi : i < n) (hj : j < n)
    (hn : ¬ d t j + (w : WithTop W) < d s j) : relax d s t w i j = d i j := by
  unfold relax
  apply min_eq_left
  calc d i j ≤ d i s + d s j := hc.tri i j s hi hj h.hs
    _ ≤ d i s + (d t j + (w : WithTop W)) := by gcongr; exact le_of_not_gt hn
    _ = d i s + (w : WithTop W) + d t j := by rw [add_comm (d t j), add_assoc]

/-- The new matrix is closed. -/
theorem relax_closed (hc : Closed n d) (h : EdgeOK n d s t w) : Closed n (relax d s t w) := by
  refine ⟨fun i hi => by rw [relax_diag hc h hi, hc.diag i hi], fun i j k hi hj hk => ?_⟩
  have h1 := hc.tri i j k hi hj hk
  have h2 := hc.tri i s k hi h.hs hk
  have h3 := hc.tri t j k h.ht hj hk
  have h4 : (0 : WithTop W) ≤ (w : WithTop W) + (d t k + d k s) :=
    h.nonneg.trans (by gcongr; exact hc.tri t s k h.ht h.hs hk)
  rcases min_choice (d i k) (d i s + (w : WithTop W) + d t k) with e1 | e1 <;>
    rcases min_choice (d k j) (d k s + (w : WithTop W) + d t j) with e2 | e2 <;>
    (unfold relax; rw [e1, e2])
  · exact (min_le_left _ _).trans h1
  · refine (min_le_right _ _).trans ?_
    rw [← add_assoc, ← add_assoc]
    gcongr
  · refine (min_le_right _ _).trans ?_
    rw [add_assoc (d i s + (w : WithTop W)) (d t k)]
    gcongr
  · refine (min_le_right _ _).trans ?_
    calc d i s + (w : WithTop W) + d t j ≤ d i s + (w : WithTop W) + d t j + ((w : WithTop W) + (d t k + d k s)) := coe_nonneg_add _ h4
      _ = d i s + (w : WithTop W) + d t k + (d k s + (w : WithTop W) + d t j) := by abel

/-- During the update: the cells in `D` have their final value, the other ones their old value. -/
structure Mid (n : Nat) (d : Nat → Nat → WithTop W) (p : Nat → Nat → Option Nat) (s t : Nat) (w : W) (D : Nat → Nat → Prop) (T : DL W) : Prop where
  nv : T.nv = n
  done : ∀ i j, D i j → T.d i j = relax d s t w i j
  undone : ∀ i j, ¬ D i j → T.d i j = d i j
  doneP : ∀ i j, D i j → T.pred i j = relaxP d p s t w i j
  undoneP : ∀ i j, ¬ D i j → T.pred i j = p i j
  notbad : T.bad = false

variable {p : Nat → Nat → Option Nat} {D : Nat → Nat → Prop} {T : DL W}

theorem Mid.d_eq (m : Mid n d p s t w D T) {i j : Nat} (h : relax d s t w i j = d i j) : T.d i j = d i j := by
  by_cases hD : D i j
  · rw [m.done i j hD, h]
  · exact m.undone i j hD

theorem Mid.p_eq (m : Mid n d p s t w D T) {i j : Nat} (h : relax d s t w i j = d i j) : T.pred i j = p i j := by
  by_cases hD : D i j
  · rw [m.doneP i j hD, relaxP, h]
    simp
  · exact m.undoneP i j hD

/-- Looking at a cell. -/
theorem Mid.skip (m : Mid n d p s t w D T) {a b : Nat} (hn : ¬ d a s + (w : WithTop W) + d t b < T.d a b) :
    Mid n d p s t w (fun i j => D i j ∨ (i = a ∧ j = b)) T := by
  have hD : ∀ {i j}, (D i j ∨ (i = a ∧ j = b)) → ¬ D i j → relax d s t w i j = d i j ∧ T.d i j = d i j ∧ T.pred i j = p i j := by
    rintro i j (h | ⟨rfl, rfl⟩) hn'
    · exact absurd h hn'
    · have := m.undone i j hn'
      rw [this] at hn
      exact ⟨min_eq_left (le_of_not_gt hn), this, m.undoneP i j hn'⟩
  refine ⟨m.nv, fun i j h => ?_, fun i j h => m.undone i j (fun h' => h (Or.inl h')), fun i j h => ?_,
    fun i j h => m.undoneP i j (fun h' => h (Or.inl h')), m.notbad⟩
  · by_cases h' : D i j
    · exact m.done i j h'
    · rw [(hD h h').1, (hD h h').2.1]
  · by_cases h' : D i j
    · exact m.doneP i j h'
    · rw [(hD h h').2.2, relaxP, (hD h h').1]
      simp

theorem Mid.update (m : Mid n d p s t w D T) {a b : Nat} {x : WithTop W} {q : Option Nat} (hx : x = d a s + (w : WithTop W) + d t b)
    (hq : q = if b = t then some s else p t b) (hlt : x < T.d a b) :
    Mid n d p s t w (fun i j => D i j ∨ (i = a ∧ j = b)) ((T.setDist a b x).setPred a b q) := by
  have hnD : ¬ D a b := by
    intro h
    rw [m.done a b h, hx] at hlt
    exact absurd hlt (not_lt.mpr (relax_le' a b))
  have hd := m.undone a b hnD
  rw [hd] at hlt
  have hr : relax d s t w a b = x := by
    unfold relax
    rw [← hx]
    exact min_eq_right hlt.le
  refine ⟨m.nv, fun i j h => ?_, fun i j h => ?_, fun i j h => ?_, fun i j h => ?_, ?_⟩
  · show upd2 T.d a b x i j = _
    unfold upd2
    split
    · next e => rw [e.1, e.2, hr]
    · next e => exact m.done i j (h.resolve_right e)
  · show upd2 T.d a b x i j = _
    unfold upd2
    rw [if_neg (fun e => h (Or.inr e))]
    exact m.undone i j (fun h' => h (Or.inl h'))
  · show upd2 T.pred a b q i j = _
    unfold upd2
    split
    · next e => rw [e.1, e.2, relaxP, hr, if_pos hlt, hq]
    · next e => exact m.doneP i j (h.resolve_right e)
  · show upd2 T.pred a b q i j = _
    unfold upd2
    rw [if_neg (fun e => h (Or.inr e))]
    exact m.undoneP i j (fun h' => h (Or.inl h'))
  · show (T.bad || !decide (x < T.d a b)) = false
    rw [m.notbad, hd]
    simp [hlt]

theorem Mid.congr {D' : Nat → Nat → Prop} (m : Mid n d p s t w D T) (h : ∀ i j, D i j ↔ D' i j) : Mid n d p s t w D' T := by
  have : D = D' := by funext i j; exact propext (h i j)
  exact this ▸ m

theorem ne_top_of_add_lt {a b c : WithTop W} (h : a + b < c) : a ≠ ⊤ := by
  rintro rfl
  simp at h

theorem mid_loop1a (hc : Closed n d) (h : EdgeOK n d s t w) (l : Loop W) {u : Nat} (m : Mid n d p s t w D l.t) :
    Mid n d p s t w (fun i j => D i j ∨ (i = u ∧ j = t)) (loop1a s t w l u).t := by
  have e1 : l.t.d u s = d u s := m.d_eq (relax_col_s h u)
  have e2 : d u s + (w : WithTop W) = d u s + (w : WithTop W) + d t t := by rw [hc.diag t h.ht]; simp
  unfold loop1a
  rw [e1]
  split
  · next hh => exact m.update e2 (by simp) hh.2
  · next hh =>
    refine m.skip (fun h' => hh ?_)
    rw [← e2] at h'
    exact ⟨ne_top_of_add_lt h', h'⟩

theorem mid_loop1b (hc : Closed n d) (h : EdgeOK n d s t w) (l : Loop W) {u : Nat} (m : Mid n d p s t w D l.t) (hut : D s t) :
    Mid n d p s t w (fun i j => D i j ∨ (i = s ∧ j = u)) (loop1b s t w l u).t := by
  have e1 : l.t.d t u = d t u := m.d_eq (relax_row_t h u)
  have e2 : d t u + (w : WithTop W) = d s s + (w : WithTop W) + d t u := by rw [hc.diag s h.hs, add_comm]; simp
  unfold loop1b
  rw [e1]
  split
  · next hh =>
    refine m.update e2 ?_ hh.2
    have hne : u ≠ t := by
      rintro rfl
      rw [m.done s u hut, relax_st hc h, hc.diag u h.ht] at hh
      simp at hh
    rw [if_neg hne]
    exact m.p_eq (relax_row_t h u)
  · next hh =>
    refine m.skip (fun h' => hh ?_)
    rw [← e2] at h'
    exact ⟨ne_top_of_add_lt h', h'⟩

/-- What the O(n) loop has collected. -/
structure Coll (d : Nat → Nat → WithTop W) (s t : Nat) (w : W) (P : List Nat) (l : Loop W) : Prop where
  si : ∀ i, i ∈ l.si ↔ i ∈ P ∧ i ≠ s ∧ d i s + (w : WithTop W) < d i t
  sj : ∀ j, j ∈ l.sj ↔ j ∈ P ∧ j ≠ t ∧ d t j + (w : WithTop W) < d s j
  cu : ∀ i j, (i, j) ∈ l.cu ↔ ((i = s ∧ j = t) ∨ (i ∈ l.si ∧ j = t) ∨ (i = s ∧ j ∈ l.sj)) ∨
    ((j = s ∧ i = t) ∨ (j ∈ l.si ∧ i = t) ∨ (j = s ∧ i ∈ l.sj))

/-- Cells handled by the O(n) loop after the time points in `P`. -/
def Done1 (s t : Nat) (P : List Nat) (i j : Nat) : Prop := (i = s ∧ j = t) ∨ (j = t ∧ i ∈ P) ∨ (i = s ∧ j ∈ P)

theorem loop1_step (hc : Closed n d) (h : EdgeOK n d s t w) (P : List Nat) (l : Loop W) (u : Nat) (hu : u ∉ P)
    (m : Mid n d p s t w (Done1 s t P) l.t) (c : Coll d s t w P l) :
    Mid n d p s t w (Done1 s t (P ++ [u])) (loop1b s t w (loop1a s t w l u) u).t ∧
      Coll d s t w (P ++ [u]) (loop1b s t w (loop1a s t w l u) u) := by
  have m1 := mid_loop1a hc h l (u := u) m
  have m2 := mid_loop1b hc h (loop1a s t w l u) (u := u) m1 (Or.inl (Or.inl ⟨rfl, rfl⟩))
  refine ⟨m2.congr (fun i j => ?_), ?_⟩
  · unfold Done1
    simp only [List.mem_append, List.mem_singleton]
    tauto
  -- what is collected
  have hst : l.t.d s t = (w : WithTop W) := by rw [m.done s t (Or.inl ⟨rfl, rfl⟩), relax_st hc h]
  have c1 : ((loop1a s t w l u).si = if u ≠ s ∧ d u s + (w : WithTop W) < d u t then l.si ++ [u] else l.si) ∧
      (loop1a s t w l u).sj = l.sj ∧
      ((loop1a s t w l u).cu = if u ≠ s ∧ d u s + (w : WithTop W) < d u t then l.cu ++ [(u, t), (t, u)] else l.cu) := by
    have e1 : l.t.d u s = d u s := m.d_eq (relax_col_s h u)
    have key : (l.t.d u s ≠ ⊤ ∧ l.t.d u s + (w : WithTop W) < l.t.d u t) ↔ (u ≠ s ∧ d u s + (w : WithTop W) < d u t) := by
      rw [e1]
      by_cases hus : u = s
      · subst hus
        rw [hst, hc.diag u h.hs]
        simp
      · have hD : ¬ Done1 s t P u t := by
          rintro (⟨h1, _⟩ | ⟨_, h1⟩ | ⟨h1, _⟩)
          · exact hus h1
          · exact hu h1
          · exact hus h1
        rw [m.undone u t hD]
        constructor
        · rintro ⟨_, h2⟩; exact ⟨hus, h2⟩
        · rintro ⟨_, h2⟩; exact ⟨ne_top_of_add_lt h2, h2⟩
    unfold loop1a
    by_cases hk : l.t.d u s ≠ ⊤ ∧ l.t.d u s + (w : WithTop W) < l.t.d u t
    · rw [if_pos hk, if_pos (key.mp hk), if_pos (key.mp hk)]
      exact ⟨rfl, rfl, rfl⟩
    · rw [if_neg hk, if_neg (fun h' => hk (key.mpr h')), if_neg (fun h' => hk (key.mpr h'))]
      exact ⟨rfl, rfl, rfl⟩
  have hst1 : (loop1a s t w l u).t.d s t = (w : WithTop W) := by rw [m1.done s t (Or.inl (Or.inl ⟨rfl, rfl⟩)), relax_st hc h]
  have c2 : (loop1b s t w (loop1a s t w l u) u).si = (loop1a s t w l u).si ∧
      ((loop1b s t w (loop1a s t w l u) u).sj = if u ≠ t ∧ d t u + (w : WithTop W) < d s u then (loop1a s t w l u).sj ++ [u] else (loop1a s t w l u).sj) ∧
      ((loop1b s t w (loop1a s t w l u) u).cu = if u ≠ t ∧ d t u + (w : WithTop W) < d s u then (loop1a s t w l u).cu ++ [(s, u), (u, s)] else (loop1a s t w l u).cu) := by
    generalize loop1a s t w l u = l' at m1 hst1
    have e1 : l'.t.d t u = d t u := m1.d_eq (relax_row_t h u)
    have key : (l'.t.d t u ≠ ⊤ ∧ l'.t.d t u + (w : WithTop W) < l'.t.d s u) ↔ (u ≠ t ∧ d t u + (w : WithTop W) < d s u) := by
      rw [e1]
      by_cases hus : u = t
      · subst hus
        rw [hst1, hc.diag u h.ht]
        simp
      · by_cases hD : Done1 s t P s u ∨ (s = u ∧ u = t)
        · exfalso
          rcases hD with (⟨_, h1⟩ | ⟨h1, _⟩ | ⟨_, h1⟩) | ⟨_, h1⟩
          · exact hus h1
          · exact hus h1
          · exact hu h1
          · exact hus h1
        · rw [m1.undone s u hD]
          constructor
          · rintro ⟨_, h2⟩; exact ⟨hus, h2⟩
          · rintro ⟨_, h2⟩; exact ⟨ne_top_of_add_lt h2, h2⟩
    unfold loop1b
    by_cases hk : l'.t.d t u ≠ ⊤ ∧ l'.t.d t u + (w : WithTop W) < l'.t.d s u
    · rw [if_pos hk, if_pos (key.mp hk), if_pos (key.mp hk)]
      exact ⟨rfl, rfl, rfl⟩
    · rw [if_neg hk, if_neg (fun h' => hk (key.mpr h')), if_neg (fun h' => hk (key.mpr h'))]
      exact ⟨rfl, rfl, rfl⟩
  obtain ⟨a1, a2, a3⟩ := c1
  obtain ⟨b1, b2, b3⟩ := c2
  rw [a1] at b1
  rw [a2] at b2
  rw [a3] at b3
  constructor
  · intro i
    rw [b1]
    split <;> simp only [List.mem_append, List.mem_singleton, c.si] <;> grind
  · intro i
    rw [b2]
    split <;> simp only [List.mem_append, List.mem_singleton, c.sj] <;> grind
  · intro i j
    rw [b3, b1, b2]
    split <;> split <;> simp only [List.mem_append, List.mem_singleton, List.mem_cons, List.not_mem_nil, or_false, c.cu, Prod.mk.injEq] <;> grind

theorem loop1_fold (hc : Closed n d) (h : EdgeOK n d s t w) : ∀ (us P : List Nat) (l : Loop W), (P ++ us).Nodup →
    Mid n d p s t w (Done1 s t P) l.t → Coll d s t w P l →
    Mid n d p s t w (Done1 s t (P ++ us)) (us.foldl (fun l u => loop1b s t w (loop1a s t w l u) u) l).t ∧
      Coll d s t w (P ++ us) (us.foldl (fun l u => loop1b s t w (loop1a s t w l u) u) l)
  | [], P, l, _, m, c => by simpa using ⟨m, c⟩
  | u :: us, P, l, hn, m, c => by
    have hu : u ∉ P := by
      intro hu
      have := List.nodup_append.mp hn
      exact this.2.2 u hu u (List.mem_cons_self) rfl
    obtain ⟨m1, c1⟩ := loop1_step hc h P l u hu m c
    have := loop1_fold hc h us (P ++ [u]) _ (by simpa using hn) m1 c1
    simpa using this

/-- The O(n²) loop. -/
theorem loop2_fold (hc : Closed n d) (h : EdgeOK n d s t w) : ∀ (qs : List (Nat × Nat)) (D : Nat → Nat → Prop) (l : Loop W),
    (∀ q ∈ qs, q.1 < n ∧ q.2 < n ∧ q.2 ≠ t ∧ D q.1 t ∧ d q.1 s + (w : WithTop W) < d q.1 t) →
    Mid n d p s t w D l.t →
    Mid n d p s t w (fun i j => D i j ∨ (i, j) ∈ qs) (qs.foldl (loop2 t) l).t ∧
      (∀ q, q ∈ (qs.foldl (loop2 t) l).cu → q ∈ l.cu ∨ q ∈ qs ∨ (q.2, q.1) ∈ qs) ∧
      (∀ q, q ∈ l.cu → q ∈ (qs.foldl (loop2 t) l).cu) ∧
      (∀ q, q ∈ qs → ¬ D q.1 q.2 → relax d s t w q.1 q.2 < d q.1 q.2 →
        q ∈ (qs.foldl (loop2 t) l).cu ∧ (q.2, q.1) ∈ (qs.foldl (loop2 t) l).cu)
  | [], D, l, _, m => by simpa using m
  | q :: qs, D, l, hq, m => by
    obtain ⟨q1, q2⟩ := q
    obtain ⟨h1, h2, h3, h4, h5⟩ := hq (q1, q2) List.mem_cons_self
    simp only at h1 h2 h3 h4 h5
    have e1 : l.t.d q1 t = d q1 s + (w : WithTop W) := by
      rw [m.done q1 t h4, relax_col_t hc h]
      exact min_eq_right h5.le
    have e2 : l.t.d t q2 = d t q2 := m.d_eq (relax_row_t h q2)
    have e3 : l.t.pred t q2 = p t q2 := m.p_eq (relax_row_t h q2)
    have key : Mid n d p s t w (fun i j => D i j ∨ (i = q1 ∧ j = q2)) (loop2 t l (q1, q2)).t ∧
        (∀ q, q ∈ (loop2 t l (q1, q2)).cu → q ∈ l.cu ∨ q = (q1, q2) ∨ q = (q2, q1)) ∧ (∀ q, q ∈ l.cu → q ∈ (loop2 t l (q1, q2)).cu) ∧
        (¬ D q1 q2 → relax d s t w q1 q2 < d q1 q2 → (q1, q2) ∈ (loop2 t l (q1, q2)).cu ∧ (q2, q1) ∈ (loop2 t l (q1, q2)).cu) := by
      unfold loop2
      simp only
      split
      · next hh =>
        refine ⟨m.update (by rw [e1, e2]) (by rw [e3, if_neg h3]) hh.2, ?_, ?_, ?_⟩
        · intro q hq
          simp only [List.mem_append, List.mem_cons, List.not_mem_nil, or_false] at hq
          tauto
        · intro q hq
          simp only [List.mem_append]
          exact Or.inl hq
        · intro _ _
          simp
      · next hh =>
        have hskip : ¬ (q1 ≠ q2 ∧ d q1 s + (w : WithTop W) + d t q2 < l.t.d q1 q2) := by
          rw [← e1, ← e2]
          exact hh
        refine ⟨m.skip (fun h' => hskip ⟨?_, h'⟩), fun q hq => Or.inl hq, fun q hq => hq, fun hD hlt => ?_⟩
        · rintro rfl
          have hr := relax_diag hc h h1
          rw [m.d_eq hr] at h'
          have := relax_le' (d := d) (s := s) (t := t) (w := w) q1 q1
          rw [hr] at this
          exact absurd h' (not_lt.mpr this)
        · exfalso
          apply hskip
          constructor
          · rintro rfl
            rw [relax_diag hc h h1] at hlt
            exact lt_irrefl _ hlt
          · rw [m.undone q1 q2 hD]
            unfold relax at hlt
            rcases min_lt_iff.mp hlt with h' | h'
            · exact absurd h' (lt_irrefl _)
            · exact h'
    obtain ⟨k1, k2, k3, k4⟩ := key
    obtain ⟨r1, r2, r3, r4⟩ := loop2_fold hc h qs _ (loop2 t l (q1, q2)) (fun q hq' => by
      obtain ⟨a, b, c, d', e⟩ := hq q (List.mem_cons_of_mem _ hq')
      exact ⟨a, b, c, Or.inl d', e⟩) k1
    simp only [List.foldl_cons]
    refine ⟨r1.congr (fun i j => ?_), fun q hq' => ?_, fun q hq' => r3 q (k3 q hq'), fun q hq' hD hlt => ?_⟩
    · simp only [List.mem_cons, Prod.mk.injEq]
      tauto
    · rcases r2 q hq' with h' | h' | h'
      · rcases k2 q h' with h'' | rfl | rfl
        · exact Or.inl h''
        · simp
        · simp
      · simp [h']
      · simp [h']
    · by_cases hqq : q = (q1, q2)
      · subst hqq
        exact ⟨r3 _ (k4 hD hlt).1, r3 _ (k4 hD hlt).2⟩
      · refine r4 q ((List.mem_cons.mp hq').resolve_left hqq) (fun h' => ?_) hlt
        rcases h' with h' | ⟨h', h''⟩
        · exact hD h'
        · exact hqq (Prod.ext h' h'')

/-- The result of `relaxEdge`. -/
structure Relaxed (n : Nat) (d : Nat → Nat → WithTop W) (p : Nat → Nat → Option Nat) (s t : Nat) (w : W) (T : DL W) (cu : List (Nat × Nat)) : Prop where
  d_in : ∀ i j, i < n → j < n → T.d i j = relax d s t w i j
  d_out : ∀ i j, ¬ (i < n ∧ j < n) → T.d i j = d i j
  p_in : ∀ i j, i < n → j < n → T.pred i j = relaxP d p s t w i j
  p_out : ∀ i j, ¬ (i < n ∧ j < n) → T.pred i j = p i j
  notbad : T.bad = false
  cu_lt : ∀ q ∈ cu, q.1 < n ∧ q.2 < n
  cu_all : ∀ i j, i < n → j < n → relax d s t w i j < d i j → (i, j) ∈ cu ∧ (j, i) ∈ cu

theorem relaxEdge_spec (T : DL W) (s t : Nat) (w : W) (hb : T.bad = false) (hc : Closed T.nv T.d) (h : EdgeOK T.nv T.d s t w) :
    Relaxed T.nv T.d T.pred s t w (T.relaxEdge s t w).1 (T.relaxEdge s t w).2 := by
  have hw : (w : WithTop W) = T.d s s + (w : WithTop W) + T.d t t := by rw [hc.diag s h.hs, hc.diag t h.ht]; simp
  have m0 : Mid T.nv T.d T.pred s t w (fun _ _ => False) T :=
    ⟨rfl, fun _ _ h => h.elim, fun _ _ _ => rfl, fun _ _ h => h.elim, fun _ _ _ => rfl, hb⟩
  have m1 := m0.update (a := s) (b := t) hw (q := some s) (by simp) h.lt
  have m2 : Mid T.nv T.d T.pred s t w (Done1 s t []) ((T.setDist s t (w : WithTop W)).setPred s t (some s)) :=
    m1.congr (fun i j => by simp [Done1])
  have c2 : Coll T.d s t w [] ⟨(T.setDist s t (w : WithTop W)).setPred s t (some s), [], [], [(s, t), (t, s)]⟩ := by
    refine ⟨fun i => by simp, fun i => by simp, fun i j => ?_⟩
    simp only [List.mem_cons, Prod.mk.injEq, List.not_mem_nil, or_false, false_and, and_false]
    tauto
  have hnv : ((T.setDist s t (w : WithTop W)).setPred s t (some s)).nv = T.nv := rfl
  obtain ⟨m3, c3⟩ := loop1_fold hc h (List.range T.nv) [] _ (by simpa using List.nodup_range) m2 c2
  unfold relaxEdge
  simp only [hnv]
  simp only [List.nil_append] at m3 c3
  generalize (List.range T.nv).foldl (fun l u => loop1b s t w (loop1a s t w l u) u)
    ⟨(T.setDist s t (w : WithTop W)).setPred s t (some s), [], [], [(s, t), (t, s)]⟩ = l at m3 c3
  have hsi : ∀ i, i ∈ l.si ↔ i < T.nv ∧ i ≠ s ∧ T.d i s + (w : WithTop W) < T.d i t := fun i => by rw [c3.si, List.mem_range]
  have hsj : ∀ i, i ∈ l.sj ↔ i < T.nv ∧ i ≠ t ∧ T.d t i + (w : WithTop W) < T.d s i := fun i => by rw [c3.sj, List.mem_range]
  have hqs : ∀ q : Nat × Nat, q ∈ l.si.flatMap (fun i => l.sj.map (fun j => (i, j))) ↔ q.1 ∈ l.si ∧ q.2 ∈ l.sj := by
    rintro ⟨a, b⟩
    simp only [List.mem_flatMap, List.mem_map, Prod.mk.injEq]
    constructor
    · rintro ⟨i, hi, j, hj, rfl, rfl⟩; exact ⟨hi, hj⟩
    · rintro ⟨hi, hj⟩; exact ⟨a, hi, b, hj, rfl, rfl⟩
  obtain ⟨m4, k2, k3, k4⟩ := loop2_fold hc h (l.si.flatMap (fun i => l.sj.map (fun j => (i, j)))) (Done1 s t (List.range T.nv)) l (fun q hq => by
    obtain ⟨h1, h2⟩ := (hqs q).mp hq
    obtain ⟨a1, a2, a3⟩ := (hsi _).mp h1
    obtain ⟨b1, b2, _⟩ := (hsj _).mp h2
    exact ⟨a1, b1, b2, Or.inr (Or.inl ⟨rfl, List.mem_range.mpr a1⟩), a3⟩) m3
  have hdone : ∀ i j, i < T.nv → j < T.nv → (Done1 s t (List.range T.nv) i j ∨ (i, j) ∈ l.si.flatMap (fun i => l.sj.map (fun j => (i, j)))) ∨
      relax T.d s t w i j = T.d i j := by
    intro i j hi hj
    by_cases h1 : i = s
    · exact Or.inl (Or.inl (Or.inr (Or.inr ⟨h1, List.mem_range.mpr hj⟩)))
    by_cases h2 : j = t
    · exact Or.inl (Or.inl (Or.inr (Or.inl ⟨h2, List.mem_range.mpr hi⟩)))
    by_cases h3 : T.d i s + (w : WithTop W) < T.d i t
    · by_cases h4 : T.d t j + (w : WithTop W) < T.d s j
      · exact Or.inl (Or.inr ((hqs _).mpr ⟨(hsi i).mpr ⟨hi, h1, h3⟩, (hsj j).mpr ⟨hj, h2, h4⟩⟩))
      · exact Or.inr (relax_out_j hc h hi hj h4)
    · exact Or.inr (relax_out_i hc h hi hj h3)
  have hout : ∀ i j, ¬ (i < T.nv ∧ j < T.nv) → ¬ (Done1 s t (List.range T.nv) i j ∨ (i, j) ∈ l.si.flatMap (fun i => l.sj.map (fun j => (i, j)))) := by
    intro i j hij hh
    apply hij
    rcases hh with (⟨rfl, rfl⟩ | ⟨rfl, h1⟩ | ⟨rfl, h1⟩) | h1
    · exact ⟨h.hs, h.ht⟩
    · exact ⟨List.mem_range.mp h1, h.ht⟩
    · exact ⟨h.hs, List.mem_range.mp h1⟩
    · obtain ⟨a, b⟩ := (hqs _).mp h1
      exact ⟨((hsi _).mp a).1, ((hsj _).mp b).1⟩
  refine ⟨fun i j hi hj => ?_, fun i j hij => m4.undone i j (hout i j hij), fun i j hi hj => ?_, fun i j hij => m4.undoneP i j (hout i j hij), m4.notbad, ?_, ?_⟩
  · rcases hdone i j hi hj with h' | h'
    · exact m4.done i j h'
    · rw [m4.d_eq h', h']
  · rcases hdone i j hi hj with h' | h'
    · exact m4.doneP i j h'
    · rw [m4.p_eq h', relaxP, h']
      simp
  · have hcu : ∀ i j, (i, j) ∈ l.cu → i < T.nv ∧ j < T.nv := by
      intro i j hh
      rcases (c3.cu i j).mp hh with (⟨rfl, rfl⟩ | ⟨h1, rfl⟩ | ⟨rfl, h1⟩) | (⟨rfl, rfl⟩ | ⟨h1, rfl⟩ | ⟨rfl, h1⟩)
      · exact ⟨h.hs, h.ht⟩
      · exact ⟨((hsi _).mp h1).1, h.ht⟩
      · exact ⟨h.hs, ((hsj _).mp h1).1⟩
      · exact ⟨h.ht, h.hs⟩
      · exact ⟨h.ht, ((hsi _).mp h1).1⟩
      · exact ⟨((hsj _).mp h1).1, h.hs⟩
    intro q hq
    rcases k2 q hq with h1 | h1 | h1
    · exact hcu q.1 q.2 h1
    · obtain ⟨a, b⟩ := (hqs _).mp h1
      exact ⟨((hsi _).mp a).1, ((hsj _).mp b).1⟩
    · obtain ⟨a, b⟩ := (hqs _).mp h1
      exact ⟨((hsj _).mp b).1, ((hsi _).mp a).1⟩
  · intro i j hi hj hlt
    have hlt3 : T.d i s + (w : WithTop W) < T.d i t := by
      by_contra h3
      rw [relax_out_i hc h hi hj h3] at hlt
      exact lt_irrefl _ hlt
    have hlt4 : T.d t j + (w : WithTop W) < T.d s j := by
      by_contra h3
      rw [relax_out_j hc h hi hj h3] at hlt
      exact lt_irrefl _ hlt
    by_cases h1 : i = s
    · by_cases h2 : j = t
      · exact ⟨k3 _ ((c3.cu _ _).mpr (Or.inl (Or.inl ⟨h1, h2⟩))), k3 _ ((c3.cu _ _).mpr (Or.inr (Or.inl ⟨h1, h2⟩)))⟩
      · have := (hsj j).mpr ⟨hj, h2, hlt4⟩
        exact ⟨k3 _ ((c3.cu _ _).mpr (Or.inl (Or.inr (Or.inr ⟨h1, this⟩)))), k3 _ ((c3.cu _ _).mpr (Or.inr (Or.inr (Or.inr ⟨h1, this⟩))))⟩
    · have hi' := (hsi i).mpr ⟨hi, h1, hlt3⟩
      by_cases h2 : j = t
      · exact ⟨k3 _ ((c3.cu _ _).mpr (Or.inl (Or.inr (Or.inl ⟨hi', h2⟩)))), k3 _ ((c3.cu _ _).mpr (Or.inr (Or.inr (Or.inl ⟨hi', h2⟩))))⟩
      · have hj' := (hsj j).mpr ⟨hj, h2, hlt4⟩
        refine k4 (i, j) ((hqs _).mpr ⟨hi', hj'⟩) ?_ hlt
        rintro (⟨a, _⟩ | ⟨a, _⟩ | ⟨a, _⟩)
        · exact h1 a
        · exact h2 a
        · exact h1 a

end
end DL
end Semitone
