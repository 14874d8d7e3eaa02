import Verif.DL.Guard

/-!
# Difference logic: the walks along the predecessors end, in every history

The explanations collected along the predecessors can be wrong (`C30_witness`): `set_pred` makes `pop` restore `from` instead of the old predecessor, and a constraint asserted on a pair that already has
one is not stored. The walks themselves always end: at every level the predecessors of a row form a tree, whose paths are shortest paths of the *matrix* (not of the asserted constraints).
-/
namespace Semitone
namespace DL
variable {W : Type} [AddCommGroup W] [LinearOrder W] [IsOrderedAddMonoid W] [Dom W]

/-- The walk along the predecessors from `j` back to `i` exists, `l` being the time points it leaves; the distances of the matrix add up along it. Compare `Walk`: nothing is said of the constraints. -/
inductive Chain (n : Nat) (d : Nat → Nat → WithTop W) (p : Nat → Nat → Option Nat) (i : Nat) : Nat → List Nat → Prop
  | nil : Chain n d p i i []
  | step {k j l} : j ≠ i → Chain n d p i k l → p i j = some k → k < n → j < n → d i k + d k j ≤ d i j → Chain n d p i j (j :: l)

section
variable {n : Nat} {d : Nat → Nat → WithTop W} {p : Nat → Nat → Option Nat} {i j : Nat} {l l' : List Nat}

theorem Chain.mem (h : Chain n d p i j l) : ∀ x ∈ l, x < n := by
  induction h with
  | nil => simp
  | step _ _ _ _ hj _ ih =>
    intro x hx
    rcases List.mem_cons.mp hx with rfl | hx
    · exact hj
    · exact ih x hx

theorem Chain.unique (h : Chain n d p i j l) (h' : Chain n d p i j l') : l = l' := by
  induction h generalizing l' with
  | nil => cases h' with
    | nil => rfl
    | step h _ => exact absurd rfl h
  | step hne _ hp _ _ _ ih =>
    cases h' with
    | nil => exact absurd rfl hne
    | step _ hw hp' =>
      rw [hp] at hp'
      injection hp' with hp'
      subst hp'
      rw [ih hw]

theorem Chain.suffix (h : Chain n d p i j l) : ∀ x ∈ l, ∃ l', Chain n d p i x l' ∧ l' <:+ l := by
  induction h with
  | nil => simp
  | step hne hw hp hk hj hc ih =>
    intro x hx
    rcases List.mem_cons.mp hx with rfl | hx
    · exact ⟨_, .step hne hw hp hk hj hc, List.suffix_refl _⟩
    · obtain ⟨l', a, b⟩ := ih x hx
      exact ⟨l', a, b.trans (List.suffix_cons _ _)⟩

theorem Chain.nodup (h : Chain n d p i j l) : l.Nodup := by
  induction h with
  | nil => exact List.nodup_nil
  | step hne hw hp hk hj hc ih =>
    refine List.nodup_cons.mpr ⟨fun hm => ?_, ih⟩
    obtain ⟨l', a, b⟩ := hw.suffix _ hm
    have := a.unique (.step hne hw hp hk hj hc)
    have hl := b.length_le
    rw [this] at hl
    simp at hl

theorem Chain.length_le (h : Chain n d p i j l) : l.length ≤ n := by
  have : List.Subperm l (List.range n) := h.nodup.subperm (fun x hx => List.mem_range.mpr (h.mem x hx))
  simpa using this.length_le

end

/-- One level: the matrix outside the time points in use, and the tree of every row. -/
structure Tree (n : Nat) (d : Nat → Nat → WithTop W) (p : Nat → Nat → Option Nat) : Prop where
  out : ∀ i j, ¬ (i < n ∧ j < n) → d i j = d0 i j
  diag : ∀ i, i < n → d i i = ((0 : W) : WithTop W)
  walk : ∀ i j, i < n → j < n → d i j ≠ ⊤ → ∃ l, Chain n d p i j l

/-- Every level: `Ls` are the layers that restore the levels below. -/
def Trees (n : Nat) : (Nat → Nat → WithTop W) → (Nat → Nat → Option Nat) → List (Layer W) → Prop
  | d, p, [] => Tree n d p
  | d, p, L :: Ls => Tree n d p ∧ Trees n (fun i j => (L.oldD i j).getD (d i j)) (fun i j => (L.oldP i j).getD (p i j)) Ls

theorem Trees.top {n : Nat} {d : Nat → Nat → WithTop W} {p : Nat → Nat → Option Nat} {Ls : List (Layer W)} (h : Trees n d p Ls) : Tree n d p := by
  cases Ls with
  | nil => exact h
  | cons => exact h.1

/-- Predecessors replaced by the first time point of the row: the path of length one. -/
theorem Tree.cut {n : Nat} {d : Nat → Nat → WithTop W} {p p' : Nat → Nat → Option Nat} (h : Tree n d p) (hp : ∀ i j, i < n → j < n → p' i j = p i j ∨ p' i j = some i) : Tree n d p' := by
  refine ⟨h.out, h.diag, fun i j hi hj hd => ?_⟩
  obtain ⟨l, hl⟩ := h.walk i j hi hj hd
  clear hd
  induction hl with
  | nil => exact ⟨[], .nil⟩
  | @step k j l hne hw hk hkn hjn hle ih =>
    rcases hp i j hi hjn with e | e
    · obtain ⟨l', h'⟩ := ih hkn
      exact ⟨_, .step hne h' (e.trans hk) hkn hjn hle⟩
    · refine ⟨_, .step hne .nil e hi hjn ?_⟩
      rw [h.diag i hi]; simp

theorem Trees.cut {n : Nat} : ∀ {Ls : List (Layer W)} {d : Nat → Nat → WithTop W} {p p' : Nat → Nat → Option Nat}, Trees n d p Ls →
    (∀ i j, i < n → j < n → p' i j = p i j ∨ p' i j = some i) → Trees n d p' Ls
  | [], _, _, _, h, hp => Tree.cut h hp
  | L :: Ls, d, p, p', h, hp => by
    refine ⟨h.1.cut hp, h.2.cut (fun i j hi hj => ?_)⟩
    show (L.oldP i j).getD (p' i j) = (L.oldP i j).getD (p i j) ∨ _
    cases L.oldP i j with
    | none => exact hp i j hi hj
    | some x => exact .inl rfl

/-- More time points; what the predecessors are outside the old ones does not matter. -/
theorem Tree.more {n m : Nat} {d : Nat → Nat → WithTop W} {p p' : Nat → Nat → Option Nat} (h : Tree n d p) (hm : n ≤ m) (hp : ∀ i j, i < n → j < n → p' i j = p i j) : Tree m d p' := by
  refine ⟨fun i j hij => h.out i j (fun h' => hij ⟨h'.1.trans_le hm, h'.2.trans_le hm⟩), fun i hi => ?_, fun i j hi hj hd => ?_⟩
  · by_cases h1 : i < n
    · exact h.diag i h1
    · rw [h.out i i (fun h' => h1 h'.1)]; simp [d0]
  · by_cases h1 : i < n ∧ j < n
    · obtain ⟨l, hl⟩ := h.walk i j h1.1 h1.2 hd
      refine ⟨l, ?_⟩
      obtain ⟨hi', -⟩ := h1
      clear hd hj hi
      induction hl with
      | nil => exact .nil
      | step hne _ hk hkn hjn hle ih => exact .step hne ih (by rw [hp i _ hi' hjn]; exact hk) (hkn.trans_le hm) (hjn.trans_le hm) hle
    · rw [h.out i j h1] at hd
      unfold d0 at hd
      split at hd
      · next e => subst e; exact ⟨[], .nil⟩
      · exact absurd rfl hd

theorem Trees.more {n m : Nat} (hm : n ≤ m) : ∀ {Ls : List (Layer W)} {d : Nat → Nat → WithTop W} {p p' : Nat → Nat → Option Nat}, Trees n d p Ls →
    (∀ i j, i < n → j < n → p' i j = p i j) → Trees m d p' Ls
  | [], _, _, _, h, hp => Tree.more h hm hp
  | L :: Ls, d, p, p', h, hp => by
    refine ⟨h.1.more hm hp, h.2.more hm (fun i j hi hj => ?_)⟩
    show (L.oldP i j).getD (p' i j) = (L.oldP i j).getD (p i j)
    rw [hp i j hi hj]

theorem trees_push {t : DL W} (h : Trees t.nv t.d t.pred t.layers) : Trees t.push.nv t.push.d t.push.pred t.push.layers := ⟨h.top, h⟩

theorem trees_pop {t t' : DL W} (h : Trees t.nv t.d t.pred t.layers) (hp : t.pop = .ok t') : Trees t'.nv t'.d t'.pred t'.layers := by
  obtain ⟨L, Ls, hl, rfl⟩ := pop_cases hp
  rw [hl] at h
  exact h.2

theorem trees_newVar {t : DL W} (h : Trees t.nv t.d t.pred t.layers) (hc : t.nv ≤ t.cap) : Trees t.newVar.1.nv t.newVar.1.d t.newVar.1.pred t.newVar.1.layers := by
  unfold newVar
  simp only
  split
  · have e : (fun i j => if i < t.cap ∧ j < t.cap then t.d i j else d0 i j) = t.d := by
      funext i j
      split
      · rfl
      · next hh => exact (h.top.out i j (fun h' => hh ⟨h'.1.trans_le hc, h'.2.trans_le hc⟩)).symm
    show Trees (t.nv + 1) (fun i j => if i < t.cap ∧ j < t.cap then t.d i j else d0 i j) (fun i j => if i < t.cap ∧ j < t.cap then t.pred i j else p0 i j) t.layers
    rw [e]
    exact h.more (Nat.le_succ _) (fun i j hi hj => if_pos ⟨hi.trans_le hc, hj.trans_le hc⟩)
  · exact h.more (Nat.le_succ _) (fun _ _ _ _ => rfl)

theorem trees_init (size : Nat) : Trees (DL.init (W := W) size).nv (DL.init (W := W) size).d (DL.init (W := W) size).pred (DL.init (W := W) size).layers := by
  refine ⟨fun _ _ _ => rfl, fun i _ => by simp [DL.init, d0], fun i j hi hj _ => ?_⟩
  have : i = j := by simp only [DL.init] at hi hj; omega
  subst this
  exact ⟨[], .nil⟩

section
variable {t t' : DL W} {F : List (Dist W × Bool)} {e : Dist W × Bool} {cu : List (Nat × Nat)}

/-- Unchanged distances keep their walk. -/
theorem chain_keep (c : Core t F) (s : Step t t' e cu) {i : Nat} (hi : i < t.nv) {j : Nat} {l : List Nat} (h : Chain t.nv t.d t.pred i j l) :
    t.d i j ≠ ⊤ → relax t.d (es e) (et e) (ew e) i j = t.d i j → Chain t'.nv t'.d t'.pred i j l := by
  induction h with
  | nil => intro _ _; exact .nil
  | @step k j l hne hw hp hk hj h3 ih =>
    intro hfin hr
    have hcl := relax_closed c.closed s.edge
    have hkj : t.d i k + t.d k j ≠ ⊤ := fun e => hfin (top_le_iff.mp (e ▸ h3))
    obtain ⟨w, hw'⟩ : ∃ w : W, t.d k j = (w : WithTop W) := by
      cases hx : t.d k j with
      | top => rw [hx] at hkj; simp at hkj
      | coe w => exact ⟨w, rfl⟩
    have hik : relax t.d (es e) (et e) (ew e) i k = t.d i k := by
      refine le_antisymm (relax_le _ _) (cancel_coe (w := w) ?_)
      calc t.d i k + (w : WithTop W) = t.d i k + t.d k j := by rw [hw']
        _ ≤ t.d i j := h3
        _ = relax t.d (es e) (et e) (ew e) i j := hr.symm
        _ ≤ relax t.d (es e) (et e) (ew e) i k + relax t.d (es e) (et e) (ew e) k j := hcl.tri i j k hi hj hk
        _ ≤ relax t.d (es e) (et e) (ew e) i k + (w : WithTop W) := by gcongr; exact (relax_le _ _).trans (le_of_eq hw')
    refine .step hne (ih (ne_top_add hkj).1 hik) ?_ (by rw [s.nv]; exact hk) (by rw [s.nv]; exact hj) ?_
    · rw [s.rel.p_in i j hi hj, relaxP, hr]
      simpa using hp
    · rw [s.rel.d_in i k hi hk, s.rel.d_in i j hi hj, s.rel.d_in k j hk hj, hik, hr]
      refine le_trans ?_ h3
      gcongr
      exact relax_le _ _

/-- Shortened distances get a walk through the new edge. -/
theorem chain_new (c : Core t F) (p : Tree t.nv t.d t.pred) (s : Step t t' e cu) {i : Nat} (hi : i < t.nv) {j : Nat} {l : List Nat}
    (h : Chain t.nv t.d t.pred (et e) j l) (hj0 : j < t.nv) : relax t.d (es e) (et e) (ew e) i j < t.d i j → ∃ l', Chain t'.nv t'.d t'.pred i j l' := by
  have hs := s.edge.hs
  have ht := s.edge.ht
  induction h with
  | nil =>
    intro hlt
    have hne : et e ≠ i := by
      rintro rfl
      rw [relax_diag c.closed s.edge hi] at hlt
      exact lt_irrefl _ hlt
    have hr := relax_eq_of_lt hlt
    rw [c.closed.diag _ ht] at hr
    have hr' : relax t.d (es e) (et e) (ew e) i (et e) = t.d i (es e) + ((ew e : W) : WithTop W) := by rw [hr]; simp
    have htop : t.d i (es e) ≠ ⊤ := by
      rw [hr'] at hlt
      exact ne_top_of_add_lt hlt
    obtain ⟨l, hl⟩ := p.walk i (es e) hi hs htop
    have hw := chain_keep c s hi hl htop (relax_col_s s.edge i)
    refine ⟨_, .step hne hw ?_ (by rw [s.nv]; exact hs) (by rw [s.nv]; exact ht) ?_⟩
    · rw [s.rel.p_in i _ hi ht, relaxP, if_pos hlt, if_pos rfl]
    · rw [s.rel.d_in i _ hi hs, s.rel.d_in i _ hi ht, s.rel.d_in _ _ hs ht, relax_col_s s.edge i, hr']
      gcongr
      refine (relax_le' _ _).trans ?_
      rw [c.closed.diag _ hs, c.closed.diag _ ht]; simp
  | @step k j l hne hw hp hk hj h3 ih =>
    intro hlt
    have hji : j ≠ i := by
      rintro rfl
      rw [relax_diag c.closed s.edge hi] at hlt
      exact lt_irrefl _ hlt
    have hr := relax_eq_of_lt hlt
    have hfin : relax t.d (es e) (et e) (ew e) i j ≠ ⊤ := ne_top_of_lt hlt
    have hle : relax t.d (es e) (et e) (ew e) i k + relax t.d (es e) (et e) (ew e) k j ≤ relax t.d (es e) (et e) (ew e) i j := by
      calc _ ≤ t.d i (es e) + ((ew e : W) : WithTop W) + t.d (et e) k + t.d k j := by
            gcongr
            · exact relax_le' _ _
            · exact relax_le _ _
        _ = t.d i (es e) + ((ew e : W) : WithTop W) + (t.d (et e) k + t.d k j) := by rw [add_assoc]
        _ ≤ t.d i (es e) + ((ew e : W) : WithTop W) + t.d (et e) j := by gcongr
        _ = _ := hr.symm
    have hwk : ∃ l', Chain t'.nv t'.d t'.pred i k l' := by
      by_cases h4 : relax t.d (es e) (et e) (ew e) i k < t.d i k
      · exact ih hk h4
      · have h5 : relax t.d (es e) (et e) (ew e) i k = t.d i k := le_antisymm (relax_le _ _) (not_lt.mp h4)
        have h6 : t.d i k ≠ ⊤ := by
          intro h7
          rw [h5, h7] at hle
          simp only [top_add, top_le_iff] at hle
          exact hfin hle
        obtain ⟨l', hl'⟩ := p.walk i k hi hk h6
        exact ⟨l', chain_keep c s hi hl' h6 h5⟩
    obtain ⟨l', hl'⟩ := hwk
    refine ⟨_, .step hji hl' ?_ (by rw [s.nv]; exact hk) (by rw [s.nv]; exact hj) ?_⟩
    · rw [s.rel.p_in i j hi hj, relaxP, if_pos hlt, if_neg hne]
      exact hp
    · rw [s.rel.d_in i k hi hk, s.rel.d_in i j hi hj, s.rel.d_in k j hk hj]
      exact hle

theorem tree_step (c : Core t F) (p : Tree t.nv t.d t.pred) (s : Step t t' e cu) : Tree t'.nv t'.d t'.pred := by
  refine ⟨fun i j hij => ?_, fun i hi => ?_, fun i j hi hj hd => ?_⟩
  · rw [s.nv] at hij
    rw [s.rel.d_out i j hij]
    exact p.out i j hij
  · rw [s.nv] at hi
    rw [s.rel.d_in i i hi hi]
    exact (relax_diag c.closed s.edge hi).trans (p.diag i hi)
  · rw [s.nv] at hi hj
    rw [s.rel.d_in i j hi hj] at hd
    by_cases h4 : relax t.d (es e) (et e) (ew e) i j < t.d i j
    · have hr := relax_eq_of_lt h4
      rw [hr] at hd
      obtain ⟨l, hl⟩ := p.walk (et e) j s.edge.ht hj (ne_top_add hd).2
      exact chain_new c p s hi hl hj h4
    · have h5 : relax t.d (es e) (et e) (ew e) i j = t.d i j := le_antisymm (relax_le _ _) (not_lt.mp h4)
      rw [h5] at hd
      obtain ⟨l, hl⟩ := p.walk i j hi hj hd
      exact ⟨l, chain_keep c s hi hl hd h5⟩

/-- What an assertion does to the predecessors that `pop` restores: some become the first time point of the row. -/
theorem assertD_restore {dd : Dist W} {sg : Bool} (ho : t.assertD dd sg = .update t' cu) (hb : t'.bad = false) :
    match t.layers, t'.layers with
    | [], [] => True
    | L :: Ls, L' :: Ls' => Ls' = Ls ∧ ∀ i j, (L'.oldP i j).getD (t'.pred i j) = (L.oldP i j).getD (t.pred i j) ∨ (L'.oldP i j).getD (t'.pred i j) = some i
    | _, _ => False := by
  have key : ∀ t0 : DL W, t0.d = t.d → t0.pred = t.pred → (match t.layers, t0.layers with
      | [], [] => True
      | L :: Ls, L' :: Ls' => Ls' = Ls ∧ L'.oldP = L.oldP
      | _, _ => False) → Tch t0 t' → match t.layers, t'.layers with
    | [], [] => True
    | L :: Ls, L' :: Ls' => Ls' = Ls ∧ ∀ i j, (L'.oldP i j).getD (t'.pred i j) = (L.oldP i j).getD (t.pred i j) ∨ (L'.oldP i j).getD (t'.pred i j) = some i
    | _, _ => False := by
    intro t0 h1 h2 h3 h4
    obtain ⟨_, _, k3, k4⟩ := h4 hb
    rw [h1, h2] at k3
    rw [h1] at k4
    cases hl : t.layers with
    | nil =>
      cases hl0 : t0.layers with
      | nil =>
        cases hl' : t'.layers with
        | nil => trivial
        | cons => simp [hl0, hl'] at k4
      | cons => simp [hl, hl0] at h3
    | cons L Ls =>
      cases hl0 : t0.layers with
      | nil => simp [hl, hl0] at h3
      | cons L0 Ls0 =>
        cases hl' : t'.layers with
        | nil => simp [hl0, hl'] at k4
        | cons L' Ls' =>
          simp only [hl, hl0, hl'] at h3 k4 ⊢
          refine ⟨k4.1.trans h3.1, fun i j => ?_⟩
          by_cases e : t'.d i j = t.d i j
          · rw [(k4.2 i j).1 e, h3.2, k3 i j e]; exact .inl rfl
          · rw [(k4.2 i j).2 e, h3.2]
            cases hx : L.oldP i j with
            | none => right; simp
            | some x => left; simp
  have hcur : ∀ a b, (match t.layers, (t.setCur a b dd).layers with
      | [], [] => True
      | L :: Ls, L' :: Ls' => Ls' = Ls ∧ L'.oldP = L.oldP
      | _, _ => False) := by
    intro a b
    cases hl : t.layers with
    | nil => simp [setCur, hl]
    | cons L Ls =>
      simp only [setCur, hl]
      refine ⟨trivial, ?_⟩
      split <;> rfl
  unfold assertD at ho
  split at ho
  · split at ho
    · cases ho
    · split at ho
      · injection ho with h1 h2
        exact key (t.setCur dd.src dd.tgt dd) rfl rfl (hcur _ _) (h1 ▸ tch_relaxEdge _ _ _ _)
      · cases ho
  · split at ho
    · cases ho
    · split at ho
      · injection ho with h1 h2
        exact key (t.setCur dd.tgt dd.src dd) rfl rfl (hcur _ _) (h1 ▸ tch_relaxEdge _ _ _ _)
      · cases ho

/-- An accepted assertion. -/
theorem trees_assert {dd : Dist W} {sg : Bool} (h : Trees t.nv t.d t.pred t.layers) (c : Core t F) (hl : t.LayerOK) (s : Step t t' (dd, sg) cu) (ho : t.assertD dd sg = .update t' cu) :
    Trees t'.nv t'.d t'.pred t'.layers := by
  have h1 := assertD_restore ho s.rel.notbad
  have h2 := tree_step c h.top s
  have h3 := s.view hl
  cases hlt : t.layers with
  | nil =>
    cases hl' : t'.layers with
    | nil => exact h2
    | cons => simp [hlt, hl'] at h1
  | cons L Ls =>
    cases hl' : t'.layers with
    | nil => simp [hlt, hl'] at h1
    | cons L' Ls' =>
      simp only [hlt, hl'] at h1
      simp only [view, hlt, hl', Option.some.injEq, Prod.mk.injEq] at h3
      rw [hlt] at h
      obtain ⟨-, h⟩ := h
      refine ⟨h2, ?_⟩
      rw [h1.1, h3.1, s.nv]
      exact h.cut (fun i j _ _ => h1.2 i j)

end

/-- The walk of an explanation ends. -/
theorem explain_total {t : DL W} {val : Lit → Option Bool} {i j : Nat} {l : List Nat} (h : Chain t.nv t.d t.pred i j l) : ∀ n, l.length ≤ n → ∃ L, t.explain val i n j = .ok L := by
  induction h with
  | nil =>
    intro n _
    exact ⟨[], by cases n <;> simp [explain]⟩
  | @step k j l hne hw hp hk hj h3 ih =>
    intro n hn
    cases n with
    | zero => simp at hn
    | succ n =>
      obtain ⟨L, b⟩ := ih n (by simpa using hn)
      simp only [explain, if_neg hne, hp, b]
      split
      · exact ⟨_, rfl⟩
      · split <;> exact ⟨_, rfl⟩

theorem Trees.explain {t : DL W} (h : Trees t.nv t.d t.pred t.layers) (val : Lit → Option Bool) {i j : Nat} (hi : i < t.nv) (hj : j < t.nv) (hd : t.d i j ≠ ⊤) :
    ∃ L, t.explain val i t.nv j = .ok L := by
  obtain ⟨l, hl⟩ := h.top.walk i j hi hj hd
  exact explain_total hl _ hl.length_le

end DL
end Semitone
