import Verif.DL.Hist

/-!
# Difference logic: the predecessor matrix and the explanations

Explanations are right as long as (1) no pair of time points gets a second constraint while one is in force on it (`dist_constr.emplace` does not
replace the first one), and (2) inside a level only distances with a direct predecessor get shortened (`set_pred` saves `from` instead of the old
predecessor). `safe` says that a propagation respects this.
-/
namespace Semitone
namespace DL
variable {W : Type} [AddCommGroup W] [LinearOrder W] [IsOrderedAddMonoid W] [Dom W]

/-- The propagation of `p` neither asserts a second constraint on a pair that already has one, nor shortens, inside a level, a distance whose
predecessor would not be restored. -/
def safe (t : DL W) (val : Lit → Option Bool) (p : Lit) : Bool :=
  match t.vd p.var with
  | none => true
  | some dd =>
    match val ⟨dd.b, true⟩ with
    | none => true
    | some sg =>
      match t.assertD dd sg with
      | .update t' _ =>
        (t.cur (es (dd, sg)) (et (dd, sg))).isNone &&
        (match t.layers with
        | [] => true
        | L :: _ => (List.range t.nv).all (fun i => (List.range t.nv).all (fun j =>
            decide (t'.d i j = t.d i j) || (L.oldP i j).isSome || decide (t.pred i j = some i))))
      | _ => true

/-- The walk along the predecessors from `j` back to `i` exists, `l` being the time points it leaves; each of its steps is an asserted constraint,
and the lengths add up. -/
inductive Walk (t : DL W) (F : List (Dist W × Bool)) (i : Nat) : Nat → List Nat → Prop
  | nil : Walk t F i i []
  | step {k j l dd sg} : j ≠ i → Walk t F i k l → t.pred i j = some k → k < t.nv → j < t.nv → t.cur k j = some dd → (dd, sg) ∈ F →
      es (dd, sg) = k → et (dd, sg) = j → t.d i k + ((ew (dd, sg) : W) : WithTop W) ≤ t.d i j → Walk t F i j (j :: l)

/-- The predecessors describe the distances. -/
structure Pth (t : DL W) (F : List (Dist W × Bool)) : Prop where
  out : ∀ i j, ¬ (i < t.nv ∧ j < t.nv) → t.pred i j = p0 i j
  walk : ∀ i j, i < t.nv → j < t.nv → t.d i j ≠ ⊤ → ∃ l, Walk t F i j l

theorem Walk.mem {t : DL W} {F : List (Dist W × Bool)} {i j : Nat} {l : List Nat} (h : Walk t F i j l) : ∀ x ∈ l, x < t.nv := by
  induction h with
  | nil => simp
  | step _ _ _ _ hj _ _ _ _ _ ih =>
    intro x hx
    rcases List.mem_cons.mp hx with rfl | hx
    · exact hj
    · exact ih x hx

theorem Walk.unique {t : DL W} {F : List (Dist W × Bool)} {i j : Nat} {l l' : List Nat} (h : Walk t F i j l) (h' : Walk t F i j l') : l = l' := by
  induction h generalizing l' with
  | nil => cases h' with
    | nil => rfl
    | step h _ => exact absurd rfl h
  | step hne _ hp _ _ _ _ _ _ _ ih =>
    cases h' with
    | nil => exact absurd rfl hne
    | step _ hw hp' =>
      rw [hp] at hp'
      injection hp' with hp'
      subst hp'
      rw [ih hw]

theorem Walk.suffix {t : DL W} {F : List (Dist W × Bool)} {i j : Nat} {l : List Nat} (h : Walk t F i j l) : ∀ x ∈ l, ∃ l', Walk t F i x l' ∧ l' <:+ l := by
  induction h with
  | nil => simp
  | step hne hw hp hk hj hc hf h1 h2 h3 ih =>
    intro x hx
    rcases List.mem_cons.mp hx with rfl | hx
    · exact ⟨_, .step hne hw hp hk hj hc hf h1 h2 h3, List.suffix_refl _⟩
    · obtain ⟨l', a, b⟩ := ih x hx
      exact ⟨l', a, b.trans (List.suffix_cons _ _)⟩

theorem Walk.nodup {t : DL W} {F : List (Dist W × Bool)} {i j : Nat} {l : List Nat} (h : Walk t F i j l) : l.Nodup := by
  induction h with
  | nil => exact List.nodup_nil
  | step hne hw hp hk hj hc hf h1 h2 h3 ih =>
    refine List.nodup_cons.mpr ⟨fun hm => ?_, ih⟩
    obtain ⟨l', a, b⟩ := hw.suffix _ hm
    have := a.unique (.step hne hw hp hk hj hc hf h1 h2 h3)
    have hl := b.length_le
    rw [this] at hl
    simp at hl

theorem Walk.length_le {t : DL W} {F : List (Dist W × Bool)} {i j : Nat} {l : List Nat} (h : Walk t F i j l) : l.length ≤ t.nv := by
  have : List.Subperm l (List.range t.nv) := h.nodup.subperm (fun x hx => List.mem_range.mpr (h.mem x hx))
  simpa using this.length_le

/-- An explanation names constraints that force the distance. -/
theorem explain_spec {t : DL W} {F : List (Dist W × Bool)} {val : Lit → Option Bool} (hv : ∀ e ∈ F, val ⟨e.1.b, true⟩ = some e.2) {i j : Nat} {l : List Nat}
    (h0 : t.d i i = ((0 : W) : WithTop W)) (h : Walk t F i j l) : ∀ n, l.length ≤ n → ∃ E : List (Dist W × Bool), (∀ e ∈ E, e ∈ F) ∧
      t.explain val i n j = .ok (E.map (fun e => ⟨e.1.b, !e.2⟩)) ∧ (∀ X : Nat → W, SatF X E → ((X j - X i : W) : WithTop W) ≤ t.d i j) ∧ E.map et = l := by
  induction h with
  | nil =>
    intro n _
    refine ⟨[], by simp, ?_, fun X _ => by simp [h0], rfl⟩
    cases n <;> simp [explain]
  | @step k j l dd sg hne hw hp hk hj hc hf h1 h2 h3 ih =>
    intro n hn
    cases n with
    | zero => simp at hn
    | succ n =>
      obtain ⟨E, a, b, c, hE⟩ := ih n (by simpa using hn)
      refine ⟨(dd, sg) :: E, ?_, ?_, ?_, by rw [List.map_cons, hE, h2]⟩
      · intro e he
        rcases List.mem_cons.mp he with rfl | he
        · exact hf
        · exact a e he
      · simp only [explain, if_neg hne, hp, b, hc]
        have := hv _ hf
        simp only at this
        rw [this]
        cases sg <;> rfl
      · intro X hX
        obtain ⟨h4, h5⟩ := satF_cons.mp hX
        rw [holds_iff, h1, h2] at h4
        refine le_trans ?_ h3
        have h6 := c X h5
        have : ((X j - X i : W) : WithTop W) = ((X k - X i : W) : WithTop W) + ((X j - X k : W) : WithTop W) := by
          norm_cast
          abel
        rw [this]
        have h4' : ((X j - X k : W) : WithTop W) ≤ ((ew (dd, sg) : W) : WithTop W) := by exact_mod_cast h4
        gcongr

section
variable {t t' : DL W} {F : List (Dist W × Bool)} {e : Dist W × Bool} {cu : List (Nat × Nat)}

theorem cancel_coe {a b : WithTop W} {w : W} (h : a + (w : WithTop W) ≤ b + (w : WithTop W)) : a ≤ b := by
  cases a with
  | top =>
    cases b with
    | top => simp
    | coe b => norm_cast at h
  | coe a =>
    cases b with
    | top => simp
    | coe b => norm_cast at h ⊢; grind

/-- Unchanged distances keep their walk. -/
theorem walk_keep (c : Core t F) (s : Step t t' e cu) {i : Nat} (hi : i < t.nv) {j : Nat} {l : List Nat} (h : Walk t F i j l) :
    relax t.d (es e) (et e) (ew e) i j = t.d i j → Walk t' (e :: F) i j l := by
  induction h with
  | nil => intro _; exact .nil
  | @step k j l dd sg hne hw hp hk hj hc hf h1 h2 h3 ih =>
    intro hr
    have hcl := relax_closed c.closed s.edge
    have hkj : t.d k j ≤ ((ew (dd, sg) : W) : WithTop W) := by
      obtain ⟨_, _, _, h⟩ := c.compl _ hf
      rwa [h1, h2] at h
    have hik : relax t.d (es e) (et e) (ew e) i k = t.d i k := by
      refine le_antisymm (relax_le _ _) (cancel_coe (w := ew (dd, sg)) ?_)
      calc t.d i k + ((ew (dd, sg) : W) : WithTop W) ≤ t.d i j := h3
        _ = relax t.d (es e) (et e) (ew e) i j := hr.symm
        _ ≤ relax t.d (es e) (et e) (ew e) i k + relax t.d (es e) (et e) (ew e) k j := hcl.tri i j k hi hj hk
        _ ≤ relax t.d (es e) (et e) (ew e) i k + ((ew (dd, sg) : W) : WithTop W) := by gcongr; exact (relax_le _ _).trans hkj
    refine .step hne (ih hik) ?_ (by rw [s.nv]; exact hk) (by rw [s.nv]; exact hj) (s.keep _ _ _ hc) (List.mem_cons_of_mem _ hf) h1 h2 ?_
    · rw [s.rel.p_in i j hi hj, relaxP, hr]
      simpa using hp
    · rw [s.rel.d_in i k hi hk, s.rel.d_in i j hi hj, hik, hr]
      exact h3

theorem relax_eq_of_lt {d : Nat → Nat → WithTop W} {s t : Nat} {w : W} {i j : Nat} (h : relax d s t w i j < d i j) :
    relax d s t w i j = d i s + (w : WithTop W) + d t j := by
  unfold relax at *
  rcases min_choice (d i j) (d i s + (w : WithTop W) + d t j) with e | e
  · rw [e] at h; exact absurd h (lt_irrefl _)
  · exact e

theorem ne_top_add {a b : WithTop W} (h : a + b ≠ ⊤) : a ≠ ⊤ ∧ b ≠ ⊤ := by
  constructor <;> (rintro rfl; simp at h)

/-- Shortened distances get a walk through the new edge. -/
theorem walk_new (c : Core t F) (p : Pth t F) (s : Step t t' e cu) (hcur : t.cur (es e) (et e) = none) {i : Nat} (hi : i < t.nv) {j : Nat} {l : List Nat}
    (h : Walk t F (et e) j l) (hj0 : j < t.nv) : relax t.d (es e) (et e) (ew e) i j < t.d i j → ∃ l', Walk t' (e :: F) i j l' := by
  have hs := s.edge.hs
  have ht := s.edge.ht
  induction h with
  | nil =>
    intro hlt
    have hne : et e ≠ i := by
      rintro rfl
      rw [relax_diag c.closed s.edge hi] at hlt
      exact lt_irrefl _ hlt
    have hr := relax_eq_of_lt hlt
    rw [c.closed.diag _ ht] at hr
    have hr' : relax t.d (es e) (et e) (ew e) i (et e) = t.d i (es e) + ((ew e : W) : WithTop W) := by rw [hr]; simp
    have htop : t.d i (es e) ≠ ⊤ := by
      rw [hr'] at hlt
      exact ne_top_of_add_lt hlt
    obtain ⟨l, hl⟩ := p.walk i (es e) hi hs htop
    have hw := walk_keep c s hi hl (relax_col_s s.edge i)
    have hcur' : t'.cur (es e) (et e) = some e.1 := by
      have hset := s.set
      cases hh : t'.cur (es e) (et e) with
      | none => rw [hh] at hset; cases hset
      | some x =>
        rcases s.cur _ _ _ hh with h' | ⟨h', _⟩
        · rw [hcur] at h'; cases h'
        · rw [h']
    refine ⟨_, .step (dd := e.1) (sg := e.2) hne hw ?_ (by rw [s.nv]; exact hs) (by rw [s.nv]; exact ht) hcur' List.mem_cons_self rfl rfl ?_⟩
    · rw [s.rel.p_in i _ hi ht, relaxP, if_pos hlt, if_pos rfl]
    · rw [s.rel.d_in i _ hi hs, s.rel.d_in i _ hi ht, relax_col_s s.edge i, hr']
  | @step k j l dd sg hne hw hp hk hj hc hf h1 h2 h3 ih =>
    intro hlt
    have hji : j ≠ i := by
      rintro rfl
      rw [relax_diag c.closed s.edge hi] at hlt
      exact lt_irrefl _ hlt
    have hr := relax_eq_of_lt hlt
    have hfin : relax t.d (es e) (et e) (ew e) i j ≠ ⊤ := ne_top_of_lt hlt
    have hle : relax t.d (es e) (et e) (ew e) i k + ((ew (dd, sg) : W) : WithTop W) ≤ relax t.d (es e) (et e) (ew e) i j := by
      calc _ ≤ t.d i (es e) + ((ew e : W) : WithTop W) + t.d (et e) k + ((ew (dd, sg) : W) : WithTop W) := by gcongr; exact relax_le' _ _
        _ = t.d i (es e) + ((ew e : W) : WithTop W) + (t.d (et e) k + ((ew (dd, sg) : W) : WithTop W)) := by rw [add_assoc]
        _ ≤ t.d i (es e) + ((ew e : W) : WithTop W) + t.d (et e) j := by gcongr
        _ = _ := hr.symm
    have hwk : ∃ l', Walk t' (e :: F) i k l' := by
      by_cases h4 : relax t.d (es e) (et e) (ew e) i k < t.d i k
      · exact ih hk h4
      · have h5 : relax t.d (es e) (et e) (ew e) i k = t.d i k := le_antisymm (relax_le _ _) (not_lt.mp h4)
        have h6 : t.d i k ≠ ⊤ := by
          intro h7
          rw [h5, h7] at hle
          simp only [top_add, top_le_iff] at hle
          exact hfin hle
        obtain ⟨l', hl'⟩ := p.walk i k hi hk h6
        exact ⟨l', walk_keep c s hi hl' h5⟩
    obtain ⟨l', hl'⟩ := hwk
    refine ⟨_, .step hji hl' ?_ (by rw [s.nv]; exact hk) (by rw [s.nv]; exact hj) (s.keep _ _ _ hc) (List.mem_cons_of_mem _ hf) h1 h2 ?_⟩
    · rw [s.rel.p_in i j hi hj, relaxP, if_pos hlt, if_neg hne]
      exact hp
    · rw [s.rel.d_in i k hi hk, s.rel.d_in i j hi hj]
      exact hle

theorem pth_step (c : Core t F) (p : Pth t F) (s : Step t t' e cu) (hcur : t.cur (es e) (et e) = none) : Pth t' (e :: F) := by
  refine ⟨fun i j hij => ?_, fun i j hi hj hd => ?_⟩
  · rw [s.nv] at hij
    rw [s.rel.p_out i j hij]
    exact p.out i j hij
  · rw [s.nv] at hi hj
    rw [s.rel.d_in i j hi hj] at hd
    by_cases h4 : relax t.d (es e) (et e) (ew e) i j < t.d i j
    · have hr := relax_eq_of_lt h4
      rw [hr] at hd
      obtain ⟨l, hl⟩ := p.walk (et e) j s.edge.ht hj (ne_top_add hd).2
      exact walk_new c p s hcur hi hl hj h4
    · have h5 : relax t.d (es e) (et e) (ew e) i j = t.d i j := le_antisymm (relax_le _ _) (not_lt.mp h4)
      rw [h5] at hd
      obtain ⟨l, hl⟩ := p.walk i j hi hj hd
      exact ⟨l, walk_keep c s hi hl h5⟩

theorem Walk.mono {G : List (Dist W × Bool)} {i j : Nat} {l : List Nat} (hG : ∀ x ∈ F, x ∈ G) (h : Walk t F i j l) : Walk t G i j l := by
  induction h with
  | nil => exact .nil
  | step h1 _ h3 h4 h5 h6 h7 h8 h9 h10 ih => exact .step h1 ih h3 h4 h5 h6 (hG _ h7) h8 h9 h10

theorem Pth.mono {G : List (Dist W × Bool)} (hG : ∀ x ∈ F, x ∈ G) (h : Pth t F) : Pth t G :=
  ⟨h.out, fun i j hi hj hd => (h.walk i j hi hj hd).imp (fun _ => Walk.mono hG)⟩

end

/-! ### What `pop` restores -/

/-- The effect of a sequence of `set_dist`/`set_pred` pairs on the saved predecessors. -/
def Tch (t t' : DL W) : Prop := t'.bad = false → t.bad = false ∧ (∀ i j, t'.d i j ≤ t.d i j) ∧
  (∀ i j, t'.d i j = t.d i j → t'.pred i j = t.pred i j) ∧
  match t.layers, t'.layers with
  | [], [] => True
  | L :: Ls, L' :: Ls' => Ls' = Ls ∧ ∀ i j, (t'.d i j = t.d i j → L'.oldP i j = L.oldP i j) ∧
      (t'.d i j ≠ t.d i j → L'.oldP i j = if (L.oldP i j).isNone then some (some i) else L.oldP i j)
  | _, _ => False

theorem Tch.refl (t : DL W) : Tch t t := by
  intro hb
  refine ⟨hb, fun _ _ => le_refl _, fun _ _ _ => rfl, ?_⟩
  cases hl : t.layers with
  | nil => trivial
  | cons L Ls => exact ⟨rfl, fun i j => ⟨fun _ => rfl, fun h => absurd rfl h⟩⟩

theorem Tch.trans {a b c : DL W} (h : Tch a b) (g : Tch b c) : Tch a c := by
  intro hb
  obtain ⟨g1, g2, g3, g4⟩ := g hb
  obtain ⟨h1, h2, h3, h4⟩ := h g1
  have sq : ∀ i j, c.d i j = a.d i j → c.d i j = b.d i j ∧ b.d i j = a.d i j := by
    intro i j e
    have : b.d i j = a.d i j := le_antisymm (h2 i j) (by rw [← e]; exact g2 i j)
    exact ⟨e.trans this.symm, this⟩
  refine ⟨h1, fun i j => (g2 i j).trans (h2 i j), fun i j e => ?_, ?_⟩
  · rw [g3 i j (sq i j e).1, h3 i j (sq i j e).2]
  · cases ha : a.layers with
    | nil =>
      cases hb' : b.layers with
      | nil =>
        cases hc : c.layers with
        | nil => trivial
        | cons => simp [hb', hc] at g4
      | cons => simp [ha, hb'] at h4
    | cons L Ls =>
      cases hb' : b.layers with
      | nil => simp [ha, hb'] at h4
      | cons L' Ls' =>
        cases hc : c.layers with
        | nil => simp [hb', hc] at g4
        | cons L'' Ls'' =>
          simp only [ha, hb', hc] at h4 g4 ⊢
          refine ⟨g4.1.trans h4.1, fun i j => ⟨fun e => ?_, fun e => ?_⟩⟩
          · rw [(g4.2 i j).1 (sq i j e).1, (h4.2 i j).1 (sq i j e).2]
          · by_cases e1 : b.d i j = a.d i j
            · have e2 : c.d i j ≠ b.d i j := by rw [e1]; exact e
              rw [(g4.2 i j).2 e2, (h4.2 i j).1 e1]
            · have k1 := (h4.2 i j).2 e1
              by_cases e2 : c.d i j = b.d i j
              · rw [(g4.2 i j).1 e2, k1]
              · rw [(g4.2 i j).2 e2, k1]
                cases L.oldP i j <;> simp

theorem tch_set (t : DL W) (i j : Nat) (w : WithTop W) (p : Option Nat) : Tch t ((t.setDist i j w).setPred i j p) := by
  intro hb
  have hb' : (t.bad || !decide (w < t.d i j)) = false := hb
  simp only [Bool.or_eq_false_iff, Bool.not_eq_false', decide_eq_true_eq] at hb'
  have hd : ((t.setDist i j w).setPred i j p).d = upd2 t.d i j w := rfl
  have hp : ((t.setDist i j w).setPred i j p).pred = upd2 t.pred i j p := rfl
  refine ⟨hb'.1, fun a b => ?_, fun a b e => ?_, ?_⟩
  · rw [hd]
    unfold upd2
    split
    · next e => rw [e.1, e.2]; exact hb'.2.le
    · exact le_refl _
  · rw [hd] at e
    rw [hp]
    unfold upd2 at *
    split
    · next h => rw [if_pos h, h.1, h.2] at e; exact absurd e hb'.2.ne
    · rfl
  · cases hl : t.layers with
    | nil => simp [setDist, setPred, hl]
    | cons L Ls =>
      have hll : ((t.setDist i j w).setPred i j p).layers =
          (if (L.oldP i j).isNone then { (if (L.oldD i j).isNone then { L with oldD := upd2 L.oldD i j (some (t.d i j)) } else L) with oldP := upd2 L.oldP i j (some (some i)) }
          else (if (L.oldD i j).isNone then { L with oldD := upd2 L.oldD i j (some (t.d i j)) } else L)) :: Ls := by
        simp only [setDist, setPred, hl]
        split <;> rfl
      rw [hll]
      simp only
      refine ⟨trivial, fun a b => ?_⟩
      rw [hd]
      by_cases e : a = i ∧ b = j
      · obtain ⟨rfl, rfl⟩ := e
        have h1 : upd2 t.d a b w a b = w := by simp [upd2]
        rw [h1]
        refine ⟨fun e => absurd e hb'.2.ne, fun _ => ?_⟩
        by_cases hn : (L.oldP a b).isNone
        · rw [if_pos hn, if_pos hn]; simp [upd2]
        · rw [if_neg hn, if_neg hn]
          split <;> rfl
      · have h1 : upd2 t.d i j w a b = t.d a b := by simp [upd2, e]
        rw [h1]
        refine ⟨fun _ => ?_, fun h => absurd rfl h⟩
        split
        · simp [upd2, e]
        · split <;> rfl

theorem tch_foldl {α : Type} {f : Loop W → α → Loop W} (hf : ∀ l a, Tch l.t (f l a).t) : ∀ (as : List α) (l : Loop W), Tch l.t (as.foldl f l).t
  | [], _ => .refl _
  | a :: as, l => (hf l a).trans (tch_foldl hf as (f l a))

theorem tch_relaxEdge (t : DL W) (s u : Nat) (w : W) : Tch t (t.relaxEdge s u w).1 := by
  unfold relaxEdge
  simp only
  refine (tch_set t s u (w : WithTop W) (some s)).trans ?_
  refine Tch.trans ?_ (tch_foldl (f := loop2 u) (fun l x => ?_) _ _)
  · refine tch_foldl (f := fun l x => loop1b s u w (loop1a s u w l x) x) (fun l x => Tch.trans (b := (loop1a s u w l x).t) ?_ ?_) _
      (⟨(t.setDist s u (w : WithTop W)).setPred s u (some s), [], [], [(s, u), (u, s)]⟩ : Loop W)
    · unfold loop1a; split
      · exact tch_set _ _ _ _ _
      · exact .refl _
    · generalize loop1a s u w l x = l1
      unfold loop1b; split
      · exact tch_set _ _ _ _ _
      · exact .refl _
  · unfold loop2; split
    · exact tch_set _ _ _ _ _
    · exact .refl _

/-- What `pop` does to the predecessors. -/
def viewP (t : DL W) : Option (Nat → Nat → Option Nat) :=
  match t.layers with
  | [] => none
  | L :: _ => some (fun i j => (L.oldP i j).getD (t.pred i j))

/-- After a safe assertion, `pop` restores the same predecessors as before it. -/
theorem safe_viewP {t t' : DL W} {dd : Dist W} {sg : Bool} {cu : List (Nat × Nat)} (ho : t.assertD dd sg = .update t' cu) (hb : t'.bad = false)
    (hs : match t.layers with
        | [] => True
        | L :: _ => ∀ i j, t'.d i j = t.d i j ∨ (L.oldP i j).isSome = true ∨ t.pred i j = some i) : t'.viewP = t.viewP := by
  have key : ∀ t0 : DL W, t0.d = t.d → t0.pred = t.pred → (match t.layers, t0.layers with
      | [], [] => True
      | L :: Ls, L' :: Ls' => Ls' = Ls ∧ L'.oldP = L.oldP
      | _, _ => False) → Tch t0 t' → t'.viewP = t.viewP := by
    intro t0 h1 h2 h3 h4
    obtain ⟨_, _, k3, k4⟩ := h4 hb
    rw [h1, h2] at k3
    rw [h1] at k4
    unfold viewP
    cases hl : t.layers with
    | nil =>
      cases hl0 : t0.layers with
      | nil =>
        cases hl' : t'.layers with
        | nil => rfl
        | cons => simp [hl0, hl'] at k4
      | cons => simp [hl, hl0] at h3
    | cons L Ls =>
      cases hl0 : t0.layers with
      | nil => simp [hl, hl0] at h3
      | cons L0 Ls0 =>
        cases hl' : t'.layers with
        | nil => simp [hl0, hl'] at k4
        | cons L' Ls' =>
          simp only [hl, hl0, hl'] at h3 k4 hs ⊢
          refine congrArg some ?_
          funext i j
          by_cases e : t'.d i j = t.d i j
          · rw [(k4.2 i j).1 e, h3.2, k3 i j e]
          · rw [(k4.2 i j).2 e, h3.2]
            rcases hs i j with h' | h' | h'
            · exact absurd h' e
            · cases hx : L.oldP i j with
              | none => rw [hx] at h'; cases h'
              | some x => simp
            · cases hx : L.oldP i j with
              | none => simp [h']
              | some x => simp
  have hcur : ∀ a b, (match t.layers, (t.setCur a b dd).layers with
      | [], [] => True
      | L :: Ls, L' :: Ls' => Ls' = Ls ∧ L'.oldP = L.oldP
      | _, _ => False) := by
    intro a b
    cases hl : t.layers with
    | nil => simp [setCur, hl]
    | cons L Ls =>
      simp only [setCur, hl]
      refine ⟨trivial, ?_⟩
      split <;> rfl
  unfold assertD at ho
  split at ho
  · split at ho
    · cases ho
    · split at ho
      · injection ho with h1 h2
        exact key (t.setCur dd.src dd.tgt dd) rfl rfl (hcur _ _) (h1 ▸ tch_relaxEdge _ _ _ _)
      · cases ho
  · split at ho
    · cases ho
    · split at ho
      · injection ho with h1 h2
        exact key (t.setCur dd.tgt dd.src dd) rfl rfl (hcur _ _) (h1 ▸ tch_relaxEdge _ _ _ _)
      · cases ho

end DL
end Semitone
