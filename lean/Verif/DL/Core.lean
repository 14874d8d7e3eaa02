import Verif.DL.Relax

/-!
# Difference logic: what is asserted, and the invariant of the distance matrix
-/
namespace Semitone
namespace DL
variable {W : Type} [AddCommGroup W] [LinearOrder W] [IsOrderedAddMonoid W]

/-- The assignment `X` of numbers to the time points satisfies the constraint `tgt - src <= w`, or its negation. -/
def Holds (X : Nat → W) (e : Dist W × Bool) : Prop :=
  if e.2 = true then X e.1.tgt - X e.1.src ≤ e.1.w else ¬ (X e.1.tgt - X e.1.src ≤ e.1.w)

/-- The assignment satisfies all the given constraints. -/
def SatF (X : Nat → W) (F : List (Dist W × Bool)) : Prop := ∀ e ∈ F, Holds X e

section
variable [Dom W]

theorem one_pos : (0 : W) < Dom.one := by
  have := (Dom.succ (0 : W) Dom.one).mpr (by simp)
  exact this

/-- The edge of the constraint graph. -/
def es (e : Dist W × Bool) : Nat := if e.2 = true then e.1.src else e.1.tgt
def et (e : Dist W × Bool) : Nat := if e.2 = true then e.1.tgt else e.1.src
def ew (e : Dist W × Bool) : W := if e.2 = true then e.1.w else -e.1.w - Dom.one

theorem holds_iff (X : Nat → W) (e : Dist W × Bool) : Holds X e ↔ X (et e) - X (es e) ≤ ew e := by
  obtain ⟨dd, sg⟩ := e
  cases sg with
  | true => simp [Holds, et, es, ew]
  | false =>
    simp only [Holds, et, es, ew]
    simp only [Bool.false_eq_true, if_false]
    rw [not_le, Dom.succ]
    constructor <;> intro h <;> grind

/-- The invariant of the distance matrix: `F` are the constraints asserted so far. -/
structure Core (t : DL W) (F : List (Dist W × Bool)) : Prop where
  cap : t.nv ≤ t.cap
  one : 1 ≤ t.nv
  closed : Closed t.nv t.d
  out : ∀ i j, ¬ (i < t.nv ∧ j < t.nv) → t.d i j = d0 i j
  sound : ∀ X, SatF X F → ∀ i j, i < t.nv → j < t.nv → ((X j - X i : W) : WithTop W) ≤ t.d i j
  compl : ∀ e ∈ F, es e < t.nv ∧ et e < t.nv ∧ es e ≠ et e ∧ t.d (es e) (et e) ≤ ((ew e : W) : WithTop W)
  curF : ∀ i j dd, t.cur i j = some dd → ∃ sg, (dd, sg) ∈ F ∧ es (dd, sg) = i ∧ et (dd, sg) = j
  ok : t.bad = false

/-- Bookkeeping of the constraints. -/
structure Regs (t : DL W) : Prop where
  vd : ∀ v dd, t.vd v = some dd → dd.b = v ∧ dd.src < t.nv ∧ dd.tgt < t.nv ∧ dd.src ≠ dd.tgt
  dcs : ∀ i j dd, dd ∈ t.dcs i j → t.vd dd.b = some dd ∧ dd.src = i ∧ dd.tgt = j

theorem satF_cons {X : Nat → W} {e : Dist W × Bool} {F : List (Dist W × Bool)} : SatF X (e :: F) ↔ Holds X e ∧ SatF X F := by
  simp [SatF]

/-- Adding an edge to the matrix keeps the invariant. -/
theorem core_relax {t t' : DL W} {F : List (Dist W × Bool)} {cu : List (Nat × Nat)} {p : Nat → Nat → Option Nat} (h : Core t F) (e : Dist W × Bool)
    (he : EdgeOK t.nv t.d (es e) (et e) (ew e)) (hr : Relaxed t.nv t.d p (es e) (et e) (ew e) t' cu) (hp : p = t.pred)
    (hn : t'.nv = t.nv) (hc : t'.cap = t.cap)
    (hcur : ∀ i j dd, t'.cur i j = some dd → t.cur i j = some dd ∨ (dd = e.1 ∧ i = es e ∧ j = et e)) : Core t' (e :: F) := by
  subst hp
  have hcl := relax_closed h.closed he
  constructor
  case cap => rw [hn, hc]; exact h.cap
  case one => rw [hn]; exact h.one
  case closed =>
    rw [hn]
    refine ⟨fun i hi => by rw [hr.d_in i i hi hi, hcl.diag i hi], fun i j k hi hj hk => ?_⟩
    rw [hr.d_in i j hi hj, hr.d_in i k hi hk, hr.d_in k j hk hj]
    exact hcl.tri i j k hi hj hk
  case out => intro i j hij; rw [hn] at hij; rw [hr.d_out i j hij, h.out i j hij]
  case sound =>
    intro X hX i j hi hj
    rw [hn] at hi hj
    obtain ⟨h1, h2⟩ := satF_cons.mp hX
    rw [holds_iff] at h1
    rw [hr.d_in i j hi hj]
    have a := h.sound X h2 i j hi hj
    have b := h.sound X h2 i (es e) hi he.hs
    have c := h.sound X h2 (et e) j he.ht hj
    refine le_min a ?_
    have heq : ((X j - X i : W) : WithTop W) = ((X (es e) - X i : W) : WithTop W) + ((X (et e) - X (es e) : W) : WithTop W) + ((X j - X (et e) : W) : WithTop W) := by
      norm_cast
      abel
    rw [heq]
    have h1' : ((X (et e) - X (es e) : W) : WithTop W) ≤ ((ew e : W) : WithTop W) := by exact_mod_cast h1
    gcongr
  case compl =>
    intro e' he'
    rw [hn]
    rcases List.mem_cons.mp he' with rfl | he'
    · exact ⟨he.hs, he.ht, he.ne, by rw [hr.d_in _ _ he.hs he.ht, relax_st h.closed he]⟩
    · obtain ⟨a, b, c, d⟩ := h.compl e' he'
      exact ⟨a, b, c, by rw [hr.d_in _ _ a b]; exact (relax_le _ _).trans d⟩
  case curF =>
    intro i j dd hdd
    rcases hcur i j dd hdd with h' | ⟨rfl, rfl, rfl⟩
    · obtain ⟨sg, a, b⟩ := h.curF i j dd h'
      exact ⟨sg, List.mem_cons_of_mem _ a, b⟩
    · exact ⟨e.2, List.mem_cons_self, rfl, rfl⟩
  case ok => exact hr.notbad

theorem core_noop {t : DL W} {F : List (Dist W × Bool)} (h : Core t F) (e : Dist W × Bool)
    (he : es e < t.nv ∧ et e < t.nv ∧ es e ≠ et e ∧ t.d (es e) (et e) ≤ ((ew e : W) : WithTop W)) : Core t (e :: F) := by
  refine ⟨h.cap, h.one, h.closed, h.out, fun X hX => h.sound X (satF_cons.mp hX).2, fun e' he' => ?_, fun i j dd hdd => ?_, h.ok⟩
  · rcases List.mem_cons.mp he' with rfl | he'
    · exact he
    · exact h.compl e' he'
  · obtain ⟨sg, a, b⟩ := h.curF i j dd hdd
    exact ⟨sg, List.mem_cons_of_mem _ a, b⟩

theorem top_lt_neg_iff {a : WithTop W} {w : W} : a < ((-w : W) : WithTop W) ↔ a ≤ ((-w - Dom.one : W) : WithTop W) := by
  cases a with
  | top => simp
  | coe a =>
    norm_cast
    rw [Dom.succ]
    constructor <;> intro h <;> grind

/-- What is left unchanged by the update of the matrix. -/
structure Frame (t t' : DL W) : Prop where
  nv : t'.nv = t.nv
  cap : t'.cap = t.cap
  vd : t'.vd = t.vd
  dcs : t'.dcs = t.dcs

/-- The constraint of a pair after `pop`. -/
def popC (o : Option (Option (Dist W))) (c : Option (Dist W)) : Option (Dist W) :=
  match o with
  | none => c
  | some (some dd) => if c.isNone then some dd else c
  | some none => none

/-- What `pop` would restore: distances, constraints, remaining layers. -/
def view (t : DL W) : Option ((Nat → Nat → WithTop W) × (Nat → Nat → Option (Dist W)) × List (Layer W)) :=
  match t.layers with
  | [] => none
  | L :: Ls => some (fun i j => (L.oldD i j).getD (t.d i j), fun i j => popC (L.oldC i j) (t.cur i j), Ls)

/-- A saved constraint is still the current one (`dist_constr.emplace` never replaces). -/
def LayerOK (t : DL W) : Prop :=
  match t.layers with
  | [] => True
  | L :: _ => ∀ i j c, L.oldC i j = some (some c) → t.cur i j = some c

theorem setDist_view (t : DL W) (i j : Nat) (w : WithTop W) : (t.setDist i j w).view = t.view := by
  unfold view setDist
  cases hl : t.layers with
  | nil => rfl
  | cons L Ls =>
    simp only
    split
    · next h =>
      simp only [Option.some.injEq, Prod.mk.injEq, and_true]
      funext a b
      simp only [upd2]
      split
      · next e => obtain ⟨rfl, rfl⟩ := e; simp [Option.isNone_iff_eq_none.mp h]
      · rfl
    · next h =>
      simp only [Option.some.injEq, Prod.mk.injEq, and_true]
      funext a b
      simp only [upd2]
      split
      · next e =>
        obtain ⟨rfl, rfl⟩ := e
        cases ho : L.oldD a b with
        | none => simp [ho] at h
        | some x => simp
      · rfl

theorem setPred_view (t : DL W) (i j : Nat) (p : Option Nat) : (t.setPred i j p).view = t.view := by
  unfold view setPred
  cases hl : t.layers with
  | nil => rfl
  | cons L Ls =>
    simp only
    split <;> rfl

theorem setCur_view (t : DL W) (i j : Nat) (dd : Dist W) (h : t.LayerOK) : (t.setCur i j dd).view = t.view := by
  unfold LayerOK at h
  unfold view setCur
  cases hl : t.layers with
  | nil => rfl
  | cons L Ls =>
    simp only [hl] at h ⊢
    have key : ∀ a b, popC ((if (L.oldC i j).isNone = true then { L with oldC := upd2 L.oldC i j (some (t.cur i j)) } else L).oldC a b)
        ((if (t.cur i j).isNone = true then upd2 t.cur i j (some dd) else t.cur) a b) = popC (L.oldC a b) (t.cur a b) := by
      intro a b
      by_cases e : a = i ∧ b = j
      · obtain ⟨rfl, rfl⟩ := e
        cases ho : L.oldC a b with
        | none => cases hc : t.cur a b <;> simp [popC, upd2, hc]
        | some o => cases o with
          | none => simp [popC, ho]
          | some c => simp [popC, ho, h a b c ho]
      · have h1 : (if (L.oldC i j).isNone = true then { L with oldC := upd2 L.oldC i j (some (t.cur i j)) } else L).oldC a b = L.oldC a b := by
          split
          · simp [upd2, e]
          · rfl
        have h2 : (if (t.cur i j).isNone = true then upd2 t.cur i j (some dd) else t.cur) a b = t.cur a b := by
          split
          · simp [upd2, e]
          · rfl
        rw [h1, h2]
    refine congrArg some ?_
    refine Prod.ext ?_ (Prod.ext ?_ rfl)
    · funext a b
      show Option.getD ((if (L.oldC i j).isNone = true then _ else L).oldD a b) _ = _
      split <;> rfl
    · funext a b
      exact key a b

theorem setDist_lay {t : DL W} (i j : Nat) (w : WithTop W) (h : t.LayerOK) : (t.setDist i j w).LayerOK := by
  unfold LayerOK setDist at *
  cases hl : t.layers with
  | nil => trivial
  | cons L Ls =>
    simp only [hl] at h ⊢
    split <;> exact h

theorem setPred_lay {t : DL W} (i j : Nat) (p : Option Nat) (h : t.LayerOK) : (t.setPred i j p).LayerOK := by
  unfold LayerOK setPred at *
  cases hl : t.layers with
  | nil => trivial
  | cons L Ls =>
    simp only [hl] at h ⊢
    split <;> exact h

theorem setCur_cur {t : DL W} {i j : Nat} {dd : Dist W} {a b : Nat} {c : Dist W} (h : (t.setCur i j dd).cur a b = some c) :
    t.cur a b = some c ∨ (c = dd ∧ a = i ∧ b = j) := by
  unfold setCur at h
  simp only at h
  split at h
  · unfold upd2 at h
    split at h
    · next e => injection h with h; exact Or.inr ⟨h.symm, e⟩
    · exact Or.inl h
  · exact Or.inl h

theorem setCur_keep {t : DL W} {i j : Nat} {dd : Dist W} {a b : Nat} {c : Dist W} (h : t.cur a b = some c) :
    (t.setCur i j dd).cur a b = some c := by
  unfold setCur
  simp only
  split
  · next hn =>
    unfold upd2
    split
    · next e => obtain ⟨rfl, rfl⟩ := e; rw [h] at hn; cases hn
    · exact h
  · exact h

theorem setCur_lay {t : DL W} (i j : Nat) (dd : Dist W) (h : t.LayerOK) : (t.setCur i j dd).LayerOK := by
  have hk : ∀ {a b : Nat} {c : Dist W}, t.cur a b = some c → (t.setCur i j dd).cur a b = some c := fun h => setCur_keep h
  unfold LayerOK at *
  cases hl : t.layers with
  | nil =>
    have : (t.setCur i j dd).layers = [] := by simp [setCur, hl]
    rw [this]
    trivial
  | cons L Ls =>
    have : (t.setCur i j dd).layers = (if (L.oldC i j).isNone then { L with oldC := upd2 L.oldC i j (some (t.cur i j)) } else L) :: Ls := by
      simp [setCur, hl]
    simp only [this]
    simp only [hl] at h
    intro a b c ho
    apply hk
    split at ho
    · simp only [upd2] at ho
      split at ho
      · next e => obtain ⟨rfl, rfl⟩ := e; injection ho
      · exact h a b c ho
    · exact h a b c ho

/-- The part of the state that a sequence of `set_dist`/`set_pred` leaves alone. -/
structure Keep (t t' : DL W) : Prop where
  nv : t'.nv = t.nv
  cap : t'.cap = t.cap
  vd : t'.vd = t.vd
  dcs : t'.dcs = t.dcs
  cur : t'.cur = t.cur
  view : t'.view = t.view
  lay : t.LayerOK → t'.LayerOK

theorem Keep.refl (t : DL W) : Keep t t := ⟨rfl, rfl, rfl, rfl, rfl, rfl, id⟩
theorem Keep.trans {a b c : DL W} (h : Keep a b) (g : Keep b c) : Keep a c :=
  ⟨g.nv.trans h.nv, g.cap.trans h.cap, g.vd.trans h.vd, g.dcs.trans h.dcs, g.cur.trans h.cur, g.view.trans h.view, fun x => g.lay (h.lay x)⟩
theorem keep_set (t : DL W) (i j : Nat) (w : WithTop W) (p : Option Nat) : Keep t ((t.setDist i j w).setPred i j p) :=
  ⟨rfl, rfl, rfl, rfl, rfl, (setPred_view _ _ _ _).trans (setDist_view _ _ _ _), fun h => setPred_lay _ _ _ (setDist_lay _ _ _ h)⟩

theorem keep_loop1a (s t : Nat) (w : W) (l : Loop W) (u : Nat) : Keep l.t (loop1a s t w l u).t := by
  unfold loop1a
  split
  · exact keep_set _ _ _ _ _
  · exact .refl _

theorem keep_loop1b (s t : Nat) (w : W) (l : Loop W) (u : Nat) : Keep l.t (loop1b s t w l u).t := by
  unfold loop1b
  split
  · exact keep_set _ _ _ _ _
  · exact .refl _

theorem keep_loop2 (t : Nat) (l : Loop W) (q : Nat × Nat) : Keep l.t (loop2 t l q).t := by
  unfold loop2
  split
  · exact keep_set _ _ _ _ _
  · exact .refl _

theorem keep_foldl {α : Type} {f : Loop W → α → Loop W} (hf : ∀ l a, Keep l.t (f l a).t) : ∀ (as : List α) (l : Loop W), Keep l.t (as.foldl f l).t
  | [], _ => .refl _
  | a :: as, l => (hf l a).trans (keep_foldl hf as (f l a))

theorem keep_relaxEdge (t : DL W) (s u : Nat) (w : W) : Keep t (t.relaxEdge s u w).1 := by
  unfold relaxEdge
  simp only
  refine (keep_set t s u (w : WithTop W) (some s)).trans ?_
  refine Keep.trans ?_ (keep_foldl (keep_loop2 u) _ _)
  exact keep_foldl (f := fun l x => loop1b s u w (loop1a s u w l x) x) (fun l x => (keep_loop1a _ _ _ _ _).trans (keep_loop1b _ _ _ _ _)) _
    (⟨(t.setDist s u (w : WithTop W)).setPred s u (some s), [], [], [(s, u), (u, s)]⟩ : Loop W)

/-- What an accepted assertion does. -/
structure Step (t t' : DL W) (e : Dist W × Bool) (cu : List (Nat × Nat)) : Prop where
  edge : EdgeOK t.nv t.d (es e) (et e) (ew e)
  rel : Relaxed t.nv t.d t.pred (es e) (et e) (ew e) t' cu
  nv : t'.nv = t.nv
  cap : t'.cap = t.cap
  vd : t'.vd = t.vd
  dcs : t'.dcs = t.dcs
  cur : ∀ i j dd, t'.cur i j = some dd → t.cur i j = some dd ∨ (dd = e.1 ∧ i = es e ∧ j = et e)
  keep : ∀ i j dd, t.cur i j = some dd → t'.cur i j = some dd
  set : (t'.cur (es e) (et e)).isSome
  view : t.LayerOK → t'.view = t.view
  lay : t.LayerOK → t'.LayerOK

theorem step_of (t : DL W) (e : Dist W × Bool) (hb : t.bad = false) (hc : Closed t.nv t.d) (he : EdgeOK t.nv t.d (es e) (et e) (ew e)) :
    Step t ((t.setCur (es e) (et e) e.1).relaxEdge (es e) (et e) (ew e)).1 e ((t.setCur (es e) (et e) e.1).relaxEdge (es e) (et e) (ew e)).2 := by
  have k := keep_relaxEdge (t.setCur (es e) (et e) e.1) (es e) (et e) (ew e)
  have r := relaxEdge_spec (t.setCur (es e) (et e) e.1) (es e) (et e) (ew e) hb hc he
  refine ⟨he, r, k.nv, k.cap, k.vd, k.dcs, fun i j dd h => setCur_cur (by rw [k.cur] at h; exact h), fun i j dd h => by rw [k.cur]; exact setCur_keep h, ?_,
    fun h => by rw [k.view, setCur_view _ _ _ _ h], fun h => k.lay (setCur_lay _ _ _ h)⟩
  rw [k.cur]
  unfold setCur
  simp only
  split
  · simp [upd2]
  · next h => cases hh : t.cur (es e) (et e) <;> simp_all

/-- The three outcomes of an assertion. -/
theorem assertD_spec {t : DL W} {F : List (Dist W × Bool)} (h : Core t F) (dd : Dist W) (sg : Bool) (hs : dd.src < t.nv) (ht : dd.tgt < t.nv)
    (hne : dd.src ≠ dd.tgt) :
    match t.assertD dd sg with
    | .conflict i j => i = et (dd, sg) ∧ j = es (dd, sg) ∧ t.d (et (dd, sg)) (es (dd, sg)) < ((-ew (dd, sg) : W) : WithTop W)
    | .noop => es (dd, sg) < t.nv ∧ et (dd, sg) < t.nv ∧ es (dd, sg) ≠ et (dd, sg) ∧ t.d (es (dd, sg)) (et (dd, sg)) ≤ ((ew (dd, sg) : W) : WithTop W)
    | .update t' cu => Step t t' (dd, sg) cu := by
  cases sg with
  | true =>
    simp only [assertD, if_true]
    by_cases h1 : t.d dd.tgt dd.src < ((-dd.w : W) : WithTop W)
    · rw [if_pos h1]
      exact ⟨rfl, rfl, h1⟩
    · rw [if_neg h1]
      by_cases h2 : (dd.w : WithTop W) < t.d dd.src dd.tgt
      · rw [if_pos h2]
        exact step_of t (dd, true) h.ok h.closed ⟨hs, ht, hne, h2, not_lt.mp h1⟩
      · rw [if_neg h2]
        exact ⟨hs, ht, hne, not_lt.mp h2⟩
  | false =>
    simp only [assertD, Bool.false_eq_true, if_false]
    by_cases h1 : t.d dd.src dd.tgt ≤ (dd.w : WithTop W)
    · rw [if_pos h1]
      refine ⟨rfl, rfl, ?_⟩
      show t.d dd.src dd.tgt < ((-(-dd.w - Dom.one) : W) : WithTop W)
      refine lt_of_le_of_lt h1 ?_
      norm_cast
      have := one_pos (W := W)
      grind
    · rw [if_neg h1]
      by_cases h2 : ((-dd.w : W) : WithTop W) ≤ t.d dd.tgt dd.src
      · rw [if_pos h2]
        refine step_of t (dd, false) h.ok h.closed ⟨ht, hs, hne.symm, ?_, ?_⟩
        · show ((-dd.w - Dom.one : W) : WithTop W) < t.d dd.tgt dd.src
          refine lt_of_lt_of_le ?_ h2
          norm_cast
          have := one_pos (W := W)
          grind
        · show ((-(-dd.w - Dom.one) : W) : WithTop W) ≤ t.d dd.src dd.tgt
          rw [not_le] at h1
          cases hd : t.d dd.src dd.tgt with
          | top => simp
          | coe a =>
            rw [hd] at h1
            norm_cast at h1 ⊢
            have := (Dom.succ dd.w a).mp h1
            grind
      · rw [if_neg h2]
        rw [not_le] at h2
        exact ⟨ht, hs, hne.symm, top_lt_neg_iff.mp h2⟩

/-- A conflict means that the asserted constraints exclude the new one. -/
theorem conflict_sound {t : DL W} {F : List (Dist W × Bool)} (h : Core t F) (e : Dist W × Bool) (hs : es e < t.nv) (ht : et e < t.nv)
    (hlt : t.d (et e) (es e) < ((-ew e : W) : WithTop W)) (X : Nat → W) (hX : SatF X F) : ¬ Holds X e := by
  rw [holds_iff]
  intro h1
  have h2 := lt_of_le_of_lt (h.sound X hX (et e) (es e) ht hs) hlt
  norm_cast at h2
  grind

end
end DL
end Semitone
