import Verif.Sat.Trail

/-!
# A posted clause stays watched, whatever the theories do

The invariants of `Sat/Visit.lean` are about all the clauses at once and need every clause to be a proper one. The theories of the repository may record clauses that are not (a literal twice, a
consequence that does not follow); the clauses posted by the user are proper, and the facts about *one* of them survive whatever happens to the others, as long as the calls return.
-/
namespace Semitone
namespace Sat
variable {T : Type}

/-- `s'` differs from `s` only in fields that the invariant of the trail does not read, or in clauses and watch lists that are still about existing variables and clauses. -/
theorem TW.congr {s s' : Sat T} (h : s.TW) (h1 : s'.nvars = s.nvars) (h2 : s'.assigns = s.assigns) (h3 : s'.trail = s.trail) (h4 : s'.level = s.level) (h5 : s'.trailLim = s.trailLim)
    (h6 : s'.decisions = s.decisions) (h7 : ∀ p ∈ s'.propQ, p ∈ s.propQ) (h8 : ∀ c, ∀ l ∈ s'.db c, l.var < s.nvars) (h9 : ∀ m, ∀ c ∈ s'.watches m, c < s'.ncls) : s'.TW := by
  constructor
  case nv => rw [h1]; exact h.nv
  case fv => rw [h2]; exact h.fv
  case fvt => rw [h3]; exact h.fvt
  case rng => rw [h1, h2]; exact h.rng
  case tval => rw [h2, h3]; exact h.tval
  case tnd => rw [h3]; exact h.tnd
  case off => rw [h3, h4]; exact h.off
  case tlv => rw [h3, h4, h5]; exact h.tlv
  case lims => rw [h5]; exact h.lims
  case limle => rw [h3, h5]; exact h.limle
  case dec => rw [h5, h6]; exact h.dec
  case que =>
    intro p hp
    have := h.que p (h7 p hp)
    rw [h3, h4]
    refine ⟨this.1, this.2.trans ?_⟩
    simp [dl, h5]
  case crng => rw [h1]; exact h8
  case wlt => exact h9

theorem TW.clearQ {s : Sat T} (h : s.TW) : ({ s with propQ := [] } : Sat T).TW :=
  h.congr rfl rfl rfl rfl rfl rfl (by simp) h.crng h.wlt

theorem TW.tru_iff {s : Sat T} (h : s.TW) (q : Lit) : s.tru s.dl q ↔ s.value q = some true :=
  ⟨fun x => x.1, fun x => ⟨x, h.level_le _⟩⟩

/-- A watch `w` of a clause whose other watch is `w'` is in order: if it is false then its negation is still to be propagated, or `Q` holds, or the other watch was true in time. -/
def WOk (s : Sat T) (Q : Lit → Prop) (w w' : Lit) : Prop :=
  s.value w = some false → w.neg ∈ s.propQ ∨ Q w ∨ (s.value w' = some true ∧ s.level w'.var ≤ s.level w.var)

/-- The clause object `c` is a proper clause and is properly watched; `ex m` of its watches are out of the list of `m`. -/
structure Wt (s : Sat T) (c : Nat) (Q : Lit → Prop) (ex : Lit → Nat) : Prop where
  lt : c < s.ncls
  nd : ((s.db c).map Lit.var).Nodup
  cnt : ∀ m, (s.watches m).count c + ex m = wc (s.db c) m
  wat : ∃ l0 l1 r, s.db c = l0 :: l1 :: r ∧ s.WOk Q l0 l1 ∧ s.WOk Q l1 l0

/-- Nothing is out of the lists. -/
def ex0 : Lit → Nat := fun _ => 0

/-- The clause object `c` is properly watched and everything is in its place. -/
def Wtd (s : Sat T) (c : Nat) : Prop := s.Wt c (fun _ => False) ex0

/-- The same, except for watches falsified at the current decision level. -/
def WtdC (s : Sat T) (c : Nat) : Prop := s.Wt c (fun w => s.level w.var = s.dl) ex0

/-- What happens between two retractions: literals become true and are queued. -/
structure Gr (s s' : Sat T) : Prop where
  tw : s'.TW
  nv : s'.nvars = s.nvars
  lim : s'.trailLim = s.trailLim
  decs : s'.decisions = s.decisions
  bnd : s'.bounds = s.bounds
  post : s'.posted = s.posted
  dead : s'.dead = s.dead
  old : ∀ v, s.assigns v ≠ none → s'.assigns v = s.assigns v ∧ s'.level v = s.level v
  new : ∀ q, s'.value q = some true → s.value q = some true ∨ q ∈ s'.propQ
  que : ∀ q ∈ s.propQ, q ∈ s'.propQ

/-- The same, and what is properly watched stays so. -/
structure Up (s s' : Sat T) : Prop extends Gr s s' where
  wt : ∀ c Q ex, s.Wt c Q ex → s'.Wt c Q ex ∧ ∀ l, l ∈ s'.db c ↔ l ∈ s.db c

theorem Gr.dl {s s' : Sat T} (h : Gr s s') : s'.dl = s.dl := by simp [Sat.dl, h.lim]

theorem Gr.refl {s : Sat T} (h : s.TW) : Gr s s :=
  ⟨h, rfl, rfl, rfl, rfl, rfl, rfl, fun _ _ => ⟨rfl, rfl⟩, fun _ h => .inl h, fun _ h => h⟩

theorem Up.refl {s : Sat T} (h : s.TW) : Up s s := ⟨.refl h, fun _ _ _ h => ⟨h, fun _ => Iff.rfl⟩⟩

theorem Gr.trans {s1 s2 s3 : Sat T} (h1 : Gr s1 s2) (h2 : Gr s2 s3) : Gr s1 s3 where
  tw := h2.tw
  nv := h2.nv.trans h1.nv
  lim := h2.lim.trans h1.lim
  decs := h2.decs.trans h1.decs
  bnd := h2.bnd.trans h1.bnd
  post := h2.post.trans h1.post
  dead := h2.dead.trans h1.dead
  old := fun v hv => by
    obtain ⟨a, b⟩ := h1.old v hv
    obtain ⟨c, d⟩ := h2.old v (by rw [a]; exact hv)
    exact ⟨c.trans a, d.trans b⟩
  new := fun q hq => by
    rcases h2.new q hq with h | h
    · rcases h1.new q h with h | h
      · exact .inl h
      · exact .inr (h2.que q h)
    · exact .inr h
  que := fun q hq => h2.que q (h1.que q hq)

theorem Up.trans {s1 s2 s3 : Sat T} (h1 : Up s1 s2) (h2 : Up s2 s3) : Up s1 s3 where
  toGr := h1.toGr.trans h2.toGr
  wt := fun c Q ex h => by
    obtain ⟨a, b⟩ := h1.wt c Q ex h
    obtain ⟨a', b'⟩ := h2.wt c Q ex a
    exact ⟨a', fun l => (b' l).trans (b l)⟩

theorem Gr.val {s s' : Sat T} (h : Gr s s') {q : Lit} {b} (hq : s.value q = some b) : s'.value q = some b := by
  rw [value_eq] at hq ⊢
  rw [(h.old q.var (by rw [hq]; simp)).1]; exact hq

theorem Gr.lev {s s' : Sat T} (h : Gr s s') {q : Lit} {b} (hq : s.value q = some b) : s'.level q.var = s.level q.var := by
  rw [value_eq] at hq
  exact (h.old q.var (by rw [hq]; simp)).2

theorem Gr.tru_keep {s s' : Sat T} (h : Gr s s') {i : Nat} {q : Lit} (hq : s.tru i q) : s'.tru i q :=
  ⟨h.val hq.1, by rw [h.lev hq.1]; exact hq.2⟩

theorem Gr.tru_low {s s' : Sat T} (h : Gr s s') {i : Nat} {q : Lit} (hi : i < s'.dl) (hq : s'.tru i q) : s.tru i q := by
  rcases h.new q hq.1 with h1 | h1
  · exact ⟨h1, by rw [← h.lev h1]; exact hq.2⟩
  · have := (h.tw.que q h1).2
    have := hq.2
    omega

theorem Gr.tru_new {s s' : Sat T} (h : Gr s s') (hw : s.TW) {q : Lit} (hq : s'.tru s'.dl q) : s.tru s.dl q ∨ q ∈ s'.propQ := by
  rcases h.new q hq.1 with h1 | h1
  · exact .inl ((hw.tru_iff q).2 h1)
  · exact .inr h1

/-- The watches of a clause that is not touched stay in order. -/
theorem WOk.up {s s' : Sat T} {Q w w'} (h : s.WOk Q w w') (ho : ∀ v, s.assigns v ≠ none → s'.assigns v = s.assigns v ∧ s'.level v = s.level v)
    (hn : ∀ q, s'.value q = some true → s.value q = some true ∨ q ∈ s'.propQ) (hq : ∀ q ∈ s.propQ, q ∈ s'.propQ) : s'.WOk Q w w' := by
  intro hf
  have hval : ∀ {q : Lit} {b}, s.value q = some b → s'.value q = some b ∧ s'.level q.var = s.level q.var := by
    intro q b hq'
    rw [value_eq] at hq' ⊢
    obtain ⟨a, b⟩ := ho q.var (by rw [hq']; simp)
    exact ⟨by rw [a]; exact hq', b⟩
  rcases hn w.neg ((value_neg_true _ _).2 hf) with h1 | h1
  · have h2 := (value_neg_true _ _).1 h1
    rcases h h2 with h3 | h3 | ⟨h3, h4⟩
    · exact .inl (hq _ h3)
    · exact .inr (.inl h3)
    · refine .inr (.inr ⟨(hval h3).1, ?_⟩)
      rw [(hval h3).2, (hval h2).2]; exact h4
  · exact .inl h1

/-- A clause that is not touched stays watched. -/
theorem Wt.up {s s' : Sat T} {c Q ex} (h : s.Wt c Q ex) (hl : s.ncls ≤ s'.ncls) (hd : s'.db c = s.db c) (hc : ∀ m, (s'.watches m).count c = (s.watches m).count c)
    (ho : ∀ v, s.assigns v ≠ none → s'.assigns v = s.assigns v ∧ s'.level v = s.level v)
    (hn : ∀ q, s'.value q = some true → s.value q = some true ∨ q ∈ s'.propQ) (hq : ∀ q ∈ s.propQ, q ∈ s'.propQ) : s'.Wt c Q ex := by
  obtain ⟨l0, l1, r, e, a, b⟩ := h.wat
  refine ⟨Nat.lt_of_lt_of_le h.lt hl, by rw [hd]; exact h.nd, fun m => by rw [hd, hc]; exact h.cnt m, l0, l1, r, by rw [hd, e], a.up ho hn hq, b.up ho hn hq⟩

/-! ### Single steps -/

theorem enq_up {s : Sat T} (h : s.TW) {p : Lit} {c} (hp : s.value p = none) (hr : p.var < s.nvars) : Up s (s.enq p c) := by
  have hpa := (value_none _ _).1 hp
  have ho : ∀ v, s.assigns v ≠ none → (s.enq p c).assigns v = s.assigns v ∧ (s.enq p c).level v = s.level v := by
    intro v hv
    have e : v ≠ p.var := fun e => hv (by rw [e]; exact hpa)
    simp [Sat.enq, upd_ne _ _ e]
  have hn : ∀ q, (s.enq p c).value q = some true → s.value q = some true ∨ q ∈ (s.enq p c).propQ := by
    have := (enqueue_quiet s p c).2
    rw [enqueue_none hp] at this
    exact this
  have hq : ∀ q ∈ s.propQ, q ∈ (s.enq p c).propQ := by intro q hq; simp [Sat.enq, hq]
  exact ⟨⟨h.enq hp hr, rfl, rfl, rfl, rfl, rfl, rfl, ho, hn, hq⟩, fun d Q ex hd => ⟨hd.up (Nat.le_refl _) rfl (fun _ => rfl) ho hn hq, fun _ => Iff.rfl⟩⟩

theorem enqueue_up {s : Sat T} (h : s.TW) {p : Lit} {c} (hr : p.var < s.nvars) : Up s (s.enqueue p c).1 := by
  match hv : s.value p with
  | some b => rw [enqueue_some hv]; exact .refl h
  | none => rw [enqueue_none hv]; exact enq_up h hv hr

/-- Only clauses other than `c` are touched. -/
theorem Up.of_same {s s' : Sat T} (htw : s'.TW) (h1 : s'.nvars = s.nvars) (h2 : s'.assigns = s.assigns) (h4 : s'.level = s.level) (h5 : s'.trailLim = s.trailLim)
    (h6 : s'.decisions = s.decisions) (h7 : s'.propQ = s.propQ) (h8 : s'.bounds = s.bounds) (h9 : s'.posted = s.posted) (h10 : s'.dead = s.dead)
    (hw : ∀ c Q ex, s.Wt c Q ex → s'.Wt c Q ex ∧ ∀ l, l ∈ s'.db c ↔ l ∈ s.db c) : Up s s' := by
  refine ⟨⟨htw, h1, h5, h6, h8, h9, h10, fun v _ => by rw [h2, h4]; exact ⟨rfl, rfl⟩, fun q hq => .inl ?_, fun q hq => by rw [h7]; exact hq⟩, hw⟩
  rw [value_true] at hq ⊢
  rw [← h2]; exact hq

theorem newClauseObj_up {s s' : Sat T} {ls c} (h : s.TW) (hr : ∀ l ∈ ls, l.var < s.nvars) (he : s.newClauseObj ls = .ok (s', c)) :
    Up s s' ∧ c = s.ncls ∧ s'.ncls = s.ncls + 1 ∧ s'.db c = ls ∧ s'.th = s.th := by
  unfold newClauseObj at he
  split at he
  · rename_i l0 l1 r
    injection he with he; injection he with h1 h2; subst h1 h2
    refine ⟨Up.of_same (h.congr rfl rfl rfl rfl rfl rfl (fun _ h => h) ?_ ?_) rfl rfl rfl rfl rfl rfl rfl rfl rfl ?_, rfl, rfl, by simp, rfl⟩
    · intro c l hl
      by_cases e : c = s.ncls
      · subst e
        simp only [upd_self] at hl
        exact hr l hl
      · simp only [upd_ne _ _ e] at hl
        exact h.crng c l hl
    · intro m c hc
      have : c ∈ s.watches m ∨ c = s.ncls := by
        simp only [upd] at hc
        split at hc
        · split at hc
          · simp at hc; rename_i e1 e2; rw [e2.symm] at *; simp_all
          · simp at hc; rename_i e1 e2; simp_all
        · split at hc
          · rename_i e1 e2; simp_all
          · exact .inl hc
      rcases this with h1 | h1
      · have := h.wlt m c h1; show c < s.ncls + 1; omega
      · show c < s.ncls + 1; omega
    · intro c Q ex hc
      have hne : c ≠ s.ncls := by have := hc.lt; omega
      refine ⟨hc.up (Nat.le_succ _) (upd_ne _ _ hne) (fun m => ?_) (fun _ _ => ⟨rfl, rfl⟩) (fun _ h => .inl h) (fun _ h => h), fun l => by
        show l ∈ upd s.db s.ncls _ c ↔ _
        rw [upd_ne _ _ hne]⟩
      have hz : ∀ l : List Nat, (l ++ [s.ncls]).count c = l.count c := by
        intro l
        rw [List.count_append, List.count_eq_zero.2 (by simpa using hne : c ∉ [s.ncls]), Nat.add_zero]
      simp only [upd]
      split <;> split
      · rename_i e1 e2
        rw [hz, hz, e1, e2]
      · rename_i e1 e2
        rw [hz, e1]
      · rename_i e1 e2
        rw [hz, e2]
      · rfl
  · cases he

theorem record_up {E : Env} {s s' : Sat T} {ls : List Lit} (h : s.TW) (he : s.record E ls = .ok s') :
    Up s s' ∧ s'.th = s.th ∧ ∃ l0 rest, ls = l0 :: rest ∧ s.value l0 = none ∧ (∀ q ∈ rest, s.value q = some false) ∧ s'.value l0 = some true ∧ l0 ∈ s'.propQ ∧
      ∀ q, s'.value q = some true → s.value q = some true ∨ q = l0 := by
  unfold record at he
  split at he
  · cases he
  rename_i l0 rest
  split at he
  · cases he
  rename_i hin
  have hin : ∀ l ∈ l0 :: rest, l.var < s.nvars := by simpa [inRange] using hin
  split at he
  case isFalse => cases he
  rename_i hv
  obtain ⟨hv0, hvf⟩ := hv
  have hvf : ∀ q ∈ rest, s.value q = some false := by simpa using hvf
  have fin : ∀ {s'' : Sat T}, s''.assigns = upd s.assigns l0.var (some l0.sign) → s''.value l0 = some true ∧ ∀ q, s''.value q = some true → s.value q = some true ∨ q = l0 := by
    intro s'' hass
    refine ⟨by rw [value_true, hass, upd_self], fun q hq => ?_⟩
    have hqa := (value_true _ _).1 hq
    rw [hass] at hqa
    by_cases e : q.var = l0.var
    · rw [e, upd_self] at hqa
      injection hqa with hqa
      exact .inr (lit_ext e hqa.symm)
    · rw [upd_ne _ _ e] at hqa
      exact .inl ((value_true _ _).2 hqa)
  split at he
  · split at he
    · injection he with he; subst he
      rw [enqueue_none hv0]
      have := fin (s'' := s.enq l0 none) rfl
      exact ⟨enq_up h hv0 (hin _ (by simp)), rfl, l0, [], rfl, hv0, hvf, this.1, by simp [Sat.enq], this.2⟩
    · cases he
  · rename_i x xs _ _
    match hc : s.newClauseObj (l0 :: E.sortLvl s.level (x :: xs)) with
    | .error _ => simp [hc] at he
    | .ok (s1, c) =>
      simp only [hc] at he
      injection he with he; subst he
      have hmem : ∀ l ∈ l0 :: E.sortLvl s.level (x :: xs), l.var < s.nvars := by
        intro l hl
        rcases List.mem_cons.1 hl with rfl | hl
        · exact hin _ (by simp)
        · exact hin _ (List.mem_cons_of_mem _ ((E.sortLvl_perm s.level (x :: xs)).mem_iff.1 hl))
      obtain ⟨U1, -, -, -, hth⟩ := newClauseObj_up h hmem hc
      have hv1 : s1.value l0 = none := by
        unfold newClauseObj at hc
        split at hc
        · injection hc with hc; injection hc with hc _; subst hc; exact hv0
        · cases hc
      rw [enqueue_none hv1]
      have U2 := enq_up (c := some c) U1.tw hv1 (by rw [U1.nv]; exact hin _ (by simp))
      have hass1 : s1.assigns = s.assigns := by
        unfold newClauseObj at hc
        split at hc
        · injection hc with hc; injection hc with hc _; subst hc; rfl
        · cases hc
      have U3 : Up (s1.enq l0 (some c)) { s1.enq l0 (some c) with constrs := (s1.enq l0 (some c)).constrs ++ [c] } :=
        Up.of_same (U2.tw.congr rfl rfl rfl rfl rfl rfl (fun _ h => h) U2.tw.crng U2.tw.wlt) rfl rfl rfl rfl rfl rfl rfl rfl rfl (fun c Q ex h => ⟨⟨h.lt, h.nd, h.cnt, h.wat⟩, fun _ => Iff.rfl⟩)
      have := fin (s'' := { s1.enq l0 (some c) with constrs := (s1.enq l0 (some c)).constrs ++ [c] }) (by show upd s1.assigns _ _ = _; rw [hass1])
      exact ⟨(U1.trans U2).trans U3, hth, l0, x :: xs, rfl, hv0, hvf, this.1, by simp [Sat.enq], this.2⟩

/-- The watch lists of a new clause. -/
theorem newClauseObj_cnt {s s' : Sat T} {ls c} (h : s.TW) (he : s.newClauseObj ls = .ok (s', c)) : ∀ m, (s'.watches m).count c = wc ls m := by
  unfold newClauseObj at he
  split at he
  · rename_i l0 l1 r
    injection he with he; injection he with h1 h2; subst h1 h2
    intro m
    have h0 : ∀ m, (s.watches m).count s.ncls = 0 := fun m => List.count_eq_zero.2 (fun hm => Nat.lt_irrefl _ (h.wlt m _ hm))
    have hz : ∀ l : List Nat, (l ++ [s.ncls]).count s.ncls = l.count s.ncls + 1 := by
      intro l; rw [List.count_append]; simp
    have e1 : ∀ l : Lit, (l = m.neg) = (m = l.neg) := by
      intro l
      apply propext
      constructor
      · rintro rfl; rw [Lit.neg_neg]
      · rintro rfl; rw [Lit.neg_neg]
    simp only [wc, e1, upd]
    split <;> split <;> simp_all
  · cases he

theorem record_wt {E : Env} {s s' : Sat T} {l0 : Lit} {rest : List Lit} (h : s.TW) (he : s.record E (l0 :: rest) = .ok s') (hnd : ((l0 :: rest).map Lit.var).Nodup)
    (hl : ∃ q ∈ rest, s.level q.var = s.dl) : ∃ c, s'.Wtd c ∧ ∀ l ∈ s'.db c, l ∈ l0 :: rest := by
  obtain ⟨U, -, l0', rest', e, hv0, hvf, hv1, -, -⟩ := record_up h he
  injection e with e1 e2; subst e1 e2
  unfold record at he
  simp only at he
  split at he
  · cases he
  rename_i hin
  have hin : ∀ l ∈ l0 :: rest, l.var < s.nvars := by simpa [inRange] using hin
  split at he
  case isFalse => cases he
  match rest, hl, hnd, hvf, hin, he with
  | [], hl, _, _, _, _ => obtain ⟨q, hq, -⟩ := hl; cases hq
  | x :: xs, hl, hnd, hvf, hin, he =>
    simp only at he
    match hc : s.newClauseObj (l0 :: E.sortLvl s.level (x :: xs)) with
    | .error _ => simp [hc] at he
    | .ok (s1, c) =>
      simp only [hc] at he
      injection he with he
      have hp := E.sortLvl_perm s.level (x :: xs)
      have hsrt := E.sortLvl_sorted s.level (x :: xs)
      have hmem : ∀ l ∈ l0 :: E.sortLvl s.level (x :: xs), l.var < s.nvars := by
        intro l hl
        rcases List.mem_cons.1 hl with rfl | hl
        · exact hin _ (by simp)
        · exact hin _ (List.mem_cons_of_mem _ (hp.mem_iff.1 hl))
      obtain ⟨U1, hcn, hn1, hdb, -⟩ := newClauseObj_up h hmem hc
      have hcnt := newClauseObj_cnt h hc
      have hsame : s1.assigns = s.assigns ∧ s1.level = s.level := by
        unfold newClauseObj at hc
        split at hc
        · injection hc with hc; injection hc with hc _; subst hc; exact ⟨rfl, rfl⟩
        · cases hc
      have hv1' : s1.value l0 = none := by rw [value_none] at hv0 ⊢; rw [hsame.1]; exact hv0
      rw [enqueue_none hv1'] at he
      have hdb' : s'.db c = l0 :: E.sortLvl s.level (x :: xs) := by rw [← he]; exact hdb
      have hw' : s'.watches = s1.watches := by rw [← he]; rfl
      have hnc' : s'.ncls = s1.ncls := by rw [← he]; rfl
      match hs : E.sortLvl s.level (x :: xs) with
      | [] => rw [hs] at hp; have := hp.length_eq; simp at this
      | l1 :: r =>
        rw [hs] at hdb' hp hsrt
        have hlev : s.level l1.var = s.dl := by
          obtain ⟨q, hq, hql⟩ := hl
          have h1 := h.level_le l1.var
          rcases List.mem_cons.1 (hp.mem_iff.2 hq) with e | e
          · rw [← e]; exact hql
          · have := (List.pairwise_cons.1 hsrt).1 q e
            omega
        have hf1 := hvf l1 (hp.mem_iff.1 (by simp))
        refine ⟨c, ⟨by rw [hnc', hn1, hcn]; omega, ?_, fun m => ?_, l0, l1, r, hdb', ?_, ?_⟩, ?_⟩
        · rw [hdb']
          refine (List.Perm.nodup_iff ?_).1 hnd
          exact ((hp.symm.map Lit.var).cons _)
        · rw [hw', hcnt m, hdb', hs]; rfl
        · intro hf; rw [hv1] at hf; cases hf
        · intro _
          refine .inr (.inr ⟨hv1, ?_⟩)
          rw [U.lev hf1, hlev, ← U.dl]
          exact U.tw.level_le _
        · intro l hl
          rw [hdb'] at hl
          rcases List.mem_cons.1 hl with rfl | hl
          · simp
          · exact List.mem_cons_of_mem _ (hp.mem_iff.1 hl)

/-! ### The watchers of a literal -/

theorem findNonFalse_some {val : Lit → Option Bool} : ∀ {ls : List Lit} {pre x post}, findNonFalse val ls = some (pre, x, post) →
    ls = pre ++ x :: post ∧ val x ≠ some false ∧ ∀ l ∈ pre, val l = some false := by
  intro ls
  induction ls with
  | nil => intro pre x post h; simp [findNonFalse] at h
  | cons l ls ih =>
    intro pre x post h
    unfold findNonFalse at h
    split at h
    · rename_i hv
      injection h with h; injection h with h1 h2; injection h2 with h2 h3; subst h1 h2 h3
      exact ⟨rfl, hv, by simp⟩
    · rename_i hv
      split at h
      · cases h
      · rename_i pre' x' post' hf
        injection h with h; injection h with h1 h2; injection h2 with h2 h3; subst h1 h2 h3
        obtain ⟨a, b, c⟩ := ih hf
        refine ⟨by rw [a]; rfl, b, fun m hm => ?_⟩
        rcases List.mem_cons.1 hm with rfl | hm
        · simpa using hv
        · exact c m hm

/-- What `clause::propagate` does to the trail and to the other clauses. -/
structure Other (s s' : Sat T) (d : Nat) : Prop extends Gr s s' where
  th : s'.th = s.th
  ncls : s'.ncls = s.ncls
  wt : ∀ c Q ex, c ≠ d → s.Wt c Q ex → s'.Wt c Q ex ∧ s'.db c = s.db c

/-- The clause is rewritten and watched under one more literal. -/
theorem TW.rewrite {s : Sat T} (h : s.TW) {d : Nat} {ls : List Lit} {m : Lit} (hd : d < s.ncls) (hl : ∀ l ∈ ls, l.var < s.nvars) :
    ({ s with db := upd s.db d ls, watches := upd s.watches m (s.watches m ++ [d]) } : Sat T).TW := by
  refine h.congr rfl rfl rfl rfl rfl rfl (fun _ h => h) ?_ ?_
  · intro c l hl'
    by_cases e : c = d
    · subst e; simp only [upd_self] at hl'; exact hl l hl'
    · simp only [upd_ne _ _ e] at hl'; exact h.crng c l hl'
  · intro x c hc
    by_cases e : x = m
    · subst e
      simp only [upd_self, List.mem_append, List.mem_singleton] at hc
      rcases hc with hc | rfl
      · exact h.wlt x c hc
      · exact hd
    · simp only [upd_ne _ _ e] at hc; exact h.wlt x c hc

theorem Other.rewrite {s : Sat T} (h : s.TW) {d : Nat} {ls : List Lit} {m : Lit} (hd : d < s.ncls) (hl : ∀ l ∈ ls, l.var < s.nvars) :
    Other s { s with db := upd s.db d ls, watches := upd s.watches m (s.watches m ++ [d]) } d := by
  refine ⟨⟨h.rewrite hd hl, rfl, rfl, rfl, rfl, rfl, rfl, fun _ _ => ⟨rfl, rfl⟩, fun _ h => .inl h, fun _ h => h⟩, rfl, rfl, fun c Q ex hne hc => ⟨?_, upd_ne _ _ hne⟩⟩
  refine hc.up (Nat.le_refl _) (upd_ne _ _ hne) (fun x => ?_) (fun _ _ => ⟨rfl, rfl⟩) (fun _ h => .inl h) (fun _ h => h)
  by_cases e : x = m
  · subst e
    simp only [upd_self]
    rw [List.count_append, List.count_eq_zero.2 (by simpa using hne : c ∉ [d]), Nat.add_zero]
  · simp only [upd_ne _ _ e]

theorem Other.enqueue {s s1 : Sat T} {d : Nat} (h : Other s s1 d) {a : Lit} {r} (ha : a.var < s.nvars) : Other s (s1.enqueue a r).1 d := by
  have U := enqueue_up (c := r) h.tw (p := a) (by rw [h.nv]; exact ha)
  have hth : (s1.enqueue a r).1.th = s1.th ∧ (s1.enqueue a r).1.ncls = s1.ncls ∧ (s1.enqueue a r).1.db = s1.db := by
    match hv : s1.value a with
    | some b => rw [enqueue_some hv]; exact ⟨rfl, rfl, rfl⟩
    | none => rw [enqueue_none hv]; exact ⟨rfl, rfl, rfl⟩
  refine ⟨h.toGr.trans U.toGr, hth.1.trans h.th, hth.2.1.trans h.ncls, fun c Q ex hne hc => ?_⟩
  · obtain ⟨x, y⟩ := h.wt c Q ex hne hc
    exact ⟨(U.wt c Q ex x).1, by rw [hth.2.2]; exact y⟩

theorem clausePropagateAB_other {s s' : Sat T} {d : Nat} {p a b : Lit} {rest : List Lit} {ok : Bool} (h : s.TW) (hd : d < s.ncls) (hl : ∀ l ∈ a :: b :: rest, l.var < s.nvars)
    (he : s.clausePropagateAB d p a b rest = .ok (s', ok)) : Other s s' d := by
  unfold clausePropagateAB at he
  split at he
  · injection he with he; injection he with h1 h2; subst h1
    exact Other.rewrite h hd hl
  · split at he
    · rename_i x post hf
      injection he with he; injection he with h1 h2; subst h1
      obtain ⟨e, -, -⟩ := findNonFalse_some hf
      refine Other.rewrite h hd ?_
      rw [e] at hl
      simpa using hl
    · rename_i b' pre x post hf
      injection he with he; injection he with h1 h2; subst h1
      obtain ⟨e, -, -⟩ := findNonFalse_some hf
      refine Other.rewrite h hd ?_
      rw [e] at hl
      intro l hl'
      apply hl
      simp at hl' ⊢
      tauto
    · injection he with he
      have := (Other.rewrite (m := p) h hd hl).enqueue (a := a) (r := some d) (hl a (by simp))
      rw [he] at this
      exact this

theorem clausePropagate_other {s s' : Sat T} {d : Nat} {p : Lit} {ok : Bool} (h : s.TW) (hd : d < s.ncls) (he : s.clausePropagate d p = .ok (s', ok)) : Other s s' d := by
  unfold clausePropagate at he
  split at he
  · rename_i l0 l1 rest hdb
    have hl := h.crng d
    rw [hdb] at hl
    split at he
    · refine clausePropagateAB_other h hd ?_ he
      intro l hl'; apply hl; simp at hl' ⊢; tauto
    · exact clausePropagateAB_other h hd hl he
  · cases he

theorem neg_eq_iff (l m : Lit) : l = m.neg ↔ m = l.neg := by
  constructor
  · rintro rfl; rw [Lit.neg_neg]
  · rintro rfl; rw [Lit.neg_neg]

theorem wc_two (a b : Lit) (r : List Lit) (m : Lit) : wc (a :: b :: r) m = (if m = a.neg then 1 else 0) + (if m = b.neg then 1 else 0) := by
  simp only [wc, neg_eq_iff]

/-- The clause itself, when its watch `b` has become false. -/
theorem clausePropagateAB_self {s s' : Sat T} {c : Nat} {p a b : Lit} {rest : List Lit} {ok : Bool} (h : s.TW) (hc : c < s.ncls) (hl : ∀ l ∈ a :: b :: rest, l.var < s.nvars)
    (hnd : ((a :: b :: rest).map Lit.var).Nodup) (hb : p = b.neg) (hv : s.value p = some true) (hlv : s.level p.var = s.dl)
    (hcnt : ∀ m, (s.watches m).count c = if m = a.neg then 1 else 0) (hwa : s.value a = some false → a.neg ∈ s.propQ)
    (he : s.clausePropagateAB c p a b rest = .ok (s', ok)) :
    (∀ l, l ∈ s'.db c ↔ l ∈ a :: b :: rest) ∧ (ok = true → s'.Wtd c) ∧ (ok = false → s'.WtdC c) := by
  have hbf : s.value b = some false := by rw [hb] at hv; exact (value_neg_true _ _).1 hv
  have hbl : s.level b.var = s.dl := by rw [hb, Lit.neg_var] at hlv; exact hlv
  have hab : a.var ≠ b.var := by
    simp only [List.map_cons, List.nodup_cons, List.mem_cons] at hnd
    exact fun e => hnd.1 (.inl e)
  have hp2 : ∀ (u : Sat T) (m : Lit), u.watches = upd s.watches p (s.watches p ++ [c]) → (u.watches m).count c = wc (a :: b :: rest) m := by
    intro u m hu
    rw [hu, wc_two, ← hb]
    by_cases e : m = p
    · subst e
      rw [upd_self, List.count_append, hcnt]
      simp
    · rw [upd_ne _ _ e, hcnt, if_neg e, Nat.add_zero]
  unfold clausePropagateAB at he
  split at he
  · rename_i hat
    injection he with he; injection he with h1 h2; subst h1 h2
    refine ⟨fun l => by simp, fun _ => ⟨hc, by simpa using hnd, fun m => ?_, a, b, rest, by simp, ?_, ?_⟩, by simp⟩
    · show _ + 0 = wc (upd s.db c _ c) m
      rw [upd_self, Nat.add_zero]
      exact hp2 _ m rfl
    · intro hf
      have hf : s.value a = some false := hf
      rw [hat] at hf; cases hf
    · intro _
      refine .inr (.inr ⟨hat, ?_⟩)
      show s.level a.var ≤ s.level b.var
      rw [hbl]; exact h.level_le _
  · rename_i hat
    split at he
    · rename_i x post hf
      obtain ⟨e, hx, -⟩ := findNonFalse_some hf
      simp at e
      rw [← e.1] at hx
      exact absurd hbf hx
    · rename_i b' pre x post hf
      obtain ⟨e, hx, hpre⟩ := findNonFalse_some hf
      simp at e
      obtain ⟨e1, e2⟩ := e
      subst e1
      injection he with he; injection he with h1 h2; subst h1 h2
      have hperm : (a :: x :: (pre ++ b :: post)).Perm (a :: b :: rest) := by
        rw [e2]
        refine List.Perm.cons _ ?_
        have h1 : (x :: (pre ++ b :: post)).Perm (x :: b :: (pre ++ post)) := List.Perm.cons _ (List.perm_middle)
        have h2 : (b :: (pre ++ x :: post)).Perm (b :: x :: (pre ++ post)) := List.Perm.cons _ (List.perm_middle)
        exact h1.trans ((List.Perm.swap _ _ _).trans h2.symm)
      have hnd' := ((hperm.map Lit.var).nodup_iff).2 hnd
      have hax : a.var ≠ x.var := by
        simp only [List.map_cons, List.nodup_cons, List.mem_cons] at hnd'
        exact fun e => hnd'.1 (.inl e)
      refine ⟨fun l => by simp only [upd_self]; exact hperm.mem_iff, fun _ => ⟨hc, by simp only [upd_self]; exact hnd', fun m => ?_, a, x, pre ++ b :: post, by simp only [upd_self], ?_, ?_⟩, by simp⟩
      · show (upd s.watches x.neg _ m).count c + 0 = wc (upd s.db c _ c) m
        rw [upd_self, Nat.add_zero, wc_two]
        by_cases em : m = x.neg
        · subst em
          rw [upd_self, List.count_append, hcnt]
          simp
        · rw [upd_ne _ _ em, hcnt, if_neg em, Nat.add_zero]
      · intro hf
        exact .inl (hwa hf)
      · intro hf
        exact absurd hf hx
    · injection he with he
      generalize hs1 : ({ s with db := upd s.db c (a :: b :: rest), watches := upd s.watches p (s.watches p ++ [c]) } : Sat T) = s1 at he
      have hT1 : s1.TW := by rw [← hs1]; exact h.rewrite hc hl
      have hdb1 : s1.db c = a :: b :: rest := by rw [← hs1]; simp
      have hcnt1 : ∀ m, (s1.watches m).count c + 0 = wc (s1.db c) m := by
        intro m; rw [hdb1, Nat.add_zero]; exact hp2 _ m (by rw [← hs1])
      have hlt1 : c < s1.ncls := by rw [← hs1]; exact hc
      have hv1 : ∀ q, s1.value q = s.value q := by rw [← hs1]; exact fun _ => rfl
      have hl1 : s1.level = s.level := by rw [← hs1]
      have hq1 : s1.propQ = s.propQ := by rw [← hs1]
      have hd1 : s1.dl = s.dl := by rw [← hs1]; rfl
      have hr1 : a.var < s1.nvars := by rw [← hs1]; exact hl a (by simp)
      match hva : s1.value a with
      | some true => rw [hv1] at hva; exact absurd hva hat
      | some false =>
        rw [enqueue_some hva] at he
        injection he with h1 h2; subst h1 h2
        refine ⟨fun l => by rw [hdb1], by simp, fun _ => ⟨hlt1, by rw [hdb1]; exact hnd, hcnt1, a, b, rest, hdb1, ?_, ?_⟩⟩
        · intro _
          left; rw [hq1]; exact hwa (by rw [← hv1]; exact hva)
        · intro _
          right; left
          show s1.level b.var = s1.dl
          rw [hl1, hd1]; exact hbl
      | none =>
        rw [enqueue_none hva] at he
        injection he with h1 h2; subst h1 h2
        have U := enq_up (c := some c) hT1 hva hr1
        refine ⟨fun l => by show l ∈ s1.db c ↔ _; rw [hdb1], fun _ => ⟨hlt1, by show ((s1.db c).map Lit.var).Nodup; rw [hdb1]; exact hnd, hcnt1, a, b, rest, hdb1, ?_, ?_⟩, by simp⟩
        · intro hf; rw [enq_value_self] at hf; cases hf
        · intro _
          refine .inr (.inr ⟨enq_value_self _ _ _, ?_⟩)
          rw [U.lev (q := b) (b := false) (by rw [hv1]; exact hbf), hl1, hbl, ← hd1, ← U.dl]
          exact U.tw.level_le _

/-- While the watchers `cs` of `p` remain to be visited. -/
def QV (p : Lit) (k : Nat) : Lit → Prop := fun w => w.neg = p ∧ 0 < k
def exV (p : Lit) (k : Nat) : Lit → Nat := fun m => if m = p then k else 0

theorem clausePropagate_self {s s' : Sat T} {c k : Nat} {p : Lit} {ok : Bool} (h : s.TW) (hv : s.value p = some true) (hlv : s.level p.var = s.dl)
    (hW : s.Wt c (QV p (k + 1)) (exV p (k + 1))) (he : s.clausePropagate c p = .ok (s', ok)) :
    k = 0 ∧ (∀ l, l ∈ s'.db c ↔ l ∈ s.db c) ∧ (ok = true → s'.Wtd c) ∧ (ok = false → s'.WtdC c) := by
  obtain ⟨l0, l1, r, hdb, w0, w1⟩ := hW.wat
  have hl := h.crng c
  have hnd := hW.nd
  have hcnt := hW.cnt
  rw [hdb] at hl hnd
  rw [hdb] at hcnt
  unfold clausePropagate at he
  simp only [hdb] at he
  have h01 : l0.var ≠ l1.var := by
    simp only [List.map_cons, List.nodup_cons, List.mem_cons] at hnd
    exact fun e => hnd.1 (.inl e)
  have hne : l0.neg ≠ l1.neg := fun e => h01 (by have := congrArg Lit.var e; rwa [Lit.neg_var, Lit.neg_var] at this)
  have hp := hcnt p
  rw [wc_two] at hp
  simp only [exV, if_true] at hp
  have hcase : k = 0 ∧ (s.watches p).count c = 0 ∧ ((p = l0.neg ∧ p ≠ l1.neg) ∨ (p = l1.neg ∧ p ≠ l0.neg)) := by
    by_cases e0 : p = l0.neg
    · have e1 : p ≠ l1.neg := fun e => hne (e0 ▸ e)
      rw [if_pos e0, if_neg e1] at hp
      exact ⟨by omega, by omega, .inl ⟨e0, e1⟩⟩
    · by_cases e1 : p = l1.neg
      · rw [if_neg e0, if_pos e1] at hp
        exact ⟨by omega, by omega, .inr ⟨e1, e0⟩⟩
      · rw [if_neg e0, if_neg e1] at hp
        omega
  obtain ⟨hk, hwp, hcase⟩ := hcase
  have hcnt' : ∀ m, m ≠ p → (s.watches m).count c = (if m = l0.neg then 1 else 0) + (if m = l1.neg then 1 else 0) := by
    intro m hm
    have := hcnt m
    rw [wc_two] at this
    simpa [exV, hm] using this
  refine ⟨hk, ?_⟩
  have hwa : ∀ a b : Lit, p = b.neg → a.var ≠ b.var → s.WOk (QV p (k + 1)) a b → s.value a = some false → a.neg ∈ s.propQ := by
    intro a b hb hab hw hf
    rcases hw hf with h1 | h1 | h1
    · exact h1
    · exfalso
      apply hab
      have := h1.1.trans hb
      have := congrArg Lit.var this
      rwa [Lit.neg_var, Lit.neg_var] at this
    · exfalso
      have := h1.1
      rw [hb, value_neg_true, this] at hv
      cases hv
  rcases hcase with ⟨e0, e1⟩ | ⟨e1, e0⟩
  · have hvar : l0.var = p.var := by rw [e0, Lit.neg_var]
    rw [if_pos hvar] at he
    have := clausePropagateAB_self h hW.lt (fun l hl' => hl l (by simp at hl' ⊢; tauto)) (by
        refine (List.Perm.nodup_iff ?_).1 hnd
        exact List.Perm.swap _ _ _) e0 hv hlv (fun m => by
        by_cases em : m = p
        · rw [em, hwp, if_neg e1]
        · rw [hcnt' m em, if_neg (fun e => em (e.trans e0.symm)), Nat.zero_add]) (hwa l1 l0 e0 h01.symm w1) he
    refine ⟨fun l => ?_, this.2⟩
    rw [this.1 l, hdb]
    simp; tauto
  · have hvar : l0.var ≠ p.var := by rw [e1, Lit.neg_var]; exact h01
    rw [if_neg hvar] at he
    have := clausePropagateAB_self h hW.lt hl hnd e1 hv hlv (fun m => by
        by_cases em : m = p
        · rw [em, hwp, if_neg e0]
        · rw [hcnt' m em, if_neg (fun e => em (e.trans e1.symm) : ¬ m = l1.neg), Nat.add_zero]) (hwa l0 l1 e1 h01 w0) he
    refine ⟨fun l => ?_, this.2⟩
    rw [this.1 l, hdb]

theorem Wt.mono {s : Sat T} {c : Nat} {Q Q' : Lit → Prop} {ex ex' : Lit → Nat} (h : s.Wt c Q ex) (hQ : ∀ w, s.value w = some false → Q w → Q' w) (he : ∀ m, ex' m = ex m) : s.Wt c Q' ex' := by
  obtain ⟨l0, l1, r, e, a, b⟩ := h.wat
  have go : ∀ {w w'}, s.WOk Q w w' → s.WOk Q' w w' := by
    intro w w' hw hf
    rcases hw hf with h1 | h1 | h1
    · exact .inl h1
    · exact .inr (.inl (hQ w hf h1))
    · exact .inr (.inr h1)
  exact ⟨h.lt, h.nd, fun m => by rw [he]; exact h.cnt m, l0, l1, r, e, go a, go b⟩

/-- The watchers of `p` are visited. -/
theorem visit_up {p : Lit} (cs : List Nat) : ∀ {s s' : Sat T} {r}, s.TW → s.value p = some true → s.level p.var = s.dl → (∀ d ∈ cs, d < s.ncls) → visit p cs s = .ok (s', r) →
    Gr s s' ∧ s'.th = s.th ∧ ∀ c, s.Wt c (QV p (cs.count c)) (exV p (cs.count c)) →
      (∀ l, l ∈ s'.db c ↔ l ∈ s.db c) ∧ (r = none → s'.Wtd c) ∧ (r ≠ none → s'.WtdC c) := by
  induction cs with
  | nil =>
    intro s s' r h _ _ _ he
    injection he with he; injection he with h1 h2; subst h1 h2
    refine ⟨.refl h, rfl, fun c hc => ⟨fun _ => Iff.rfl, fun _ => ?_, by simp⟩⟩
    exact hc.mono (fun w _ hw => by have := hw.2; simp at this) (fun m => by simp [exV, ex0])
  | cons d cs ih =>
    intro s s' r h hv hlv hlt he
    simp only [visit] at he
    match hc : s.clausePropagate d p with
    | .error _ => simp [hc] at he
    | .ok (s1, true) =>
      simp only [hc] at he
      have O1 := clausePropagate_other h (hlt d (by simp)) hc
      obtain ⟨a, b, w⟩ := ih O1.tw (O1.val hv) (by rw [O1.lev hv, O1.dl]; exact hlv) (fun d hd => by rw [O1.ncls]; exact hlt d (by simp [hd])) he
      refine ⟨O1.toGr.trans a, b.trans O1.th, fun c hW => ?_⟩
      by_cases e : c = d
      · subst e
        rw [List.count_cons_self] at hW
        obtain ⟨k0, k1, k2, -⟩ := clausePropagate_self h hv hlv hW hc
        obtain ⟨w1, w2⟩ := w c ((k2 rfl).mono (fun _ _ h => h.elim) (fun m => by simp [k0, exV, ex0]))
        exact ⟨fun l => (w1 l).trans (k1 l), w2⟩
      · rw [List.count_cons_of_ne (fun h => e h.symm)] at hW
        obtain ⟨k1, k2⟩ := O1.wt c _ _ e hW
        obtain ⟨w1, w2⟩ := w c k1
        exact ⟨fun l => by rw [w1 l, k2], w2⟩
    | .ok (s1, false) =>
      simp only [hc] at he
      injection he with he; injection he with h1 h2; subst h1 h2
      have O1 := clausePropagate_other h (hlt d (by simp)) hc
      have G2 : Gr s1 { s1 with watches := upd s1.watches p (s1.watches p ++ cs) } := by
        refine ⟨O1.tw.congr rfl rfl rfl rfl rfl rfl (fun _ h => h) O1.tw.crng ?_, rfl, rfl, rfl, rfl, rfl, rfl, fun _ _ => ⟨rfl, rfl⟩, fun _ h => .inl h, fun _ h => h⟩
        intro m c hm
        by_cases e : m = p
        · subst e
          simp only [upd_self, List.mem_append] at hm
          rcases hm with hm | hm
          · exact O1.tw.wlt m c hm
          · show c < s1.ncls; rw [O1.ncls]; exact hlt c (by simp [hm])
        · simp only [upd_ne _ _ e] at hm; exact O1.tw.wlt m c hm
      have hl1 : s1.level p.var = s1.dl := by rw [O1.lev hv, O1.dl]; exact hlv
      have put : ∀ c (Q : Lit → Prop), s1.Wt c Q (exV p (cs.count c)) → (∀ w, s1.value w = some false → Q w → s1.level w.var = s1.dl) →
          ({ s1 with watches := upd s1.watches p (s1.watches p ++ cs) } : Sat T).WtdC c := by
        intro c Q hW hQ
        obtain ⟨l0, l1, r, e, a, b⟩ := (hW.mono (Q' := fun w => s1.level w.var = s1.dl) hQ (fun _ => rfl)).wat
        refine ⟨hW.lt, hW.nd, fun m => ?_, l0, l1, r, e, a, b⟩
        have := hW.cnt m
        show (upd s1.watches p _ m).count c + 0 = _
        by_cases em : m = p
        · subst em
          rw [upd_self, List.count_append]
          simp only [exV, if_true] at this
          exact this
        · rw [upd_ne _ _ em]
          simp only [exV, if_neg em] at this
          exact this
      refine ⟨O1.toGr.trans G2, O1.th, fun c hW => ?_⟩
      by_cases e : c = d
      · subst e
        rw [List.count_cons_self] at hW
        obtain ⟨k0, k1, -, k2⟩ := clausePropagate_self h hv hlv hW hc
        refine ⟨k1, by simp, fun _ => put c _ ((k2 rfl).mono (fun _ _ h => h) (fun m => by simp [k0, exV, ex0])) (fun _ _ h => h)⟩
      · rw [List.count_cons_of_ne (fun h => e h.symm)] at hW
        obtain ⟨k1, k2⟩ := O1.wt c _ _ e hW
        refine ⟨fun l => by show l ∈ s1.db c ↔ _; rw [k2], by simp, fun _ => put c _ k1 (fun w _ hw => ?_)⟩
        rw [← hl1, ← hw.1, Lit.neg_var]

/-- The first literal of the queue is propagated to its watchers. -/
theorem visit_pop {s s' : Sat T} {p : Lit} {q : List Lit} {r} (h : s.TW) (hq : s.propQ = p :: q)
    (he : visit p (s.watches p) { s with propQ := q, watches := upd s.watches p [] } = .ok (s', r)) :
    Gr { s with propQ := q } s' ∧ s'.th = s.th ∧ s.value p = some true ∧ s.level p.var = s.dl ∧
      ∀ c, s.Wtd c → (∀ l, l ∈ s'.db c ↔ l ∈ s.db c) ∧ (r = none → s'.Wtd c) ∧ (r ≠ none → s'.WtdC c) := by
  have hp := h.que p (by rw [hq]; simp)
  have hv := h.trail_true hp.1
  have hsub : ∀ x ∈ q, x ∈ s.propQ := fun x hx => by rw [hq]; simp [hx]
  have T0 : ({ s with propQ := q, watches := upd s.watches p [] } : Sat T).TW := by
    refine h.congr rfl rfl rfl rfl rfl rfl hsub h.crng ?_
    intro m c hm
    by_cases e : m = p
    · subst e; simp at hm
    · simp only [upd_ne _ _ e] at hm; exact h.wlt m c hm
  obtain ⟨a, b, w⟩ := visit_up _ T0 hv hp.2 (fun d hd => h.wlt p d hd) he
  refine ⟨⟨a.tw, a.nv, a.lim, a.decs, a.bnd, a.post, a.dead, a.old, a.new, a.que⟩, b, hv, hp.2, fun c hc => ?_⟩
  refine w c ?_
  obtain ⟨l0, l1, r, e, x, y⟩ := hc.wat
  have hcnt := hc.cnt
  have go : ∀ {w w'}, (∀ m, w = m.neg → 0 < wc (s.db c) m) → s.WOk (fun _ => False) w w' →
      ({ s with propQ := q, watches := upd s.watches p [] } : Sat T).WOk (QV p ((s.watches p).count c)) w w' := by
    intro w w' hpos hw hf
    rcases hw hf with h1 | h1 | h1
    · rw [hq] at h1
      rcases List.mem_cons.1 h1 with h2 | h2
      · right; left
        refine ⟨h2, ?_⟩
        have h3 := hpos p (by rw [← h2, Lit.neg_neg])
        have h4 := hcnt p
        simp only [ex0] at h4
        omega
      · exact .inl h2
    · exact h1.elim
    · exact .inr (.inr h1)
  refine ⟨hc.lt, hc.nd, fun m => ?_, l0, l1, r, e, go ?_ x, go ?_ y⟩
  · have := hcnt m
    simp only [ex0, Nat.add_zero] at this
    show (upd s.watches p [] m).count c + exV p _ m = _
    by_cases em : m = p
    · subst em
      rw [upd_self]
      simp only [exV, if_true, List.count_nil, Nat.zero_add]
      exact this
    · rw [upd_ne _ _ em]
      simp only [exV, if_neg em, Nat.add_zero]
      exact this
  · intro m hm
    rw [e]; simp only [wc]; rw [if_pos hm]; omega
  · intro m hm
    rw [e]; simp only [wc]; rw [if_pos hm]; omega

end Sat
end Semitone
