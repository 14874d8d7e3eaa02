import Verif.Sat.Steady
import Verif.Sat.Mild

/-!
# Calls that return keep the posted clauses watched
-/
namespace Semitone
namespace Sat
variable {T : Type} {O : TheoryOps T} {K : Firm O}

/-- What holds between calls: outside root level nothing is queued. -/
structure Calm (K : Firm O) (s : Sat T) : Prop extends Steady K s where
  qr : s.dl ≠ 0 → s.propQ = []

theorem Steady.up {s s' : Sat T} (h : s.Steady K) (U : Up s s') (hth : s'.th = s.th) : s'.Steady K := by
  refine ⟨U.tw, ?_, h.lk.up U⟩
  rw [hth, U.bnd, U.nv, U.dl]
  refine K.adv h.li (Nat.le_refl _) (fun i q _ hq => U.tru_keep hq) (fun i q hi hq => U.tru_low (by rw [U.dl]; exact hi) hq) (fun q hq => ?_) (fun q hq => U.que q hq)
  rw [← U.dl] at hq
  exact U.tru_new h.tw hq

/-! ### Calls that add variables and clauses -/

theorem TW.trail_lt {s : Sat T} (h : s.TW) {q : Lit} (hq : q ∈ s.trail) : q.var < s.nvars := h.rng _ (by rw [h.tval q hq]; simp)

theorem newVar_assigns {s : Sat T} (h : s.TW) : s.newVar.1.assigns = s.assigns ∧ s.newVar.1.level = s.level := by
  have h1 : s.assigns s.nvars = none := by
    by_contra hx
    exact Nat.lt_irrefl _ (h.rng _ hx)
  have h2 : s.level s.nvars = 0 := h.off _ (fun q hq e => by have := h.trail_lt hq; omega)
  constructor
  · funext v
    simp only [newVar, upd]
    split
    · next e => rw [e, h1]
    · rfl
  · funext v
    simp only [newVar, upd]
    split
    · next e => rw [e, h2]
    · rfl

theorem newVar_steady {s : Sat T} (h : s.Steady K) : s.newVar.1.Steady K := by
  obtain ⟨e1, e2⟩ := newVar_assigns h.tw
  have hw := h.tw
  have hsub : ∀ m, ∀ c ∈ s.newVar.1.watches m, c ∈ s.watches m := by
    intro m c hc
    simp only [newVar, upd] at hc
    split at hc
    · cases hc
    · split at hc
      · cases hc
      · exact hc
  have ht : s.newVar.1.tru = s.tru := by
    funext i q
    unfold tru value
    rw [e1, e2]
  refine ⟨?_, ?_, ?_⟩
  · constructor
    case nv => show 0 < s.nvars + 1; omega
    case fv => rw [e1]; exact hw.fv
    case fvt => exact hw.fvt
    case rng => rw [e1]; exact fun v hv => Nat.lt_succ_of_lt (hw.rng v hv)
    case tval => rw [e1]; exact hw.tval
    case tnd => exact hw.tnd
    case off => rw [e2]; exact hw.off
    case tlv => rw [e2]; exact hw.tlv
    case lims => exact hw.lims
    case limle => exact hw.limle
    case dec => exact hw.dec
    case que => rw [e2]; exact hw.que
    case crng => exact fun c l hl => Nat.lt_succ_of_lt (hw.crng c l hl)
    case wlt => exact fun m c hc => hw.wlt m c (hsub m c hc)
  · show K.LI s.th (s.nvars + 1) s.bounds s.dl s.newVar.1.tru (fun q => q ∈ s.propQ)
    rw [ht]
    exact K.adv h.li (Nat.le_succ _) (fun _ _ _ h => h) (fun _ _ _ h => h) (fun _ h => .inl h) (fun _ h => h)
  · refine Lk.map (s := s) (P := fun s c => s.Wtd c) (P' := fun s c => s.Wtd c) rfl (fun q hq => by rw [ht]; exact hq) (fun c hc => ⟨?_, fun _ => Iff.rfl⟩) h.lk
    obtain ⟨l0, l1, r, e, a, b⟩ := hc.wat
    have hv : ∀ q, s.newVar.1.value q = s.value q := fun q => by unfold value; rw [e1]
    have go : ∀ {w w'}, s.WOk (fun _ => False) w w' → s.newVar.1.WOk (fun _ => False) w w' := by
      intro w w' hw' hf
      rw [hv] at hf
      rcases hw' hf with h1 | h1 | h1
      · exact .inl h1
      · exact h1.elim
      · right; right; rw [hv, e2]; exact h1
    refine ⟨hc.lt, hc.nd, fun m => ?_, l0, l1, r, e, go a, go b⟩
    have hz : m.var = s.nvars → wc (s.db c) m = 0 := by
      intro hm
      have h0 := hw.crng c l0 (by rw [e]; simp)
      have h1 := hw.crng c l1 (by rw [e]; simp)
      rw [e, wc_two]
      have n0 : m ≠ l0.neg := fun h => by rw [h, Lit.neg_var] at hm; omega
      have n1 : m ≠ l1.neg := fun h => by rw [h, Lit.neg_var] at hm; omega
      rw [if_neg n0, if_neg n1]
    show (upd (upd s.watches ⟨s.nvars, false⟩ []) ⟨s.nvars, true⟩ [] m).count c + 0 = wc (s.db c) m
    simp only [upd]
    split
    · next e => rw [hz (by rw [e])]; rfl
    · split
      · next e => rw [hz (by rw [e])]; rfl
      · exact hc.cnt m

/-- Calls that only add: a core found inconsistent stays so, the others stay in order or are found inconsistent. -/
structure Adds (K : Firm O) (s s' : Sat T) : Prop where
  dead : s.dead = true → s'.dead = true
  lim : s'.trailLim = s.trailLim
  bnd : s'.bounds = s.bounds
  ok : s.root = true → s.Steady K → s'.dead = true ∨ (s'.Steady K ∧ s.Mild s')

theorem Adds.root {s s' : Sat T} (h : Adds K s s') : s'.root = s.root := by simp [Sat.root, h.lim]

theorem Adds.refl (s : Sat T) : Adds K s s := ⟨fun h => h, rfl, rfl, fun _ h => .inr ⟨h, .refl s⟩⟩

theorem Adds.trans {s1 s2 s3 : Sat T} (h1 : Adds K s1 s2) (h2 : Adds K s2 s3) : Adds K s1 s3 := by
  refine ⟨fun h => h2.dead (h1.dead h), h2.lim.trans h1.lim, h2.bnd.trans h1.bnd, fun hr h => ?_⟩
  rcases h1.ok hr h with h | h
  · exact .inl (h2.dead h)
  · exact (h2.ok (by rw [h1.root]; exact hr) h.1).imp_right (fun k => ⟨k.1, h.2.trans k.2⟩)

/-- Nothing is retracted. -/
theorem Up.mild {s s' : Sat T} (U : Up s s') (h : s.TW) : s.Mild s' :=
  ⟨U.dl, Nat.le_of_eq U.nv.symm, fun _ _ hq => U.tru_keep hq, fun _ _ hi hq => U.tru_low (by rw [U.dl]; exact hi) hq, fun _ hq => U.tru_new h (by rw [U.dl]; exact hq), fun q hq => U.que q hq⟩

theorem TW.newVar_mild {s : Sat T} (h : s.TW) : s.Mild s.newVar.1 := .of_eq rfl (Nat.le_succ _) (newVar_assigns h).1 (newVar_assigns h).2 rfl

theorem newVar_adds (s : Sat T) : Adds K s s.newVar.1 := ⟨fun h => h, rfl, rfl, fun _ h => .inr ⟨newVar_steady h, h.tw.newVar_mild⟩⟩

/-- Fields that the invariant does not read. -/
theorem Steady.rest {s s' : Sat T} (h : s.Steady K) (h0 : s'.nvars = s.nvars) (h1 : s'.ncls = s.ncls) (h2 : s'.db = s.db) (h3 : s'.watches = s.watches) (h4 : s'.assigns = s.assigns)
    (h5 : s'.propQ = s.propQ) (h6 : s'.trail = s.trail) (h7 : s'.trailLim = s.trailLim) (h8 : s'.decisions = s.decisions) (h9 : s'.level = s.level) (h10 : s'.bounds = s.bounds)
    (h11 : s'.th = s.th) (h12 : s'.posted = s.posted) : s'.Steady K := by
  have hv : ∀ q, s'.value q = s.value q := fun q => by unfold value; rw [h4]
  have ht : s'.tru = s.tru := by funext i q; unfold tru; rw [hv, h9]
  have hd : s'.dl = s.dl := by unfold dl; rw [h7]
  refine ⟨h.tw.congr h0 h4 h6 h9 h7 h8 (by rw [h5]; exact fun _ h => h) (by rw [h2]; exact h.tw.crng) (by rw [h1, h3]; exact h.tw.wlt), by rw [h11, h0, h10, hd, ht, h5]; exact h.li, ?_⟩
  refine Lk.map (s := s) (P := fun s c => s.Wtd c) (P' := fun s c => s.Wtd c) h12 (fun q hq => by rw [ht]; exact hq) (fun c hc => ⟨?_, fun _ => by rw [h2]⟩) h.lk
  exact hc.up (Nat.le_of_eq h1.symm) (by rw [h2]) (fun m => by rw [h3]) (fun _ _ => by rw [h4, h9]; exact ⟨rfl, rfl⟩) (fun q hq => .inl (by rw [← hv]; exact hq)) (fun q hq => by rw [h5]; exact hq)

theorem tru_zero {s : Sat T} (h : s.TW) (hr : s.root = true) {q : Lit} (hq : s.value q = some true) : s.tru 0 q := by
  have h0 := (root_iff s).1 hr
  exact ⟨hq, by rw [← h0]; exact h.level_le _⟩

/-- A clause is posted. -/
theorem posted_steady {s s' : Sat T} {D : List Lit} (h : s.Steady K) (U : Up { s with posted := D :: s.posted } s') (hth : s'.th = s.th)
    (hD : (∃ l ∈ D, s'.tru 0 l) ∨ (∃ l ∈ D, l.neg ∈ D) ∨ ∃ c, s'.Wtd c ∧ ∀ l ∈ s'.db c, l ∈ D) : s'.Steady K := by
  have ht : ({ s with posted := D :: s.posted } : Sat T).TW := h.tw.congr rfl rfl rfl rfl rfl rfl (fun _ h => h) h.tw.crng h.tw.wlt
  have hdl : s'.dl = s.dl := U.dl
  refine ⟨U.tw, ?_, fun D' hD' => ?_⟩
  · have e1 : s'.bounds = s.bounds := U.bnd
    have e2 : s'.nvars = s.nvars := U.nv
    rw [hth, e1, e2, hdl]
    refine K.adv h.li (Nat.le_refl _) (fun i q _ hq => U.tru_keep (s := { s with posted := D :: s.posted }) hq)
      (fun i q hi hq => U.tru_low (s := { s with posted := D :: s.posted }) (by rw [hdl]; exact hi) hq) (fun q hq => ?_) (fun q hq => U.que q hq)
    rw [← hdl] at hq
    exact U.tru_new ht hq
  · rw [U.post] at hD'
    rcases List.mem_cons.1 hD' with rfl | hD'
    · exact hD
    · rcases h.lk D' hD' with ⟨l, h1, h2⟩ | h1 | ⟨c, h1, h2⟩
      · exact .inl ⟨l, h1, U.tru_keep (s := { s with posted := D :: s.posted }) h2⟩
      · exact .inr (.inl h1)
      · obtain ⟨a, b⟩ := U.wt c _ _ (⟨h1.lt, h1.nd, h1.cnt, h1.wat⟩ : ({ s with posted := D :: s.posted } : Sat T).Wt c (fun _ => False) ex0)
        exact .inr (.inr ⟨c, a, fun l hl => h2 l ((b l).1 hl)⟩)

theorem newClause_adds {E : Env} {s s' : Sat T} {ls b} (he : s.newClause E ls = .ok (s', b)) : Adds K s s' ∧ (b = false → s'.dead = true) := by
  unfold newClause at he
  split at he
  · cases he
  rename_i hr
  split at he
  · cases he
  rename_i hin
  have hin : ∀ l ∈ ls, l.var < s.nvars := by simpa [inRange] using hin
  simp only at he
  have T0 : s.TW → ({ s with posted := ls :: s.posted } : Sat T).TW := fun h => h.congr rfl rfl rfl rfl rfl rfl (fun _ h => h) h.crng h.wlt
  split at he
  · rename_i hf
    injection he with he; injection he with h1 h2; subst h1 h2
    refine ⟨⟨fun h => h, rfl, rfl, fun hr h => .inr ⟨posted_steady h (Up.refl (T0 h.tw)) rfl ?_, .of_eq rfl (Nat.le_refl _) rfl rfl rfl⟩⟩, by simp⟩
    obtain ⟨l, hl, h1⟩ := filt_sorted_none E true s.value ls hf
    rcases h1 with h1 | h1
    · exact .inl ⟨l, hl, tru_zero (T0 h.tw) hr h1⟩
    · exact .inr (.inl ⟨l, hl, h1⟩)
  · injection he with he; injection he with h1 h2; subst h1 h2
    exact ⟨⟨fun _ => rfl, rfl, rfl, fun _ _ => .inl rfl⟩, fun _ => rfl⟩
  · rename_i l hf
    obtain ⟨f1, -, -⟩ := filt_sorted E true s.value ls _ hf
    obtain ⟨g1, g2⟩ := f1 l (by simp)
    have hn : ({ s with posted := ls :: s.posted } : Sat T).value l = none := g2
    rw [enqueue_none hn] at he
    injection he with he; injection he with h1 h2; subst h1 h2
    refine ⟨⟨fun h => h, rfl, rfl, fun hr h => .inr ?_⟩, by simp⟩
    have U := enq_up (c := none) (T0 h.tw) hn (hin l g1)
    refine ⟨?_, (Mild.of_eq rfl (Nat.le_refl _) rfl rfl rfl : s.Mild { s with posted := ls :: s.posted }).trans (U.mild (T0 h.tw))⟩
    exact posted_steady h U rfl (.inl ⟨l, g1, tru_zero U.tw hr (enq_value_self _ _ _)⟩)
  · rename_i out hne1 hne2 hf
    obtain ⟨f1, -, f3⟩ := filt_sorted E true s.value ls _ hf
    split at he
    · cases he
    rename_i s1 c hc
    injection he with he; injection he with h1 h2; subst h1 h2
    have hd : s1.dead = s.dead ∧ s1.trailLim = s.trailLim ∧ s1.bounds = s.bounds := by
      unfold newClauseObj at hc
      split at hc
      · injection hc with hc; injection hc with hc _; subst hc; exact ⟨rfl, rfl, rfl⟩
      · cases hc
    refine ⟨⟨fun h => by show s1.dead = true; rw [hd.1]; exact h, hd.2.1, hd.2.2, fun hr h => .inr ?_⟩, by simp⟩
    obtain ⟨U, e1, e2, e3, e4⟩ := newClauseObj_up (T0 h.tw) (fun l hl => hin l (f1 l hl).1) hc
    have hcnt := newClauseObj_cnt (T0 h.tw) hc
    have S1 : s1.Steady K := by
      refine posted_steady h U e4 (.inr (.inr ⟨c, ?_, fun l hl => ?_⟩))
      · have hlen : ∃ l0 l1 r, out = l0 :: l1 :: r := by
          unfold newClauseObj at hc
          split at hc
          · exact ⟨_, _, _, rfl⟩
          · cases hc
        obtain ⟨l0, l1, r, rfl⟩ := hlen
        have hnone : ∀ l ∈ l0 :: l1 :: r, s1.value l ≠ some false := by
          intro l hl hv
          rcases U.new l.neg ((value_neg_true _ _).2 hv) with h1 | h1
          · have := (f1 l hl).2
            have h1 : s.value l.neg = some true := h1
            rw [value_neg_true, this] at h1; cases h1
          · have h1' := (U.tw.que _ h1).1
            have h2 : s1.trail = s.trail := by
              simp only [newClauseObj] at hc
              injection hc with hc; injection hc with hc _; subst hc; rfl
            rw [h2] at h1'
            have := h.tw.trail_true h1'
            rw [value_neg_true, (f1 l hl).2] at this; cases this
        refine ⟨by rw [e1, e2]; exact Nat.lt_succ_self _, ?_, fun m => by rw [e3]; exact hcnt m, l0, l1, r, e3, fun hv => absurd hv (hnone _ (by simp)), fun hv => absurd hv (hnone _ (by simp))⟩
        rw [e3]
        have f3' : (List.map Lit.var (l0 :: l1 :: r)).Pairwise (· < ·) := List.pairwise_map.2 f3
        exact f3'.imp (fun h => Nat.ne_of_lt h)
      · rw [e3] at hl
        exact (f1 l hl).1
    exact ⟨S1.rest rfl rfl rfl rfl rfl rfl rfl rfl rfl rfl rfl rfl rfl,
      ((Mild.of_eq rfl (Nat.le_refl _) rfl rfl rfl : s.Mild { s with posted := ls :: s.posted }).trans (U.mild (T0 h.tw))).trans (.of_eq rfl (Nat.le_refl _) rfl rfl rfl)⟩

theorem postAll_adds {E : Env} (cs : List (List Lit)) : ∀ {s s' : Sat T} {b}, postAll E cs s = .ok (s', b) → Adds K s s' := by
  induction cs with
  | nil => intro s s' b h; injection h with h; injection h with h _; subst h; exact .refl _
  | cons c cs ih =>
    intro s s' b h
    simp only [postAll] at h
    match hc : s.newClause E c with
    | .error _ => simp [hc] at h
    | .ok (s1, false) => simp only [hc] at h; injection h with h; injection h with h _; subst h; exact (newClause_adds hc).1
    | .ok (s1, true) => simp only [hc] at h; exact (newClause_adds hc).1.trans (ih h)

theorem define_adds {E : Env} {s s' : Sat T} {k ctr cls r} (h : define E s k ctr cls = .ok (s', r)) : Adds K s s' := by
  unfold define at h
  split at h
  · cases h
  · rename_i hp; injection h with h; injection h with h _; subst h; exact postAll_adds _ hp
  · rename_i s1 hp; injection h with h; injection h with h _; subst h
    exact (postAll_adds _ hp).trans ⟨fun h => h, rfl, rfl, fun _ h => .inr ⟨h.rest rfl rfl rfl rfl rfl rfl rfl rfl rfl rfl rfl rfl rfl, .of_eq rfl (Nat.le_refl _) rfl rfl rfl⟩⟩

theorem newEq_adds {E : Env} {s s' : Sat T} {a b r} (h : s.newEq E a b = .ok (s', r)) : Adds K s s' := by
  unfold newEq at h
  split at h
  · cases h
  split at h
  · cases h
  split at h
  · injection h with h; injection h with h _; subst h; exact .refl _
  split at h
  all_goals try (injection h with h; injection h with h _; subst h; exact .refl _)
  split at h
  · injection h with h; injection h with h _; subst h; exact .refl _
  · exact (newVar_adds s).trans (define_adds h)

theorem newConj_adds {E : Env} {s s' : Sat T} {ls r} (h : s.newConj E ls = .ok (s', r)) : Adds K s s' := by
  unfold newConj at h
  split at h
  · cases h
  split at h
  · cases h
  split at h
  all_goals try (injection h with h; injection h with h _; subst h; exact .refl _)
  split at h
  · injection h with h; injection h with h _; subst h; exact .refl _
  · exact (newVar_adds s).trans (define_adds h)

theorem newDisj_adds {E : Env} {s s' : Sat T} {ls r} (h : s.newDisj E ls = .ok (s', r)) : Adds K s s' := by
  unfold newDisj at h
  split at h
  · cases h
  split at h
  · cases h
  split at h
  all_goals try (injection h with h; injection h with h _; subst h; exact .refl _)
  split at h
  · injection h with h; injection h with h _; subst h; exact .refl _
  · exact (newVar_adds s).trans (define_adds h)

theorem newVars_adds (n : Nat) : ∀ (s : Sat T), Adds K s (newVars n s).1 := by
  induction n with
  | zero => intro s; exact .refl s
  | succ n ih => intro s; exact (newVar_adds s).trans (ih _)

theorem newAMOGo_adds {E : Env} (f : Nat) : ∀ {s s' : Sat T} {ls r}, newAMOGo E f s ls = .ok (s', r) → Adds K s s' := by
  induction f with
  | zero => intro s s' ls r h; cases h
  | succ f ih =>
    intro s s' ls r h
    unfold newAMOGo at h
    split at h
    · cases h
    split at h
    · cases h
    split at h
    all_goals try (injection h with h; injection h with h _; subst h; exact .refl _)
    split at h
    · injection h with h; injection h with h _; subst h; exact .refl _
    split at h
    · exact (newVar_adds s).trans (define_adds h)
    · simp only at h
      split at h
      · cases h
      rename_i h1
      split at h
      · cases h
      rename_i h2
      split at h
      · cases h
      rename_i h3
      exact (newVars_adds _ s).trans ((newVars_adds _ _).trans ((ih h1).trans ((ih h2).trans ((newConj_adds h3).trans (define_adds h)))))

theorem newEXO_adds {E : Env} {s s' : Sat T} {ls r} (h : s.newEXO E ls = .ok (s', r)) : Adds K s s' := by
  unfold newEXO at h
  split at h
  · cases h
  split at h
  · cases h
  split at h
  all_goals try (injection h with h; injection h with h _; subst h; exact .refl _)
  split at h
  · injection h with h; injection h with h _; subst h; exact .refl _
  split at h
  · injection h with h; injection h with h _; subst h; exact .refl _
  split at h
  · cases h
  rename_i h1
  exact (newAMOGo_adds _ h1).trans (define_adds h)

/-! ### Search -/

theorem propagate_steady {E : Env} {s s' : Sat T} {b} (h : s.Steady K) (he : s.propagate E O = .ok (s', b)) : Settled K s s' b := propLoop_steady K _ h he

/-- A level is opened. -/
theorem pushed_steady {s : Sat T} (h : s.Steady K) (hq : s.propQ = []) (p : Lit) :
    ({ s with trailLim := s.trail.length :: s.trailLim, decisions := p :: s.decisions, th := O.push s.th } : Sat T).Steady K := by
  have hw := h.tw
  have ht : ∀ q, s.tru (s.dl + 1) q ↔ s.tru s.dl q := fun q => ⟨fun x => (hw.tru_iff q).2 x.1, fun x => ⟨x.1, Nat.le_succ_of_le x.2⟩⟩
  refine ⟨?_, ?_, ?_⟩
  · constructor
    case nv => exact hw.nv
    case fv => exact hw.fv
    case fvt => exact hw.fvt
    case rng => exact hw.rng
    case tval => exact hw.tval
    case tnd => exact hw.tnd
    case off => exact hw.off
    case tlv =>
      intro q tr hs
      have h1 := hw.tlv q tr hs
      have h2 := suffix_len hs
      rw [List.countP_cons_of_neg (by simp; omega)]
      exact h1
    case lims => exact List.pairwise_cons.2 ⟨fun l hl => hw.limle l hl, hw.lims⟩
    case limle =>
      intro l hl
      rcases List.mem_cons.1 hl with rfl | hl
      · exact Nat.le_refl _
      · exact hw.limle l hl
    case dec => simpa using hw.dec
    case que => intro q hq'; rw [hq] at hq'; cases hq'
    case crng => exact hw.crng
    case wlt => exact hw.wlt
  · have := K.push h.li (by rw [hq]; simp) ht
    show K.LI (O.push s.th) s.nvars s.bounds (s.dl + 1) s.tru (fun q => q ∈ s.propQ)
    exact K.adv this (Nat.le_refl _) (fun _ _ _ h => h) (fun _ _ _ h => h) (fun _ h => .inl h) (fun _ h => h.elim)
  · exact Lk.map (s := s) (P := fun s c => s.Wtd c) (P' := fun s c => s.Wtd c) rfl (fun q hq => hq) (fun c hc => ⟨⟨hc.lt, hc.nd, hc.cnt, hc.wat⟩, fun _ => Iff.rfl⟩) h.lk

/-- The outcome of a call: found inconsistent at root level, or in order. -/
def Outcome (K : Firm O) (s' : Sat T) (b : Bool) : Prop :=
  (b = false → s'.dead = true ∧ s'.root = true ∨ s'.Calm K) ∧ (b = true → s'.Calm K ∧ s'.propQ = [] ∧ K.Done s'.th)

theorem Settled.outcome {s s' : Sat T} {b} (h : Settled K s s' b) : Outcome K s' b :=
  ⟨fun hb => .inl (h.no hb), fun hb => ⟨⟨(h.yes hb).1, fun _ => h.q⟩, h.q, (h.yes hb).2.2⟩⟩

theorem assume_steady {E : Env} {s s' : Sat T} {p : Lit} {b} (h : s.Steady K) (he : s.assume E O p = .ok (s', b)) : Outcome K s' b ∧ s'.propQ = [] ∧ (b = true → s'.dead = s.dead) ∧ s'.nvars = s.nvars := by
  unfold assume at he
  split at he
  · cases he
  rename_i hin
  have hin : p.var < s.nvars := by simpa [inRange] using hin
  split at he
  · cases he
  rename_i hq
  have hq : s.propQ = [] := by simpa using hq
  have S0 := pushed_steady h hq p
  simp only at he
  generalize hs0 : ({ s with trailLim := s.trail.length :: s.trailLim, decisions := p :: s.decisions, th := O.push s.th } : Sat T) = s0 at he S0
  have e0 : s0.propQ = [] ∧ s0.nvars = s.nvars ∧ s0.dead = s.dead := by rw [← hs0]; exact ⟨hq, rfl, rfl⟩
  match hv : s0.value p with
  | some false =>
    rw [enqueue_some hv] at he
    injection he with he; injection he with h1 h2; subst h1 h2
    exact ⟨⟨fun _ => .inr ⟨S0, fun _ => e0.1⟩, by simp⟩, e0.1, by simp, e0.2.1⟩
  | some true =>
    rw [enqueue_some hv] at he
    have R := propagate_steady S0 he
    exact ⟨R.outcome, R.q, fun hb => (R.yes hb).2.1.trans e0.2.2, R.nv.trans e0.2.1⟩
  | none =>
    rw [enqueue_none hv] at he
    have U := enq_up (c := none) S0.tw hv (by rw [e0.2.1]; exact hin)
    have R := propagate_steady (S0.up U rfl) he
    exact ⟨R.outcome, R.q, fun hb => (R.yes hb).2.1.trans e0.2.2, R.nv.trans (U.nv.trans e0.2.1)⟩

theorem pop_dn {s s' : Sat T} (hw : s.TW) (hq : s.propQ = []) (he : s.pop O = .ok s') : Dn O s s' ∧ s.dl = s'.dl + 1 ∧ s'.propQ = [] := by
  obtain ⟨L, hdl⟩ := pop_lower hw hq he
  have e : s.dl - s'.dl = 1 := by omega
  exact ⟨L.dn hw hq (by rw [e]; simp only [popTh, pop_th he]), hdl, L.q⟩

theorem pop_steady {s s' : Sat T} (h : s.Steady K) (hq : s.propQ = []) (he : s.pop O = .ok s') : s'.Calm K ∧ s'.propQ = [] := by
  obtain ⟨D, -, q⟩ := pop_dn h.tw hq he
  exact ⟨⟨D.steady (K.adv h.li (Nat.le_refl _) (fun _ _ _ h => h) (fun _ _ _ h => h) (fun _ h => .inl h) (fun _ _ => trivial)) h.lk.toC, fun _ => q⟩, q⟩

theorem popTo_steady {s s' : Sat T} {n : Nat} (h : s.Calm K) (hq : s.propQ = []) (he : popTo O n s = .ok s') : s'.Calm K ∧ s'.propQ = [] := by
  unfold popTo at he
  by_cases h0 : s.dl - n = 0
  · rw [h0] at he
    injection he with he; subst he
    exact ⟨h, hq⟩
  · obtain ⟨L, hdl⟩ := popLevels_lower h.tw hq (Nat.pos_of_ne_zero h0) he
    have e : s.dl - s'.dl = s.dl - n := by omega
    have D := L.dn (O := O) h.tw hq (by rw [e]; exact popLevels_popTh _ he)
    exact ⟨⟨D.steady (K.adv h.li (Nat.le_refl _) (fun _ _ _ h => h) (fun _ _ _ h => h) (fun _ h => .inl h) (fun _ _ => trivial)) h.lk.toC, fun _ => L.q⟩, L.q⟩

theorem popTo_root {s s' : Sat T} {n : Nat} (hr : s.root = true) (he : popTo O n s = .ok s') : s' = s := by
  have h0 := (root_iff s).1 hr
  unfold popTo at he
  rw [h0, Nat.zero_sub] at he
  injection he with he
  exact he.symm

/-- The blocking clause of `next`. -/
theorem next_recorded {E : Env} {s s1 s2 : Sat T} {ng : List Lit} (h : s.Calm K) (hf : s.Eff) (hr : ¬ s.root = true) (hng : s.decisions.map Lit.neg = ng) (hp : s.pop O = .ok s1)
    (hrec : ({ s1 with posted := ng :: s1.posted } : Sat T).record E ng = .ok s2) : s2.Steady K := by
  have hd0 : s.dl ≠ 0 := fun e => hr ((root_iff s).2 e)
  have hq := h.qr hd0
  obtain ⟨C1, q1⟩ := pop_steady h.toSteady hq hp
  obtain ⟨L, hdl⟩ := pop_lower h.tw hq hp
  have T0 : ({ s1 with posted := ng :: s1.posted } : Sat T).TW := C1.tw.congr rfl rfl rfl rfl rfl rfl (fun _ h => h) C1.tw.crng C1.tw.wlt
  obtain ⟨U, hth, l0, rest, e, hv0, hvf, hv1, hq1, hnew⟩ := record_up T0 hrec
  have hlen : s.decisions.length = s.dl := h.tw.dec
  refine posted_steady C1.toSteady U hth ?_
  match hdec : s.decisions with
  | [] => rw [hdec] at hlen; simp at hlen; omega
  | p :: ds =>
    rw [hdec] at hng hlen
    simp only [List.map_cons, List.length_cons] at hng hlen
    rw [e] at hng
    injection hng with g1 g2
    match hds : ds with
    | [] =>
      left
      refine ⟨l0, by rw [e]; simp, tru_zero U.tw ?_ hv1⟩
      rw [root_iff, U.dl]
      show s1.dl = 0
      simp at hlen; omega
    | q :: tr =>
      right; right
      rw [e] at hrec
      obtain ⟨c, w1, w2⟩ := record_wt (by rw [e] at T0; exact T0) hrec (by
          rw [← g1, ← g2]
          have : ((p.neg :: List.map Lit.neg (q :: tr)).map Lit.var) = (p :: q :: tr).map Lit.var := by
            simp [List.map_map, Function.comp_def, Lit.neg_var]
          rw [this, ← hdec]
          -- distinct levels
          have key : ∀ l : List Lit, l <:+ s.decisions → (l.map Lit.var).Nodup := by
            intro l
            induction l with
            | nil => intro _; simp
            | cons x xs ih =>
              intro hsuf
              simp only [List.map_cons, List.nodup_cons]
              refine ⟨?_, ih ((List.suffix_cons x xs).trans hsuf)⟩
              intro hx
              obtain ⟨y, hy, ey⟩ := List.mem_map.1 hx
              obtain ⟨ys, hys⟩ := mem_suffix hy
              have h1 := (hf x xs hsuf).2
              have h2 := (hf y ys (hys.trans ((List.suffix_cons x xs).trans hsuf))).2
              have h3 := suffix_len hys
              rw [ey, h1] at h2
              omega
          exact key _ (List.suffix_refl _)) (by
          refine ⟨q.neg, by rw [← g2]; simp, ?_⟩
          have hq' := hf q tr (by rw [hdec]; exact List.suffix_cons p _)
          have hlv : s.level q.var = s1.dl := by
            rw [hq'.2]
            simp at hlen; omega
          have hv : s1.value q = some true := L.val h.tw hq'.1 (by omega)
          show s1.level q.neg.var = s1.dl
          rw [Lit.neg_var, L.cut.level_some hv]; exact hlv)
      exact ⟨c, w1, fun l hl => by rw [e]; exact w2 l hl⟩

theorem next_steady {E : Env} {s s' : Sat T} {b} (h : s.Calm K) (hf : s.Eff) (he : s.next E O = .ok (s', b)) : Outcome K s' b := by
  unfold next at he
  split at he
  · injection he with he; injection he with h1 h2; subst h1 h2
    exact ⟨fun _ => .inr h, by simp⟩
  rename_i hr
  simp only at he
  match hp : s.pop O with
  | .error _ => simp [hp] at he
  | .ok s1 =>
    simp only [hp] at he
    match hrec : ({ s1 with posted := s.decisions.map Lit.neg :: s1.posted } : Sat T).record E (s.decisions.map Lit.neg) with
    | .error _ => simp [hrec] at he
    | .ok s2 =>
      simp only [hrec] at he
      exact (propagate_steady (next_recorded h hf hr rfl hp hrec) he).outcome

theorem checkGo_steady {E : Env} (rl : Nat) (ps : List Lit) : ∀ {s s' : Sat T} {b}, s.Calm K → s.propQ = [] → checkGo E O rl ps s = .ok (s', b) →
    (b = false → s'.dead = true ∧ s'.root = true ∨ s'.Calm K) ∧ (b = true → s'.Calm K ∧ s'.propQ = []) := by
  induction ps with
  | nil =>
    intro s s' b h hq he
    injection he with he; injection he with h1 h2; subst h1 h2
    exact ⟨by simp, fun _ => ⟨h, hq⟩⟩
  | cons p ps ih =>
    intro s s' b h hq he
    simp only [checkGo] at he
    match ha : s.assume E O p with
    | .error _ => simp [ha] at he
    | .ok (s1, false) =>
      simp only [ha] at he
      obtain ⟨⟨o1, -⟩, o2, -⟩ := assume_steady h.toSteady ha
      split at he
      · cases he
      rename_i s2 hp
      injection he with he; injection he with h1 h2; subst h1 h2
      refine ⟨fun _ => ?_, by simp⟩
      rcases o1 rfl with ⟨d, r⟩ | c
      · rw [popTo_root r hp]; exact .inl ⟨d, r⟩
      · exact .inr (popTo_steady c o2 hp).1
    | .ok (s1, true) =>
      simp only [ha] at he
      obtain ⟨⟨-, o1⟩, o2, -⟩ := assume_steady h.toSteady ha
      match hp : s1.propagate E O with
      | .error _ => simp [hp] at he
      | .ok (s2, b2) =>
        simp only [hp] at he
        have R := propagate_steady (o1 rfl).1.toSteady hp
        have Oc := R.outcome
        split at he
        · split at he
          · cases he
          rename_i s3 hp3
          injection he with he; injection he with h1 h2; subst h1 h2
          refine ⟨fun _ => ?_, by simp⟩
          cases b2 with
          | false =>
            rcases Oc.1 rfl with ⟨d, r⟩ | c
            · rw [popTo_root r hp3]; exact .inl ⟨d, r⟩
            · exact .inr (popTo_steady c R.q hp3).1
          | true => exact .inr (popTo_steady (Oc.2 rfl).1 R.q hp3).1
        · rename_i hb
          have hb2 : b2 = true := by
            cases b2 with
            | true => rfl
            | false => exact absurd (Or.inl rfl) hb
          subst hb2
          exact ih (Oc.2 rfl).1 R.q he

theorem check_steady {E : Env} {s s' : Sat T} {ls : List Lit} {b} (h : s.Calm K) (hq : s.propQ = []) (he : s.check E O ls = .ok (s', b)) :
    s'.dead = true ∧ s'.root = true ∨ s'.Calm K := by
  unfold check at he
  simp only at he
  match hg : checkGo E O s.dl ls s with
  | .error _ => simp [hg] at he
  | .ok (s1, false) =>
    simp only [hg] at he
    injection he with he; injection he with h1 h2; subst h1 h2
    exact (checkGo_steady _ _ h hq hg).1 rfl
  | .ok (s1, true) =>
    simp only [hg] at he
    obtain ⟨c, q⟩ := (checkGo_steady _ _ h hq hg).2 rfl
    split at he
    · cases he
    · split at he
      · cases he
      rename_i s2 hp
      injection he with he; injection he with h1 h2; subst h1 h2
      exact .inr (popTo_steady c q hp).1

/-! ### `simplify_db` -/

theorem simplifyLits_mem {val : Lit → Option Bool} {orig : List Lit} : ∀ l ∈ (simplifyLits val orig [] orig).2, l ∈ orig := by
  intro l hl
  match hx : simplifyLits val orig [] orig with
  | (false, res) =>
    rw [hx] at hl
    obtain ⟨-, e⟩ := simplifyLits_false _ _ _ hx
    rw [e] at hl
    simp at hl
    exact hl.1
  | (true, res) =>
    rw [hx] at hl
    obtain ⟨-, k, i1, i2, i3⟩ := simplifyLits_true _ _ _ hx
    rw [i3] at hl
    rcases List.mem_append.1 hl with h | h
    · have := i1.subset h
      simp at this
      exact this.1
    · exact List.mem_of_mem_drop h

/-- What the pass over the clauses does to the table of clauses: literals disappear; a clause without true literals whose first two literals are not false keeps them and is not removed. -/
theorem simplifyGo_keep (n : Nat) : ∀ (s : Sat T) (kept act rem : List Nat),
    ∃ db' kept' rem', simplifyGo n s kept act rem = ({ s with db := db' }, kept', rem') ∧ (∀ c, ∀ l ∈ db' c, l ∈ s.db c) ∧
      (∀ c l0 l1 r, s.db c = l0 :: l1 :: r → (∀ l ∈ s.db c, s.value l ≠ some true) → s.value l0 = none → s.value l1 = none → c ∉ rem →
        c ∉ rem' ∧ ∃ r', db' c = l0 :: l1 :: r' ∧ r'.Sublist r) := by
  induction n with
  | zero => intro s kept act rem; exact ⟨s.db, _, _, rfl, fun _ _ h => h, fun c l0 l1 r e _ _ _ hc => ⟨hc, r, e, List.Sublist.refl _⟩⟩
  | succ n ih =>
    intro s kept act rem
    match act with
    | [] => exact ⟨s.db, _, _, rfl, fun _ _ h => h, fun c l0 l1 r e _ _ _ hc => ⟨hc, r, e, List.Sublist.refl _⟩⟩
    | d :: act =>
      have sub : ∀ c, ∀ l ∈ upd s.db d (simplifyLits s.value (s.db d) [] (s.db d)).2 c, l ∈ s.db c := by
        intro c l hl
        by_cases e : c = d
        · subst e; rw [upd_self] at hl; exact simplifyLits_mem l hl
        · rw [upd_ne _ _ e] at hl; exact hl
      simp only [simplifyGo]
      by_cases hb : (simplifyLits s.value (s.db d) [] (s.db d)).1 = true
      · rw [if_pos hb]
        obtain ⟨db', kept', rem', h1, h2, h3⟩ := ih { s with db := upd s.db d (simplifyLits s.value (s.db d) [] (s.db d)).2 } kept (swapLast act) (d :: rem)
        refine ⟨db', kept', rem', h1, fun c l hl => sub c l (h2 c l hl), fun c l0 l1 r e hnt hv0 hv1 hc => ?_⟩
        have hne : c ≠ d := by
          intro ed; subst ed
          match hx : simplifyLits s.value (s.db c) [] (s.db c) with
          | (false, res) => rw [hx] at hb; cases hb
          | (true, res) =>
            obtain ⟨⟨l, hl, hv⟩, -⟩ := simplifyLits_true _ _ _ hx
            exact hnt l hl hv
        have eu : upd s.db d (simplifyLits s.value (s.db d) [] (s.db d)).2 c = s.db c := upd_ne _ _ hne
        exact h3 c l0 l1 r (eu.trans e) (fun l hl => hnt l (by rw [← eu]; exact hl)) hv0 hv1 (by simp [hne, hc])
      · rw [if_neg hb]
        obtain ⟨db', kept', rem', h1, h2, h3⟩ := ih { s with db := upd s.db d (simplifyLits s.value (s.db d) [] (s.db d)).2 } (kept ++ [d]) act rem
        refine ⟨db', kept', rem', h1, fun c l hl => sub c l (h2 c l hl), fun c l0 l1 r e hnt hv0 hv1 hc => ?_⟩
        by_cases hne : c = d
        · subst hne
          match hx : simplifyLits s.value (s.db c) [] (s.db c) with
          | (true, res) => rw [hx] at hb; exact absurd rfl hb
          | (false, res) =>
            obtain ⟨-, er⟩ := simplifyLits_false _ _ _ hx
            rw [e] at er
            simp only [List.nil_append, List.filter_cons, hv0, hv1, decide_true, if_true] at er
            have eu : upd s.db c (simplifyLits s.value (s.db c) [] (s.db c)).2 c = l0 :: l1 :: r.filter (fun l => decide (s.value l = none)) := by
              rw [upd_self, hx]; exact er
            obtain ⟨g1, r', g2, g3⟩ := h3 c l0 l1 _ eu (fun l hl => hnt l (sub c l hl)) hv0 hv1 hc
            exact ⟨g1, r', g2, g3.trans List.filter_sublist⟩
        · have eu : upd s.db d (simplifyLits s.value (s.db d) [] (s.db d)).2 c = s.db c := upd_ne _ _ hne
          exact h3 c l0 l1 r (eu.trans e) (fun l hl => hnt l (by rw [← eu]; exact hl)) hv0 hv1 hc

theorem deleteClause_keep {s s' : Sat T} {d : Nat} (he : s.deleteClause d = .ok s') :
    s' = { s with watches := s'.watches, reason := s'.reason } ∧ (∀ m, ∀ c ∈ s'.watches m, c ∈ s.watches m) ∧ ∀ c m, c ≠ d → (s'.watches m).count c = (s.watches m).count c := by
  unfold deleteClause at he
  split at he
  · split at he
    · simp only at he
      split at he
      · injection he with he; subst he
        have ec : ∀ (l : List Nat) c, c ≠ d → (l.erase d).count c = l.count c := fun l c h => List.count_erase_of_ne h
        refine ⟨rfl, fun m c hc => ?_, fun c m hne => ?_⟩
        · simp only [upd] at hc
          split at hc
          · split at hc
            · rename_i e1 e2; rw [e1, e2]; exact List.mem_of_mem_erase (List.mem_of_mem_erase hc)
            · rename_i e1 _; rw [e1]; exact List.mem_of_mem_erase hc
          · split at hc
            · rename_i e2; rw [e2]; exact List.mem_of_mem_erase hc
            · exact hc
        · simp only [upd]
          split
          · split
            · rename_i e1 e2; rw [ec _ _ hne, ec _ _ hne, e1, e2]
            · rename_i e1 _; rw [ec _ _ hne, e1]
          · split
            · rename_i e2; rw [ec _ _ hne, e2]
            · rfl
      · cases he
    · cases he
  · cases he

theorem deleteAll_keep (ds : List Nat) : ∀ {s s' : Sat T}, deleteAll ds s = .ok s' →
    s' = { s with watches := s'.watches, reason := s'.reason } ∧ (∀ m, ∀ c ∈ s'.watches m, c ∈ s.watches m) ∧ ∀ c m, c ∉ ds → (s'.watches m).count c = (s.watches m).count c := by
  induction ds with
  | nil => intro s s' he; injection he with he; subst he; exact ⟨rfl, fun _ _ h => h, fun _ _ _ => rfl⟩
  | cons d ds ih =>
    intro s s' he
    simp only [deleteAll] at he
    match hd : s.deleteClause d with
    | .error _ => simp [hd] at he
    | .ok s1 =>
      simp only [hd] at he
      obtain ⟨a1, b1, c1⟩ := deleteClause_keep hd
      obtain ⟨a2, b2, c2⟩ := ih he
      refine ⟨by rw [a2, a1], fun m c hc => b1 m c (b2 m c hc), fun c m hc => ?_⟩
      rw [c2 c m (fun h => hc (by simp [h])), c1 c m (fun h => hc (by simp [h]))]

theorem simplify_steady {E : Env} {s s' : Sat T} {b} (h : s.Steady K) (he : s.simplifyDb E O = .ok (s', b)) : Outcome K s' b := by
  unfold simplifyDb at he
  split at he
  · cases he
  rename_i hr
  have hr : s.root = true := by simpa using hr
  match hp : s.propagate E O with
  | .error _ => simp [hp] at he
  | .ok (u, false) =>
    simp only [hp] at he
    injection he with he; injection he with h1 h2; subst h1 h2
    exact (propagate_steady h hp).outcome
  | .ok (u, true) =>
    simp only [hp] at he
    have R := propagate_steady h hp
    obtain ⟨hu, hq, hdn⟩ := R.outcome.2 rfl
    have hur : u.root = true := by
      have h0 := (root_iff s).1 hr
      have := R.dl
      exact (root_iff u).2 (by omega)
    obtain ⟨db', kept', rem', g1, g2, g3⟩ := simplifyGo_keep (u.constrs.length + 1) u [] u.constrs []
    simp only [g1] at he
    match hdel : deleteAll rem' { u with db := db' } with
    | .error _ => simp [hdel] at he
    | .ok w =>
      simp only [hdel] at he
      injection he with he; injection he with h1 h2; subst h1 h2
      obtain ⟨d1, d2, d3⟩ := deleteAll_keep _ hdel
      have hdb : w.db = db' := by rw [d1]
      have hwq : w.propQ = [] := by rw [d1]; exact hq
      have hval : ∀ q, w.value q = u.value q := fun q => by rw [d1]; rfl
      have hlev : w.level = u.level := by rw [d1]
      have hncl : w.ncls = u.ncls := by rw [d1]
      have htru : w.tru = u.tru := by funext i q; unfold tru; rw [hval, hlev]
      have hdl : w.dl = u.dl := by rw [d1]; rfl
      have hpost : w.posted = u.posted := by rw [d1]
      have tw : w.TW := by
        refine hu.tw.congr (by rw [d1]) (by rw [d1]) (by rw [d1]) (by rw [d1]) (by rw [d1]) (by rw [d1]) (by rw [hwq]; simp) (fun c l hl => hu.tw.crng c l ?_) (fun m c hc => ?_)
        · rw [hdb] at hl; exact g2 c l hl
        · have := hu.tw.wlt m c (d2 m c hc)
          rw [hncl]; exact this
      have li : K.LI w.th w.nvars w.bounds w.dl w.tru (fun q => q ∈ w.propQ) := by
        have e1 : w.th = u.th := by rw [d1]
        have e2 : w.nvars = u.nvars := by rw [d1]
        have e3 : w.bounds = u.bounds := by rw [d1]
        have e4 : w.propQ = u.propQ := by rw [d1]
        rw [e1, e2, e3, e4, hdl, htru]; exact hu.li
      have lk : w.Lk := by
        intro D hD
        rw [hpost] at hD
        rcases hu.lk D hD with ⟨l, h1, h2⟩ | h1 | ⟨c, h1, h2⟩
        · exact .inl ⟨l, h1, by rw [htru]; exact h2⟩
        · exact .inr (.inl h1)
        · by_cases hx : ∃ l ∈ u.db c, u.value l = some true
          · obtain ⟨l, hl, hv⟩ := hx
            exact .inl ⟨l, h2 l hl, by rw [htru]; exact tru_zero hu.tw hur hv⟩
          · have hnt : ∀ l ∈ u.db c, u.value l ≠ some true := fun l hl hv => hx ⟨l, hl, hv⟩
            obtain ⟨l0, l1, r, e, a, b⟩ := h1.wat
            have hnf : ∀ {w w' : Lit}, w ∈ u.db c → w' ∈ u.db c → u.WOk (fun _ => False) w w' → u.value w = none := by
              intro w w' hw hw' hwk
              match hv : u.value w with
              | none => rfl
              | some true => exact absurd hv (hnt w hw)
              | some false =>
                rcases hwk hv with h3 | h3 | h3
                · rw [hq] at h3; cases h3
                · exact h3.elim
                · exact absurd h3.1 (hnt w' hw')
            have hv0 := hnf (by rw [e]; simp) (by rw [e]; simp) a
            have hv1 := hnf (by rw [e]; simp) (by rw [e]; simp) b
            obtain ⟨k1, r', k2, k3⟩ := g3 c l0 l1 r e hnt hv0 hv1 (by simp)
            refine .inr (.inr ⟨c, ⟨by rw [hncl]; exact h1.lt, ?_, fun m => ?_, l0, l1, r', by rw [hdb]; exact k2, ?_, ?_⟩, fun l hl => h2 l (g2 c l (by rw [← hdb]; exact hl))⟩)
            · rw [hdb, k2]
              have := h1.nd
              rw [e] at this
              exact this.sublist (((k3.cons₂ l1).cons₂ l0).map Lit.var)
            · rw [d3 c m k1, hdb, k2, wc_two]
              have := h1.cnt m
              rw [e, wc_two] at this
              exact this
            · intro hf; rw [hval, hv0] at hf; cases hf
            · intro hf; rw [hval, hv1] at hf; cases hf
      have S : ({ w with constrs := kept' } : Sat T).Steady K := Steady.rest (s := w) ⟨tw, li, lk⟩ rfl rfl rfl rfl rfl rfl rfl rfl rfl rfl rfl rfl rfl
      exact ⟨by simp, fun _ => ⟨⟨S, fun _ => hwq⟩, hwq, by show K.Done w.th; rw [d1]; exact hdn⟩⟩

/-! ### Any call -/

theorem listen_calm {s : Sat T} (h : s.Calm K) (v l : Nat) : (s.listen v l).Calm K := by
  unfold listen
  split
  · exact ⟨h.toSteady.rest rfl rfl rfl rfl rfl rfl rfl rfl rfl rfl rfl rfl rfl, h.qr⟩
  · exact h

theorem Adds.calm {s s' : Sat T} (h : Adds K s s') (hr : s.root = true) (hc : s.Calm K) : s'.dead = true ∨ s'.Calm K := by
  refine (h.ok hr hc.toSteady).imp_right (fun x => ⟨x.1, fun hd => absurd ?_ hd⟩)
  have := (root_iff s).1 hr
  simpa [Sat.dl, h.lim] using this

/-- The calls that propagate (`sat_core.cpp:357`, `380`, `396`, `470`). -/
def Propagating (op : Op) : Prop :=
  match op with
  | .propagate | .assume _ | .next | .simplify => True
  | _ => False

/-- A legal call that returns leaves everything in order, or the core inconsistent; a call that propagates and returns true leaves everything in order and nothing queued. -/
theorem step_calm {E : Env} {s s' : Sat T} {op : Op} {out : Out} (h : s.Calm K) (hl : s.Legal op) (hop : ∀ v i, op ≠ .bind v i) (he : s.step E O op = .ok (s', out)) :
    (s'.dead = true ∨ s'.Calm K) ∧ (Propagating op → out = .bool true → s'.Calm K ∧ s'.propQ = [] ∧ K.Done s'.th) := by
  have oc : ∀ {b : Bool}, Outcome K s' b → (s'.dead = true ∨ s'.Calm K) ∧ (Propagating op → Out.bool b = .bool true → s'.Calm K ∧ s'.propQ = [] ∧ K.Done s'.th) := by
    intro b o
    refine ⟨?_, fun _ e => o.2 (by injection e)⟩
    cases b with
    | false => exact (o.1 rfl).imp_left (·.1)
    | true => exact .inr (o.2 rfl).1
  obtain ⟨hd, hl⟩ := hl
  cases op with
  | newVar =>
    injection he with he; injection he with h1 h2; subst h1
    exact ⟨.inr ⟨newVar_steady h.toSteady, h.qr⟩, fun hp => hp.elim⟩
  | newClause ls =>
    obtain ⟨⟨s1, b⟩, h1, h2⟩ := map_ok he
    injection h2 with h2 h3; subst h2
    exact ⟨(newClause_adds h1).1.calm hl.1 h, fun hp => hp.elim⟩
  | newEq a b =>
    obtain ⟨⟨s1, b⟩, h1, h2⟩ := map_ok he
    injection h2 with h2 h3; subst h2
    exact ⟨(newEq_adds h1).calm hl.1 h, fun hp => hp.elim⟩
  | newConj ls =>
    obtain ⟨⟨s1, b⟩, h1, h2⟩ := map_ok he
    injection h2 with h2 h3; subst h2
    exact ⟨(newConj_adds h1).calm hl.1 h, fun hp => hp.elim⟩
  | newDisj ls =>
    obtain ⟨⟨s1, b⟩, h1, h2⟩ := map_ok he
    injection h2 with h2 h3; subst h2
    exact ⟨(newDisj_adds h1).calm hl.1 h, fun hp => hp.elim⟩
  | newAMO ls =>
    obtain ⟨⟨s1, b⟩, h1, h2⟩ := map_ok he
    injection h2 with h2 h3; subst h2
    exact ⟨(newAMOGo_adds _ h1).calm hl.1 h, fun hp => hp.elim⟩
  | newEXO ls =>
    obtain ⟨⟨s1, b⟩, h1, h2⟩ := map_ok he
    injection h2 with h2 h3; subst h2
    exact ⟨(newEXO_adds h1).calm hl.1 h, fun hp => hp.elim⟩
  | assume p =>
    obtain ⟨⟨s1, b⟩, h1, h2⟩ := map_ok he
    injection h2 with h2 h3; subst h2; subst h3
    exact oc (assume_steady h.toSteady h1).1
  | pop =>
    simp only [step] at he
    match hp : s.pop O with
    | .error _ => rw [hp] at he; cases he
    | .ok s1 =>
      rw [hp] at he
      injection he with he; injection he with h1 h2; subst h1
      have hd0 : s.dl ≠ 0 := fun e => by rw [(root_iff s).2 e] at hl; cases hl
      exact ⟨.inr (pop_steady h.toSteady (h.qr hd0) hp).1, fun hp => hp.elim⟩
  | propagate =>
    obtain ⟨⟨s1, b⟩, h1, h2⟩ := map_ok he
    injection h2 with h2 h3; subst h2; subst h3
    exact oc (propagate_steady h.toSteady h1).outcome
  | next =>
    obtain ⟨⟨s1, b⟩, h1, h2⟩ := map_ok he
    injection h2 with h2 h3; subst h2; subst h3
    exact oc (next_steady h hl h1)
  | check ls =>
    obtain ⟨⟨s1, b⟩, h1, h2⟩ := map_ok he
    injection h2 with h2 h3; subst h2
    exact ⟨(check_steady h hl.1 h1).imp_left (·.1), fun hp => hp.elim⟩
  | simplify =>
    obtain ⟨⟨s1, b⟩, h1, h2⟩ := map_ok he
    injection h2 with h2 h3; subst h2; subst h3
    exact oc (simplify_steady h.toSteady h1)
  | bind v i => exact absurd rfl (hop v i)
  | listen v l =>
    injection he with he; injection he with h1 h2; subst h1
    exact ⟨.inr (listen_calm h v l), fun hp => hp.elim⟩

/-- When nothing is queued every posted clause is satisfied or has two unassigned literals. -/
theorem Calm.clauses {s : Sat T} (h : s.Calm K) (hq : s.propQ = []) :
    ∀ D ∈ s.posted, (∃ l ∈ D, s.value l = some true) ∨ ∃ x ∈ D, ∃ y ∈ D, x ≠ y ∧ s.value x = none ∧ s.value y = none := by
  intro D hD
  rcases h.lk D hD with ⟨l, h1, h2⟩ | ⟨l, h1, h2⟩ | ⟨c, h1, h2⟩
  · exact .inl ⟨l, h1, h2.1⟩
  · match hv : s.value l with
    | some true => exact .inl ⟨l, h1, hv⟩
    | some false => exact .inl ⟨l.neg, h2, (value_neg_true _ _).2 hv⟩
    | none =>
      refine .inr ⟨l, h1, l.neg, h2, fun e => ?_, hv, by rw [value_neg, hv]; rfl⟩
      have := congrArg Lit.sign e
      rw [Lit.neg_sign] at this
      cases hs : l.sign <;> rw [hs] at this <;> cases this
  · obtain ⟨l0, l1, r, e, a, b⟩ := h1.wat
    have nd := h1.nd
    rw [e] at nd
    have hne : l0 ≠ l1 := by
      intro e'
      simp only [List.map_cons, List.nodup_cons, List.mem_cons] at nd
      exact nd.1 (.inl (by rw [e']))
    have m0 : l0 ∈ D := h2 l0 (by rw [e]; simp)
    have m1 : l1 ∈ D := h2 l1 (by rw [e]; simp)
    have tr : ∀ {w w'}, s.WOk (fun _ => False) w w' → s.value w = some false → s.value w' = some true := by
      intro w w' hw hf
      rcases hw hf with h3 | h3 | h3
      · rw [hq] at h3; cases h3
      · exact h3.elim
      · exact h3.1
    match hv0 : s.value l0, hv1 : s.value l1 with
    | some true, _ => exact .inl ⟨l0, m0, hv0⟩
    | _, some true => exact .inl ⟨l1, m1, hv1⟩
    | some false, _ => exact .inl ⟨l1, m1, tr a hv0⟩
    | _, some false => exact .inl ⟨l0, m0, tr b hv1⟩
    | none, none => exact .inr ⟨l0, m0, l1, m1, hne, hv0, hv1⟩

/-- A new core. -/
theorem init_calm {t : T} (h : K.LI t 1 (fun _ => []) 0 (Sat.init t).tru (fun _ => False)) : (Sat.init t).Calm K := by
  have hv0 : ∀ v, (Sat.init t).assigns v ≠ none → v = 0 := by
    intro v hv
    by_contra e
    simp [Sat.init, Sat.newVar, upd_ne _ _ e] at hv
  refine ⟨⟨?_, ?_, fun D hD => by cases hD⟩, fun h => absurd rfl h⟩
  · constructor
    case nv => exact Nat.one_pos
    case fv => simp [Sat.init]
    case fvt => intro q hq; cases hq
    case rng => intro v hv; rw [hv0 v hv]; exact Nat.one_pos
    case tval => intro q hq; cases hq
    case tnd => exact List.nodup_nil
    case off =>
      intro v _
      simp only [Sat.init, Sat.newVar, upd]
      split <;> simp
    case tlv => intro p tr hs; have := suffix_len hs; simp [Sat.init, Sat.newVar] at this
    case lims => exact List.Pairwise.nil
    case limle => intro l hl; cases hl
    case dec => rfl
    case que => intro p hp; cases hp
    case crng => intro c l hl; cases hl
    case wlt =>
      intro m c hc
      simp only [Sat.init, Sat.newVar, upd] at hc
      split at hc <;> first | cases hc | (split at hc <;> cases hc)
  · exact K.adv h (Nat.le_refl _) (fun _ _ _ h => h) (fun _ _ _ h => h) (fun _ h => .inl h) (fun _ h => h.elim)

end Sat
end Semitone
