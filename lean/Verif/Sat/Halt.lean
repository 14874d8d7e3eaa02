import Verif.Sat.SteadyOps
import Verif.Sat.Total
import Verif.Sat.Search
import Verif.Sat.Keep

/-!
# Every call ends

With any theory that keeps its invariant and does not fail (`Firm`), no call of the core runs forever, whatever clauses the theory records: `propLoop` never uses up its iterations. And every decision of a client
makes progress, so that the client of `Sat/Search.lean` stops.
-/
namespace Semitone
namespace Sat
variable {T : Type} {O : TheoryOps T} {E : Env}

/-! ### Counting -/

/-- Every literal that is assigned is queued. -/
def Cnt (s s' : Sat T) : Prop := s'.trail.length + s.propQ.length = s.trail.length + s'.propQ.length ∧ s.trail.length ≤ s'.trail.length

theorem Cnt.refl (s : Sat T) : Cnt s s := ⟨rfl, Nat.le_refl _⟩

theorem Cnt.trans {s1 s2 s3 : Sat T} (h1 : Cnt s1 s2) (h2 : Cnt s2 s3) : Cnt s1 s3 := by
  unfold Cnt at *; omega

theorem enqueue_cnt (s : Sat T) (p : Lit) (c : Option Nat) : Cnt s (s.enqueue p c).1 := by
  unfold enqueue
  split
  · exact .refl s
  · simp only [Cnt, List.length_cons, List.length_append, List.length_nil]; omega

theorem newClauseObj_cnt2 {s s' : Sat T} {ls c} (h : s.newClauseObj ls = .ok (s', c)) : s'.trail = s.trail ∧ s'.propQ = s.propQ := by
  unfold newClauseObj at h
  split at h
  · injection h with h; injection h with h1 h2; subst h1; exact ⟨rfl, rfl⟩
  · cases h

theorem record_cnt {s s' : Sat T} {ls} (h : s.record E ls = .ok s') : Cnt s s' := by
  unfold record at h
  split at h
  · cases h
  split at h
  · cases h
  split at h
  · split at h
    · split at h
      · injection h with h; subst h; exact enqueue_cnt _ _ _
      · cases h
    · split at h
      · cases h
      · next s1 c hc =>
        injection h with h; subst h
        obtain ⟨e1, e2⟩ := newClauseObj_cnt2 hc
        have : Cnt s s1 := by unfold Cnt; rw [e1, e2]; exact ⟨rfl, Nat.le_refl _⟩
        exact this.trans (enqueue_cnt s1 _ (some c))
  · cases h

theorem clausePropagateAB_cnt {s s' : Sat T} {c p a b rest ok} (h : s.clausePropagateAB c p a b rest = .ok (s', ok)) : Cnt s s' := by
  unfold clausePropagateAB at h
  split at h
  · injection h with h; injection h with h1 h2; subst h1; exact ⟨rfl, Nat.le_refl _⟩
  split at h
  · injection h with h; injection h with h1 h2; subst h1; exact ⟨rfl, Nat.le_refl _⟩
  · injection h with h; injection h with h1 h2; subst h1; exact ⟨rfl, Nat.le_refl _⟩
  · injection h with h
    have := enqueue_cnt ({ s with db := upd s.db c (a :: b :: rest), watches := upd s.watches p (s.watches p ++ [c]) } : Sat T) a (some c)
    rw [h] at this
    exact this

theorem clausePropagate_cnt {s s' : Sat T} {c p ok} (h : s.clausePropagate c p = .ok (s', ok)) : Cnt s s' := by
  unfold clausePropagate at h
  split at h
  · split at h
    · exact clausePropagateAB_cnt h
    · exact clausePropagateAB_cnt h
  · cases h

theorem visit_cnt (p : Lit) : ∀ (cs : List Nat) {s s' : Sat T} {r}, visit p cs s = .ok (s', r) → Cnt s s'
  | [], s, s', r, h => by injection h with h; injection h with h1 h2; subst h1; exact .refl s
  | c :: cs, s, s', r, h => by
    simp only [visit] at h
    split at h
    · cases h
    · next s1 h1 => exact (clausePropagate_cnt h1).trans (visit_cnt p cs h)
    · next s1 h1 =>
      injection h with h; injection h with e1 e2; subst e1
      exact (clausePropagate_cnt h1).trans ⟨rfl, Nat.le_refl _⟩

theorem runAct_cnt : ∀ (act : TAct T) {s s' : Sat T} {r}, runAct E act s = .ok (s', r) → Cnt s s'
  | .ok t, s, s', r, h => by injection h with h; injection h with h1 h2; subst h1; exact ⟨rfl, Nat.le_refl _⟩
  | .confl t cl, s, s', r, h => by injection h with h; injection h with h1 h2; subst h1; exact ⟨rfl, Nat.le_refl _⟩
  | .fail e, s, s', r, h => by cases h
  | .record cl k, s, s', r, h => by
    simp only [runAct] at h
    split at h
    · cases h
    · next s1 h1 => exact (record_cnt h1).trans (runAct_cnt _ h)

theorem TW.trail_le {s : Sat T} (h : s.TW) : s.trail.length ≤ s.nvars := by
  have h1 : (s.trail.map Lit.var) ⊆ List.range s.nvars := by
    intro v hv
    obtain ⟨q, hq, rfl⟩ := List.mem_map.1 hv
    rw [List.mem_range]
    exact h.trail_lt hq
  have := (List.subperm_of_subset h.tnd h1).length_le
  simpa using this

/-! ### The parts end -/

theorem record_fuel (s : Sat T) (ls : List Lit) : s.record E ls ≠ .error .fuel := by
  unfold record
  split
  · simp
  split
  · simp
  split
  · split
    · split <;> simp
    · split
      · next e h =>
        unfold newClauseObj at h
        split at h
        · cases h
        · injection h with h; subst h; simp
      · simp
  · simp

theorem clausePropagate_fuel (s : Sat T) (c : Nat) (p : Lit) : s.clausePropagate c p ≠ .error .fuel := by
  have key : ∀ a b rest, s.clausePropagateAB c p a b rest ≠ .error .fuel := by
    intro a b rest
    unfold clausePropagateAB
    split
    · simp
    split <;> simp
  unfold clausePropagate
  split
  · split <;> exact key _ _ _
  · simp

theorem visit_fuel (p : Lit) : ∀ (cs : List Nat) (s : Sat T), visit p cs s ≠ .error .fuel
  | [], s => by simp [visit]
  | c :: cs, s => by
    simp only [visit]
    split
    · next e h => intro he; injection he with he; subst he; exact clausePropagate_fuel s c p h
    · exact visit_fuel p cs _
    · simp

theorem getReason_fuel (s : Sat T) (ls : List Lit) (p : Option Lit) : s.getReason ls p ≠ .error .fuel := by
  unfold getReason
  split
  · split <;> simp
  · split
    · simp
    · split <;> simp

theorem explain_fuel (s : Sat T) : ∀ (qs : List Lit) (a : An), s.explain qs a ≠ .error .fuel
  | [], a => by simp [explain]
  | q :: qs, a => by
    simp only [explain]
    split
    · next e h =>
      intro he; injection he with he; subst he
      unfold explainStep at h
      split at h
      · cases h
      split at h
      · cases h
      split at h
      · cases h
      split at h <;> cases h
    · exact explain_fuel s qs _

theorem reasonLits_fuel (s : Sat T) (p : Lit) (pr : List Lit) : s.reasonLits p pr ≠ .error .fuel := by
  unfold reasonLits
  split
  · exact getReason_fuel _ _ _
  · simp

theorem analyzeGo_fuel (n : Nat) : ∀ (s : Sat T) (a : An) (pr : List Lit), s.trail.length < n → analyzeGo n s a pr ≠ .error .fuel := by
  induction n with
  | zero => intro s a pr h; omega
  | succ n ih =>
    intro s a pr h
    unfold analyzeGo
    match htr : s.trail with
    | [] => simp
    | p :: tr =>
      simp only
      have hl : s.popOne.trail.length < n := by
        rw [popOne_eq htr]
        rw [htr] at h
        simp at h
        exact h
      split
      · simp
      split
      · next e hr => intro he; injection he with he; subst he; exact reasonLits_fuel s p pr hr
      split
      · split
        · split
          · next e hx => intro he; injection he with he; subst he; exact explain_fuel _ _ _ hx
          · exact ih _ _ _ hl
        · split <;> simp
      · exact ih _ _ _ hl

theorem analyze_fuel (s : Sat T) (cl : List Lit) : s.analyze cl ≠ .error .fuel := by
  unfold analyze
  split
  · next e h => intro he; injection he with he; subst he; exact getReason_fuel _ _ _ h
  split
  · next e h => intro he; injection he with he; subst he; exact explain_fuel _ _ _ h
  · exact analyzeGo_fuel _ _ _ _ (Nat.lt_succ_self _)

theorem popN_th : ∀ (n : Nat) (s : Sat T), (popN n s).th = s.th
  | 0, s => rfl
  | n + 1, s => by
    simp only [popN]
    rw [popN_th n]
    unfold popOne
    split <;> rfl

/-- Retracting a level does not fail in the theory. -/
theorem pop_fuel (K : Firm O) {s : Sat T} {nv b n A P} (hn : s.dl ≠ 0 → ∃ m, n = m + 1) (h : K.LI s.th nv b n A P) :
    s.pop O ≠ .error .fuel := by
  unfold pop
  split
  · next lim lims p ds hl hd =>
    obtain ⟨m, rfl⟩ := hn (by simp [Sat.dl, hl])
    obtain ⟨t', ht⟩ := K.pop_ok h
    simp only [popN_th, ht]
    simp
  · simp

theorem pop_dl1 {s s' : Sat T} (h : s.pop O = .ok s') : s.dl = s'.dl + 1 := by
  unfold pop at h
  split at h
  · next lim lims p ds hl hd =>
    simp only at h
    split at h
    · cases h
    · injection h with h; subst h
      simp [Sat.dl, hl]
  · cases h

theorem popLevels_fuel (K : Firm O) (k : Nat) : ∀ {s : Sat T} {nv b A P}, K.LI s.th nv b s.dl A P → popLevels O k s ≠ .error .fuel := by
  induction k with
  | zero => intro s nv b A P _; simp [popLevels]
  | succ k ih =>
    intro s nv b A P h
    simp only [popLevels]
    have hp := pop_fuel K (fun hd => ⟨s.dl - 1, by omega⟩) h
    match he : s.pop O with
    | .error e => simp only; intro he'; injection he' with he'; subst he'; exact hp he
    | .ok s1 =>
      simp only
      have hd := pop_dl1 he
      rw [hd] at h
      exact ih (K.pop h (pop_th he))

theorem resolveConflict_fuel (K : Firm O) {s : Sat T} {cl : List Lit} {nv b A P} (hw : s.TW) (hq : s.propQ = []) (hd : 0 < s.dl) (h : K.LI s.th nv b s.dl A P) :
    s.resolveConflict E O cl ≠ .error .fuel := by
  unfold resolveConflict
  match ha : s.analyze cl with
  | .error e => simp only; intro he; injection he with he; subst he; exact analyze_fuel s cl ha
  | .ok (s1, ng, bt) =>
    simp only
    unfold analyze at ha
    split at ha
    · cases ha
    rename_i pr hpr
    split at ha
    · cases ha
    rename_i a hx
    obtain ⟨S, hbt⟩ := analyzeGo_down _ hw hq (explain_bt hw pr hd hx) ha
    have hp := popLevels_fuel K (s1.dl - bt) (s := s1) (by rw [S.th, S.dl]; exact h)
    match hp' : popLevels O (s1.dl - bt) s1 with
    | .error e => simp only; intro he; injection he with he; subst he; exact hp hp'
    | .ok s2 => exact record_fuel _ _

theorem analyzeAndBackjump_fuel (K : Firm O) {s : Sat T} {cl : List Lit} {nv b A P} (hw : s.TW) (hq : s.propQ = []) (hd : 0 < s.dl) (h : K.LI s.th nv b s.dl A P) :
    s.analyzeAndBackjump E O cl ≠ .error .fuel := by
  unfold analyzeAndBackjump
  split
  · split
    · exact resolveConflict_fuel K hw hq hd h
    · simp
  · simp

theorem runAct_fuel {Q : T → (Nat → Lit → Prop) → (Lit → Prop) → Prop} {R : T → (Nat → Lit → Prop) → Prop} (act : TAct T) :
    ∀ {s : Sat T}, s.TW → ActFirm Q R s.dl s.tru (fun q => q ∈ s.propQ) s.value act → runAct E act s ≠ .error .fuel := by
  induction act with
  | ok t => intro s _ _; simp [runAct]
  | confl t cl => intro s _ _; simp [runAct]
  | fail e => intro s hw h; cases h
  | record cl k ih =>
    intro s hw h
    simp only [runAct]
    match hr : s.record E cl with
    | .error e => simp only; intro he; injection he with he; subst he; exact record_fuel s cl hr
    | .ok s1 =>
      simp only
      obtain ⟨U, hth, l0, rest, e, h0, hf, h1, hq, hn⟩ := record_up hw hr
      cases h with
      | record h =>
        have key := h l0 rest e h0 hf s1.tru (fun q => q ∈ s1.propQ) s1.value (fun i q _ hq => U.tru_keep hq) (fun i q hi hq => U.tru_low (by rw [U.dl]; exact hi) hq)
          (fun q hq => by
            rcases hn q hq.1 with h2 | h2
            · exact .inl ((hw.tru_iff q).2 h2)
            · exact .inr h2)
          (by rw [← U.dl]; exact (U.tw.tru_iff l0).2 h1) (fun q hq => U.que q hq) hq (fun q => by rw [← U.dl]; exact U.tw.tru_iff q) (fun q => value_neg s1 q)
        rw [← U.dl] at key
        exact ih s1.value U.tw key

theorem runChecks_ok (is : List Nat) : ∀ {s : Sat T} {x}, checkAll O is s.th s.value = .ok x → ∃ y, runChecks O is s = .ok y := by
  induction is with
  | nil => intro s x h; exact ⟨_, rfl⟩
  | cons i is ih =>
    intro s x h
    simp only [checkAll] at h
    simp only [runChecks]
    match hk : O.check i s.th s.value with
    | .error e => simp [hk] at h
    | .ok (t1, some cl) => exact ⟨_, rfl⟩
    | .ok (t1, none) =>
      simp only [hk] at h
      exact ih (s := { s with th := t1 }) h

/-! ### Learning -/

/-- Progress: what was decided at the levels that are left stays decided, nothing appears below the last one, and if levels were retracted something new is decided. -/
structure Gain (s s' : Sat T) : Prop where
  nv : s'.nvars = s.nvars
  post : s'.posted = s.posted
  dl : s'.dl ≤ s.dl
  keep : ∀ i q, i ≤ s'.dl → s.tru i q → s'.tru i q
  low : ∀ i q, i < s'.dl → s'.tru i q → s.tru i q
  gain : s'.dl < s.dl → ∃ q, s'.tru s'.dl q ∧ ¬ s.tru s'.dl q ∧ ¬ s.tru s'.dl q.neg

theorem Gain.refl (s : Sat T) : Gain s s := ⟨rfl, rfl, Nat.le_refl _, fun _ _ _ h => h, fun _ _ _ h => h, fun h => absurd h (Nat.lt_irrefl _)⟩

theorem Gain.trans {s1 s2 s3 : Sat T} (h1 : Gain s1 s2) (h2 : Gain s2 s3) : Gain s1 s3 where
  nv := h2.nv.trans h1.nv
  post := h2.post.trans h1.post
  dl := h2.dl.trans h1.dl
  keep := fun i q hi hq => h2.keep i q hi (h1.keep i q (hi.trans h2.dl) hq)
  low := fun i q hi hq => h1.low i q (hi.trans_le h2.dl) (h2.low i q hi hq)
  gain := fun hlt => by
    by_cases h : s3.dl < s2.dl
    · obtain ⟨q, a, b, c⟩ := h2.gain h
      exact ⟨q, a, fun hq => b (h1.keep _ q h2.dl hq), fun hq => c (h1.keep _ _ h2.dl hq)⟩
    · have e : s3.dl = s2.dl := by have := h2.dl; omega
      obtain ⟨q, a, b, c⟩ := h1.gain (by omega)
      exact ⟨q, h2.keep _ q (Nat.le_refl _) (by rw [e]; exact a), by rw [e]; exact b, by rw [e]; exact c⟩

theorem Gr.gain {s s' : Sat T} (h : Gr s s') : Gain s s' :=
  ⟨h.nv, h.post, Nat.le_of_eq h.dl, fun _ _ _ hq => h.tru_keep hq, fun _ _ hi hq => h.tru_low hi hq, fun hlt => by rw [h.dl] at hlt; exact absurd hlt (Nat.lt_irrefl _)⟩

/-- The first literal of the learnt clause is the negation of a literal of the current level. -/
theorem analyzeGo_first (n : Nat) : ∀ {s s' : Sat T} {a : An} {pr ng : List Lit} {bt : Nat}, s.TW → s.propQ = [] → analyzeGo n s a pr = .ok (s', ng, bt) →
    ∃ p rest, ng = p.neg :: rest ∧ s.value p = some true ∧ s.level p.var = s.dl := by
  induction n with
  | zero => intro s s' a pr ng bt _ _ h; cases h
  | succ n ih =>
    intro s s' a pr ng bt h hq he
    unfold analyzeGo at he
    match htr : s.trail with
    | [] => simp [htr] at he
    | p :: tr =>
      simp only [htr] at he
      split at he
      · cases he
      rename_i hl
      have hl : s.level p.var = s.dl := by simpa using hl
      obtain ⟨w1, w2, w3, w4, w5, w6, w7⟩ := popOne_down h hq htr hl
      have S1 : Shrunk s s.popOne := ⟨w1, w2, w3, w4, w5, w6, w7⟩
      have back : (∃ p rest, ng = p.neg :: rest ∧ s.popOne.value p = some true ∧ s.popOne.level p.var = s.popOne.dl) → ∃ p rest, ng = p.neg :: rest ∧ s.value p = some true ∧ s.level p.var = s.dl := by
        rintro ⟨p, rest, e, hv, hlv⟩
        exact ⟨p, rest, e, w2.value_some hv, by rw [← w2.level_some hv, hlv, S1.dl]⟩
      split at he
      · cases he
      rename_i pr' hpr
      split at he
      · split at he
        · split at he
          · cases he
          exact back (ih w1 w3 he)
        · split at he
          · injection he with he; injection he with h1 h2; injection h2 with h2 h3; subst h1 h2 h3
            exact ⟨p, _, rfl, (value_true s p).2 (h.tval p (by rw [htr]; simp)), hl⟩
          · cases he
      · exact back (ih w1 w3 he)

theorem resolve_gain {s s' : Sat T} {cl : List Lit} (h : s.TW) (hq : s.propQ = []) (hd : 0 < s.dl) (he : s.resolveConflict E O cl = .ok s') : Gain s s' ∧ s'.propQ.length ≤ 1 := by
  have D := resolve_dn h hq hd he
  unfold resolveConflict at he
  match ha : s.analyze cl with
  | .error _ => simp [ha] at he
  | .ok (s1, ng, bt) =>
    simp only [ha] at he
    unfold analyze at ha
    split at ha
    · cases ha
    rename_i pr hpr
    split at ha
    · cases ha
    rename_i a hx
    obtain ⟨S, hbt⟩ := analyzeGo_down _ h hq (explain_bt h pr hd hx) ha
    obtain ⟨p, rest', e, hv, hl⟩ := analyzeGo_first _ h hq ha
    match hp : popLevels O (s1.dl - bt) s1 with
    | .error _ => simp [hp] at he
    | .ok s2 =>
      simp only [hp] at he
      obtain ⟨L, hdl⟩ := popLevels_lower S.tw S.q (by rw [S.dl]; omega) hp
      obtain ⟨U, -, l0, rest, e', -, -, h1, -⟩ := record_up L.tw he
      have hlt := D.lt
      rw [e] at e'
      injection e' with e1 e2
      refine ⟨⟨D.nv, D.post, Nat.le_of_lt D.lt, D.keep, D.low, fun _ => ⟨l0, (U.tw.tru_iff l0).2 h1, fun hq => ?_, fun hq => ?_⟩⟩, ?_⟩
      · have := hq.1
        rw [← e1, value_neg, hv] at this
        cases this
      · have := hq.2
        rw [Lit.neg_var, ← e1, Lit.neg_var, hl] at this
        omega
      · unfold record at he
        split at he
        · cases he
        split at he
        · cases he
        have one : ∀ (u : Sat T) (p : Lit) (c : Option Nat), u.propQ = [] → (u.enqueue p c).1.propQ.length ≤ 1 := by
          intro u p c hu
          unfold enqueue
          split
          · rw [hu]; simp
          · simp [hu]
        split at he
        · split at he
          · split at he
            · injection he with he; subst he; exact one _ _ _ L.q
            · cases he
          · split at he
            · cases he
            · next s3 c hc =>
              injection he with he; subst he
              exact one s3 _ _ (by rw [(newClauseObj_cnt2 hc).2]; exact L.q)
        · cases he

theorem analyzeAndBackjump_gain {s s' : Sat T} {cl : List Lit} (h : s.TW) (hq : s.propQ = []) (hd : 0 < s.dl) (he : s.analyzeAndBackjump E O cl = .ok s') : Gain s s' ∧ s'.propQ.length ≤ 1 := by
  unfold analyzeAndBackjump at he
  split at he
  · split at he
    · exact resolve_gain h hq hd he
    · cases he
  · cases he

/-- One conflict lowers the measure. -/
theorem measure_conflict' {s s' : Sat T} (hd : s'.dl < s.dl) (hn : s'.nvars = s.nvars) (hq : s'.propQ.length ≤ 1) (n : Nat)
    (hm : s.dl * (2 * s.nvars + 2) ≤ n) : s'.measure < n := by
  unfold measure
  rw [hn]
  have h1 : (s'.dl + 1) * (2 * s.nvars + 2) ≤ s.dl * (2 * s.nvars + 2) := Nat.mul_le_mul_right _ hd
  rw [Nat.add_mul] at h1
  omega

/-! ### Propagation ends -/

theorem propLoop_halts (K : Firm O) (n : Nat) : ∀ {s : Sat T}, s.Steady K → s.measure < n →
    propLoop E O n s ≠ .error .fuel ∧ ∀ s', propLoop E O n s = .ok (s', true) → Gain s s' := by
  induction n with
  | zero => intro s _ h; omega
  | succ n ih =>
    intro s hS hm
    have hw := hS.tw
    have hmd : s.dl * (2 * s.nvars + 2) ≤ n := by unfold measure at hm; omega
    -- after a conflict
    have dnext : ∀ {s1 s2 : Sat T}, Gain s s1 → s1.dl = s.dl → Dn O s1 s2 → Gain s1 s2 ∧ s2.propQ.length ≤ 1 → s2.Steady K →
        propLoop E O n s2 ≠ .error .fuel ∧ ∀ s', propLoop E O n s2 = .ok (s', true) → Gain s s' := by
      intro s1 s2 h1 h2 D h3 hS2
      obtain ⟨a, b⟩ := ih (s := s2) hS2 (measure_conflict' (s := s) (by rw [← h2]; exact D.lt) (D.nv.trans h1.nv) h3.2 n hmd)
      exact ⟨a, fun s' hs => (h1.trans h3.1).trans (b s' hs)⟩
    unfold propLoop
    match hq : s.propQ with
    | p :: q =>
      simp only
      match hv : visit p (s.watches p) { s with propQ := q, watches := upd s.watches p [] } with
      | .error e => simp only; exact ⟨fun he => by injection he with he; subst he; exact visit_fuel _ _ _ hv, by simp⟩
      | .ok (s1, r) =>
        obtain ⟨G, hth, hpv, hpl, W⟩ := visit_pop hw hq hv
        have hc1 := visit_cnt _ _ hv
        have hdl : s1.dl = s.dl := G.dl
        have hnv : s1.nvars = s.nvars := G.nv
        have hkeep : ∀ i x, s.tru i x → s1.tru i x := fun i x hx => G.tru_keep (s := { s with propQ := q }) hx
        have G1 : Gain s s1 := by
          have g := G.gain
          exact ⟨g.nv, g.post, g.dl, g.keep, g.low, g.gain⟩
        have hL1 : K.LI s1.th s1.nvars s1.bounds s1.dl s1.tru (fun x => x ∈ s1.propQ ∨ x = p) := by
          have h0 := hS.li
          have e1 : s1.bounds = s.bounds := G.bnd
          have e2 : s1.nvars = s.nvars := G.nv
          rw [hth, e1, hdl]
          refine K.adv h0 (Nat.le_of_eq e2.symm) (fun i x _ hx => hkeep i x hx) (fun i x hi hx => G.tru_low (s := { s with propQ := q }) (by omega) hx) (fun x hx => ?_) (fun x hx => ?_)
          · rcases G.new x hx.1 with h1 | h1
            · exact .inl ((hw.tru_iff x).2 h1)
            · exact .inr (.inl h1)
          · rw [hq] at hx
            rcases List.mem_cons.1 hx with h | h
            · exact .inr h
            · exact .inl (G.que x h)
        have meas : ∀ {s2 : Sat T}, s2.TW → s2.nvars = s.nvars → s2.dl = s.dl → Cnt s1 s2 → s2.measure < n := by
          intro s2 tw e1 e2 hc
          have hc := hc1.trans hc
          unfold Cnt at hc
          simp only at hc
          have := tw.trail_le
          have h0 := hw.trail_le
          unfold measure at hm ⊢
          rw [e1] at this
          rw [e1, e2]
          rw [hq] at hm
          simp only [List.length_cons] at hm
          omega
        match r, W, hv with
        | some c, W, hv =>
          simp only
          have hC : s1.LkC := Lk.map (s := s) (P := fun s c => s.Wtd c) (P' := fun s c => s.WtdC c) G.post (fun x hx => hkeep 0 x hx) (fun c hc => ⟨(W c hc).2.2 (by simp), (W c hc).1⟩) hS.lk
          by_cases hr : ({ s1 with propQ := [] } : Sat T).root = true
          · rw [if_pos hr]
            exact ⟨by simp, by simp⟩
          · rw [if_neg hr]
            have hpos : 0 < ({ s1 with propQ := [] } : Sat T).dl := not_root hr
            have hLt : K.LI s1.th s1.nvars s1.bounds s1.dl s1.tru (fun _ => True) := K.adv hL1 (Nat.le_refl _) (fun _ _ _ h => h) (fun _ _ _ h => h) (fun _ h => .inl h) (fun _ _ => trivial)
            match hx : ({ s1 with propQ := [] } : Sat T).resolveConflict E O (s1.db c) with
            | .error e => simp only; exact ⟨fun he => by injection he with he; subst he; exact resolveConflict_fuel K G.tw.clearQ rfl hpos hLt hx, by simp⟩
            | .ok s2 =>
              simp only
              have D := resolve_dn G.tw.clearQ rfl hpos hx
              exact dnext (s1 := { s1 with propQ := [] }) ⟨G1.nv, G1.post, G1.dl, G1.keep, G1.low, G1.gain⟩ hdl D (resolve_gain G.tw.clearQ rfl hpos hx)
                (D.steady hLt (hC.clearQ G.tw))
        | none, W, hv =>
          simp only
          have hC : s1.Lk := Lk.map (s := s) (P := fun s c => s.Wtd c) (P' := fun s c => s.Wtd c) G.post (fun x hx => hkeep 0 x hx) (fun c hc => ⟨(W c hc).2.1 rfl, (W c hc).1⟩) hS.lk
          have hpv1 : s1.value p = some true := G.val hpv
          rcases K.prop (P := fun x => x ∈ s1.propQ) hL1 (fun _ h => h) G.tw.tru_iff (fun x => value_neg s1 x) hpv1 with ⟨hb, hL2⟩ | ⟨i, hb, hA⟩
          · rw [hb]
            simp only [runBinds]
            have e : upd s1.bounds p.var [] = s1.bounds := by
              funext v
              by_cases h : v = p.var
              · rw [h, upd_self, hb]
              · rw [upd_ne _ _ h]
            have e2 : (if s1.root then { s1 with bounds := upd s1.bounds p.var [] } else s1) = s1 := by
              rw [e]; split <;> rfl
            rw [e2]
            obtain ⟨a, b⟩ := ih (s := s1) ⟨G.tw, hL2, hC⟩ (meas G.tw hnv hdl (.refl s1))
            exact ⟨a, fun s' hs => G1.trans (b s' hs)⟩
          · rw [hb]
            simp only [runBinds]
            match hact : runAct E (O.propagate i s1.th s1.value p) s1 with
            | .error e => simp only; exact ⟨fun he => by injection he with he; subst he; exact runAct_fuel _ G.tw hA hact, by simp⟩
            | .ok (s2, r) =>
              obtain ⟨U, g1, g2⟩ := runAct_steady _ G.tw hA hact
              have hc2 := runAct_cnt _ hact
              have hC2 := hC.up U
              have G2 : Gain s s2 := G1.trans U.toGr.gain
              have hd2 : s2.dl = s.dl := U.dl.trans hdl
              have hn2 : s2.nvars = s.nvars := U.nv.trans hnv
              match r, g1, g2, hact with
              | some cl, g1, g2, hact =>
                simp only
                by_cases hr : ({ s2 with propQ := [] } : Sat T).root = true
                · rw [if_pos hr]
                  exact ⟨by simp, by simp⟩
                · rw [if_neg hr]
                  have hpos : 0 < ({ s2 with propQ := [] } : Sat T).dl := not_root hr
                  have hLt : K.LI s2.th s2.nvars s2.bounds s2.dl s2.tru (fun _ => True) := by
                    have := g2 cl rfl
                    rw [U.bnd, U.nv, U.dl]; exact this
                  match hx : ({ s2 with propQ := [] } : Sat T).analyzeAndBackjump E O cl with
                  | .error e => simp only; exact ⟨fun he => by injection he with he; subst he; exact analyzeAndBackjump_fuel K U.tw.clearQ rfl hpos hLt hx, by simp⟩
                  | .ok s3 =>
                    simp only
                    have D := analyzeAndBackjump_dn U.tw.clearQ rfl hpos hx
                    exact dnext (s1 := { s2 with propQ := [] }) ⟨G2.nv, G2.post, G2.dl, G2.keep, G2.low, G2.gain⟩ hd2 D (analyzeAndBackjump_gain U.tw.clearQ rfl hpos hx)
                      (D.steady hLt (hC2.toC.clearQ U.tw))
              | none, g1, g2, hact =>
                simp only
                obtain ⟨a, b'⟩ := g1 rfl
                by_cases hr : s2.root = true
                · rw [if_pos hr]
                  obtain ⟨x, y⟩ := ih (s := { s2 with bounds := upd s2.bounds p.var [] }) ⟨U.tw.congr rfl rfl rfl rfl rfl rfl (fun _ h => h) U.tw.crng U.tw.wlt, by
                    show K.LI s2.th s2.nvars (upd s2.bounds p.var []) s2.dl s2.tru _
                    rw [U.bnd, U.nv, U.dl]
                    apply b'
                    rw [← U.dl]; exact (root_iff s2).1 hr, Lk.map (s := s2) (s' := { s2 with bounds := upd s2.bounds p.var [] }) (P := fun s c => s.Wtd c) (P' := fun s c => s.Wtd c) rfl (fun _ h => h)
                      (fun c hc => ⟨⟨hc.lt, hc.nd, hc.cnt, hc.wat⟩, fun _ => Iff.rfl⟩) hC2⟩ (meas (s2 := s2) U.tw hn2 hd2 hc2)
                  refine ⟨x, fun s' hs => ?_⟩
                  have := y s' hs
                  exact G2.trans ⟨this.nv, this.post, this.dl, this.keep, this.low, this.gain⟩
                · rw [if_neg hr]
                  obtain ⟨x, y⟩ := ih (s := s2) ⟨U.tw, by rw [U.bnd, U.nv, U.dl]; exact a, hC2⟩ (meas U.tw hn2 hd2 hc2)
                  exact ⟨x, fun s' hs => G2.trans (y s' hs)⟩
    | [] =>
      simp only
      obtain ⟨x, hx0⟩ := K.check_ok hS.li (by rw [hq]; simp) hw.tru_iff (fun q => value_neg s q)
      obtain ⟨⟨s1, r⟩, hc⟩ := runChecks_ok _ hx0
      rw [hc]
      obtain ⟨t', e, hca⟩ := runChecks_th _ hc
      subst e
      obtain ⟨k1, k2⟩ := K.check hS.li (by rw [hq]; simp) hw.tru_iff (fun q => value_neg s q) hca
      have hk : ({ s with th := t' } : Sat T).Lk := hS.lk.up ((Up.refl hw).setTh t')
      have ht : ({ s with th := t' } : Sat T).TW := ((Up.refl hw).setTh t').tw
      have G1 : Gain s ({ s with th := t' } : Sat T) := ⟨rfl, rfl, Nat.le_refl _, fun _ _ _ h => h, fun _ _ _ h => h, fun h => absurd h (Nat.lt_irrefl _)⟩
      match r, k1, k2, hc with
      | none, k1, k2, hc =>
        refine ⟨by simp, fun s' hs => ?_⟩
        injection hs with hs; injection hs with h1 h2; subst h1
        exact G1
      | some cl, k1, k2, hc =>
        simp only
        by_cases hr : ({ s with th := t' } : Sat T).root = true
        · rw [if_pos hr]
          exact ⟨by simp, by simp⟩
        · rw [if_neg hr]
          have hpos : 0 < ({ s with th := t' } : Sat T).dl := not_root hr
          match hx : ({ s with th := t' } : Sat T).analyzeAndBackjump E O cl with
          | .error e => simp only; exact ⟨fun he => by injection he with he; subst he; exact analyzeAndBackjump_fuel K ht hq hpos (k2 cl rfl) hx, by simp⟩
          | .ok s3 =>
            simp only
            have D := analyzeAndBackjump_dn ht hq hpos hx
            exact dnext (s1 := { s with th := t' }) G1 rfl D (analyzeAndBackjump_gain ht hq hpos hx) (D.steady (k2 cl rfl) hk.toC)

theorem propagate_halts (K : Firm O) {s : Sat T} (h : s.Steady K) : s.propagate E O ≠ .error .fuel ∧ ∀ s', s.propagate E O = .ok (s', true) → Gain s s' :=
  propLoop_halts K _ h (propFuel_ok s)

end Sat
end Semitone
