import Verif.Sat.Halt
import Verif.Sat.Amo

/-!
# Every call ends: the calls
-/
namespace Semitone
namespace Sat
variable {T : Type} {O : TheoryOps T} {E : Env} {K : Firm O}

/-! ### The constructors -/

theorem newClause_fuel (s : Sat T) (ls : List Lit) : s.newClause E ls ≠ .error .fuel := by
  unfold newClause
  split
  · simp
  split
  · simp
  simp only
  split
  · simp
  · simp
  · simp
  · split
    · next e h =>
      intro he; injection he with he; subst he
      unfold newClauseObj at h
      split at h <;> cases h
    · simp

theorem postAll_fuel : ∀ (cs : List (List Lit)) (s : Sat T), postAll E cs s ≠ .error .fuel
  | [], s => by simp [postAll]
  | c :: cs, s => by
    simp only [postAll]
    split
    · next e h => intro he; injection he with he; subst he; exact newClause_fuel s c h
    · simp
    · exact postAll_fuel cs _

theorem define_fuel (s : Sat T) (k : String) (ctr : Lit) (cls : List (List Lit)) : define E s k ctr cls ≠ .error .fuel := by
  unfold define
  split
  · next e h => intro he; injection he with he; subst he; exact postAll_fuel cls s h
  · simp
  · simp

theorem newEq_fuel (s : Sat T) (a b : Lit) : s.newEq E a b ≠ .error .fuel := by
  unfold newEq
  split
  · simp
  split
  · simp
  split
  · simp
  split <;> try simp
  split
  · simp
  · exact define_fuel _ _ _ _

theorem newConj_fuel (s : Sat T) (ls : List Lit) : s.newConj E ls ≠ .error .fuel := by
  unfold newConj
  split
  · simp
  split
  · simp
  split <;> try simp
  split
  · simp
  · exact define_fuel _ _ _ _

theorem newDisj_fuel (s : Sat T) (ls : List Lit) : s.newDisj E ls ≠ .error .fuel := by
  unfold newDisj
  split
  · simp
  split
  · simp
  split <;> try simp
  split
  · simp
  · exact define_fuel _ _ _ _

theorem filt_le {stop : Bool} {val : Lit → Option Bool} : ∀ {ls out : List Lit} {p}, filt stop val p ls = some out → out.length ≤ ls.length
  | [], out, p, h => by simp only [filt] at h; injection h with h; subst h; simp
  | l :: ls, out, p, h => by
    simp only [filt] at h
    split at h
    · cases h
    split at h
    · obtain ⟨o, h1, rfl⟩ := Option.map_eq_some_iff.mp h
      have := filt_le h1
      simp; omega
    · have := filt_le h
      simp; omega

theorem amoFilt_le {val : Lit → Option Bool} : ∀ {ls out : List Lit} {p}, amoFilt val p ls = some out → out.length ≤ ls.length
  | [], out, p, h => by simp only [amoFilt] at h; injection h with h; subst h; simp
  | l :: ls, out, p, h => by
    simp only [amoFilt] at h
    split at h
    · have := filt_le h
      simp; omega
    split at h
    · obtain ⟨o, h1, rfl⟩ := Option.map_eq_some_iff.mp h
      have := amoFilt_le h1
      simp; omega
    · have := amoFilt_le h
      simp; omega

theorem newVars_len : ∀ (n : Nat) (s : Sat T), (newVars n s).2.length = n
  | 0, s => rfl
  | n + 1, s => by simp only [newVars, List.length_cons]; rw [newVars_len n]

theorem newAMOGo_fuel (f : Nat) : ∀ (s : Sat T) (ls : List Lit), ls.length < f → newAMOGo E f s ls ≠ .error .fuel := by
  induction f with
  | zero => intro s ls h; omega
  | succ f ih =>
    intro s ls h
    unfold newAMOGo
    split
    · simp
    split
    · simp
    split
    · simp
    · simp
    · simp
    · next out _ _ hf =>
      have hle : out.length ≤ ls.length := by
        have := amoFilt_le hf
        rwa [(E.sortVar_perm ls).length_eq] at this
      split
      · simp
      split
      · exact define_fuel _ _ _ _
      · next h4 =>
        obtain ⟨g1, g2, g3, g4, -⟩ := grid_size (n := out.length) (by omega)
        simp only
        have l1 := newVars_len (ceilSqrt out.length) s
        have l2 := newVars_len ((out.length + ceilSqrt out.length - 1) / ceilSqrt out.length) (newVars (ceilSqrt out.length) s).1
        split
        · next e hx => intro he; injection he with he; subst he; exact ih _ _ (by rw [l1]; omega) hx
        · split
          · next e hx => intro he; injection he with he; subst he; exact ih _ _ (by rw [l2]; omega) hx
          · split
            · next e hx => intro he; injection he with he; subst he; exact newConj_fuel _ _ hx
            · exact define_fuel _ _ _ _

theorem newEXO_fuel (s : Sat T) (ls : List Lit) : s.newEXO E ls ≠ .error .fuel := by
  unfold newEXO
  split
  · simp
  split
  · simp
  split
  · simp
  · simp
  · split
    · simp
    split
    · simp
    split
    · next e hx => intro he; injection he with he; subst he; exact newAMOGo_fuel _ _ _ (Nat.lt_succ_self _) hx
    · exact define_fuel _ _ _ _

/-! ### Search -/

/-- A decision ends; one on an unassigned literal that is not refused makes progress. -/
theorem assume_halts (K : Firm O) {s : Sat T} {p : Lit} (h : s.Steady K) :
    s.assume E O p ≠ .error .fuel ∧ ∀ s', s.assume E O p = .ok (s', true) → s'.posted = s.posted ∧ (s.value p = none → Prog s s') := by
  unfold assume
  split
  · simp
  rename_i hin
  have hin : p.var < s.nvars := by simpa [inRange] using hin
  split
  · simp
  rename_i hq
  have hq : s.propQ = [] := by simpa using hq
  have S0 := pushed_steady h hq p
  simp only
  generalize hs0 : ({ s with trailLim := s.trail.length :: s.trailLim, decisions := p :: s.decisions, th := O.push s.th } : Sat T) = s0 at S0
  have e1 : s0.nvars = s.nvars := by rw [← hs0]
  have e2 : s0.posted = s.posted := by rw [← hs0]
  have e3 : s0.dl = s.dl + 1 := by rw [← hs0]; simp [Sat.dl]
  have e4 : s0.assigns = s.assigns := by rw [← hs0]
  have e5 : s0.level = s.level := by rw [← hs0]
  have e6 : s0.value p = s.value p := by rw [← hs0]; rfl
  have e7 : s0.tru = s.tru := by rw [← hs0]; rfl
  match hv : s0.value p with
  | some false =>
    rw [enqueue_some hv]
    exact ⟨by simp, by simp⟩
  | some true =>
    rw [enqueue_some hv]
    obtain ⟨a, b⟩ := propagate_halts (E := E) K S0
    exact ⟨a, fun s' hs => ⟨(b s' hs).post.trans e2, fun hn => by rw [← e6, hv] at hn; cases hn⟩⟩
  | none =>
    rw [enqueue_none hv]
    have U := enq_up (c := none) S0.tw hv (by rw [e1]; exact hin)
    have S1 := S0.up U rfl
    obtain ⟨a, b⟩ := propagate_halts (E := E) K S1
    refine ⟨a, fun s' hs => ?_⟩
    have G := b s' hs
    have R := (propagate_steady S1 hs).yes rfl
    refine ⟨G.post.trans (U.post.trans e2), fun _ => ?_⟩
    have hd1 : (s0.enq p none).dl = s.dl + 1 := U.dl.trans e3
    have nv : s'.nvars = s.nvars := G.nv.trans (U.nv.trans e1)
    have hw := h.tw
    have hw' := R.1.tw
    -- assigned at level i or below: some literal is
    have asg : ∀ {u : Sat T} {v i : Nat}, (u.assigns v ≠ none ∧ u.level v ≤ i) ↔ ∃ b, u.tru i ⟨v, b⟩ := by
      intro u v i
      constructor
      · rintro ⟨a, b⟩
        obtain ⟨x, hx⟩ := Option.ne_none_iff_exists'.mp a
        exact ⟨x, (value_true u ⟨v, x⟩).2 hx, b⟩
      · rintro ⟨x, a, b⟩
        have := (value_true u ⟨v, x⟩).1 a
        exact ⟨by rw [this]; simp, b⟩
    have keep : ∀ i q, i ≤ s'.dl → s.tru i q → s'.tru i q := fun i q hi hq => G.keep i q hi (U.tru_keep (by rw [e7]; exact hq))
    have low : ∀ i q, i < s'.dl → s'.tru i q → s.tru i q := fun i q hi hq => by
      have hd := G.dl
      have := U.tru_low (hi.trans_le hd) (G.low i q hi hq)
      rwa [e7] at this
    have hsub : ∀ i, i ≤ s'.dl → (Finset.range s.nvars).filter (fun v => s.assigns v ≠ none ∧ s.level v ≤ i) ⊆ (Finset.range s'.nvars).filter (fun v => s'.assigns v ≠ none ∧ s'.level v ≤ i) := by
      intro i hi v hm
      rw [Finset.mem_filter, Finset.mem_range] at hm ⊢
      obtain ⟨x, hx⟩ := asg.1 hm.2
      exact ⟨by rw [nv]; exact hm.1, asg.2 ⟨x, keep i _ hi hx⟩⟩
    refine ⟨nv, by have := G.dl; omega, fun i hi => ?_, fun hle => ?_, fun heq => ?_⟩
    · unfold upTo
      refine congrArg Finset.card (Finset.Subset.antisymm ?_ (hsub i hi.le))
      intro v hm
      rw [Finset.mem_filter, Finset.mem_range] at hm ⊢
      obtain ⟨x, hx⟩ := asg.1 hm.2
      exact ⟨by rw [← nv]; exact hm.1, asg.2 ⟨x, low i _ hi hx⟩⟩
    · obtain ⟨q, g1, g2, g3⟩ := G.gain (by omega)
      refine Finset.card_lt_card ((Finset.ssubset_iff_of_subset (hsub _ (Nat.le_refl _))).mpr ⟨q.var, ?_, ?_⟩)
      · rw [Finset.mem_filter, Finset.mem_range]
        have ha := asg.2 ⟨q.sign, g1⟩
        exact ⟨hw'.rng _ ha.1, ha⟩
      · rw [Finset.mem_filter, Finset.mem_range]
        rintro ⟨-, b⟩
        obtain ⟨x, hx⟩ := asg.1 b
        have hx : (s0.enq p none).tru s'.dl ⟨q.var, x⟩ := U.tru_keep (by rw [e7]; exact hx)
        by_cases hxs : x = q.sign
        · subst hxs; exact g2 hx
        · have : (⟨q.var, x⟩ : Lit) = q.neg := lit_ext (by rw [Lit.neg_var]) (by rw [Lit.neg_sign]; revert hxs; cases x <;> cases q.sign <;> simp)
          rw [this] at hx; exact g3 hx
    · have hpt : s'.tru s'.dl p := by
        refine G.keep _ _ (Nat.le_refl _) ?_
        rw [heq, ← hd1]
        exact (U.tw.tru_iff p).2 (by simp [Sat.enq, value_true])
      refine Finset.card_lt_card ((Finset.ssubset_iff_of_subset ?_).mpr ⟨p.var, ?_, ?_⟩)
      · refine (hsub s.dl (by omega)).trans ?_
        intro v hm
        rw [Finset.mem_filter, Finset.mem_range] at hm ⊢
        exact ⟨hm.1, hm.2.1, by omega⟩
      · rw [Finset.mem_filter, Finset.mem_range]
        have ha := asg.2 ⟨p.sign, hpt⟩
        exact ⟨hw'.rng _ ha.1, ha⟩
      · rw [Finset.mem_filter, Finset.mem_range]
        rintro ⟨-, b, -⟩
        rw [e6, value_none] at hv
        exact b hv

theorem next_fuel {s : Sat T} (h : s.Calm K) (hf : s.Eff) : s.next E O ≠ .error .fuel := by
  unfold next
  split
  · simp
  rename_i hr
  simp only
  have hd0 : s.dl ≠ 0 := fun e => hr ((root_iff s).2 e)
  match hp : s.pop O with
  | .error e => simp only; intro he; injection he with he; subst he; exact pop_fuel K (fun _ => ⟨s.dl - 1, by omega⟩) h.li hp
  | .ok s1 =>
    simp only
    match hrec : ({ s1 with posted := s.decisions.map Lit.neg :: s1.posted } : Sat T).record E (s.decisions.map Lit.neg) with
    | .error e => simp only; intro he; injection he with he; subst he; exact record_fuel _ _ hrec
    | .ok s2 => exact (propagate_halts K (next_recorded h hf hr rfl hp hrec)).1

theorem popTo_fuel {s : Sat T} {n : Nat} (h : s.root = true ∨ s.Calm K) : popTo O n s ≠ .error .fuel := by
  unfold popTo
  rcases h with h | h
  · rw [(root_iff s).1 h, Nat.zero_sub]; simp [popLevels]
  · exact popLevels_fuel K _ h.li

theorem checkGo_fuel (rl : Nat) (ps : List Lit) : ∀ {s : Sat T}, s.Calm K → s.propQ = [] → checkGo E O rl ps s ≠ .error .fuel := by
  induction ps with
  | nil => intro s _ _; simp [checkGo]
  | cons p ps ih =>
    intro s h hq
    simp only [checkGo]
    match ha : s.assume E O p with
    | .error e => simp only; intro he; injection he with he; subst he; exact (assume_halts K h.toSteady).1 ha
    | .ok (s1, false) =>
      simp only
      obtain ⟨⟨o1, -⟩, o2, -⟩ := assume_steady h.toSteady ha
      split
      · next e hp => intro he; injection he with he; subst he; exact popTo_fuel ((o1 rfl).imp_left (·.2)) hp
      · simp
    | .ok (s1, true) =>
      simp only
      obtain ⟨⟨-, o1⟩, o2, -⟩ := assume_steady h.toSteady ha
      match hp : s1.propagate E O with
      | .error e => simp only; intro he; injection he with he; subst he; exact (propagate_halts K (o1 rfl).1.toSteady).1 hp
      | .ok (s2, b2) =>
        simp only
        have R := propagate_steady (o1 rfl).1.toSteady hp
        have Oc := R.outcome
        split
        · split
          · next e hp3 =>
            intro he; injection he with he; subst he
            refine popTo_fuel (K := K) ?_ hp3
            cases b2 with
            | false => exact (Oc.1 rfl).imp_left (·.2)
            | true => exact .inr (Oc.2 rfl).1
          · simp
        · rename_i hb
          have hb2 : b2 = true := by
            cases b2 with
            | true => rfl
            | false => exact absurd (Or.inl rfl) hb
          subst hb2
          exact ih (Oc.2 rfl).1 R.q

theorem check_fuel {s : Sat T} {ls : List Lit} (h : s.Calm K) (hq : s.propQ = []) : s.check E O ls ≠ .error .fuel := by
  unfold check
  simp only
  match hg : checkGo E O s.dl ls s with
  | .error e => simp only; intro he; injection he with he; subst he; exact checkGo_fuel _ _ h hq hg
  | .ok (s1, false) => simp
  | .ok (s1, true) =>
    simp only
    obtain ⟨c, q⟩ := (checkGo_steady _ _ h hq hg).2 rfl
    split
    · simp
    · split
      · next e hp => intro he; injection he with he; subst he; exact popTo_fuel (.inr c) hp
      · simp

theorem deleteAll_fuel : ∀ (cs : List Nat) (s : Sat T), deleteAll cs s ≠ .error .fuel
  | [], s => by simp [deleteAll]
  | c :: cs, s => by
    simp only [deleteAll]
    split
    · next e h =>
      intro he; injection he with he; subst he
      unfold deleteClause at h
      split at h
      · split at h
        · simp only at h
          split at h <;> cases h
        · cases h
      · cases h
    · exact deleteAll_fuel cs _

theorem simplify_fuel {s : Sat T} (h : s.Steady K) : s.simplifyDb E O ≠ .error .fuel := by
  unfold simplifyDb
  split
  · simp
  match hp : s.propagate E O with
  | .error e => simp only; intro he; injection he with he; subst he; exact (propagate_halts K h).1 hp
  | .ok (s1, false) => simp
  | .ok (s1, true) =>
    simp only
    split
    · next e hx => intro he; injection he with he; subst he; exact deleteAll_fuel _ _ hx
    · simp

theorem map_fuel {α β : Type} {f : α → β} {x : Except Err α} (h : x ≠ .error .fuel) : x.map f ≠ .error .fuel := by
  cases x with
  | error e => intro he; injection he with he; subst he; exact h rfl
  | ok a => intro he; cases he

/-- No legal call runs forever. -/
theorem step_fuel {s : Sat T} {op : Op} (h : s.Calm K) (hl : s.Legal op) : s.step E O op ≠ .error .fuel := by
  obtain ⟨hd, hl⟩ := hl
  cases op with
  | newVar => simp [step]
  | newClause ls => exact map_fuel (newClause_fuel s ls)
  | newEq a b => exact map_fuel (newEq_fuel s a b)
  | newConj ls => exact map_fuel (newConj_fuel s ls)
  | newDisj ls => exact map_fuel (newDisj_fuel s ls)
  | newAMO ls => exact map_fuel (newAMOGo_fuel _ _ _ (Nat.lt_succ_self _))
  | newEXO ls => exact map_fuel (newEXO_fuel s ls)
  | assume p => exact map_fuel (assume_halts K h.toSteady).1
  | pop =>
    refine map_fuel (pop_fuel K (fun hd => ⟨s.dl - 1, by omega⟩) h.li)
  | propagate => exact map_fuel (propagate_halts K h.toSteady).1
  | next => exact map_fuel (next_fuel h hl)
  | check ls => exact map_fuel (check_fuel h hl.1)
  | simplify => exact map_fuel (simplify_fuel h.toSteady)
  | bind v i => simp [step]
  | listen v l => simp [step]

/-! ### The client stops -/

theorem solveLoop_halts (K : Firm O) {pick : Sat T → Option Lit} (hh : Heuristic pick) :
    ∀ k (s : Sat T) m, s.Calm K → s.propQ = [] → K.Done s.th → Strict s m → s.weight (m + s.nvars) < k →
      solveLoop E O pick k s ≠ .error .fuel ∧
      ∀ s', solveLoop E O pick k s = .ok (s', true) → s'.Calm K ∧ s'.propQ = [] ∧ K.Done s'.th ∧ s'.posted = s.posted ∧ s'.nvars = s.nvars ∧ ∀ v, v < s'.nvars → s'.assigns v ≠ none := by
  intro k
  induction k with
  | zero => intro s m _ _ _ _ hk; omega
  | succ k ih =>
    intro s m hP hq hD hS hk
    unfold solveLoop
    match hpk : pick s with
    | none =>
      refine ⟨by simp, fun s' hs => ?_⟩
      injection hs with hs; injection hs with h1 h2; subst h1
      exact ⟨hP, hq, hD, rfl, rfl, hh.none _ hpk⟩
    | some p =>
      obtain ⟨hr, hv⟩ := hh.some s p hpk
      obtain ⟨a, b⟩ := assume_halts (E := E) (p := p) K hP.toSteady
      simp only
      match hx : s.assume E O p with
      | .error e => simp only; exact ⟨fun he => by injection he with he; subst he; exact a hx, by simp⟩
      | .ok (s1, false) => simp
      | .ok (s1, true) =>
        simp only
        obtain ⟨o, o2, -, o4⟩ := assume_steady hP.toSteady hx
        obtain ⟨c1, c2, c3⟩ := o.2 rfl
        obtain ⟨b1, b2⟩ := b s1 hx
        have pr := b2 hv
        have hS1 := pr.strict hS
        have hdl := hS1.dl
        rw [pr.nv] at hdl
        have hw := pr.weight hdl
        obtain ⟨x, y⟩ := ih s1 m c1 c2 c3 hS1 (by rw [pr.nv]; omega)
        refine ⟨x, fun s' hs => ?_⟩
        obtain ⟨y1, y2, y3, y4, y5, y6⟩ := y s' hs
        exact ⟨y1, y2, y3, y4.trans b1, y5.trans pr.nv, y6⟩

/-- The client stops after at most `(n + 2) ^ (d + n + 1)` decisions, `n` variables and `d` decisions already taken; if it answers true every variable is assigned. -/
theorem solve_halts (K : Firm O) {pick : Sat T → Option Lit} (hh : Heuristic pick) {s : Sat T} (h : s.Calm K) {k : Nat} (hk : (s.nvars + 2) ^ (s.dl + s.nvars + 1) ≤ k) :
    solve E O pick k s ≠ .error .fuel ∧
    ∀ s', solve E O pick k s = .ok (s', true) → s'.Calm K ∧ s'.propQ = [] ∧ K.Done s'.th ∧ s'.posted = s.posted ∧ s'.nvars = s.nvars ∧ ∀ v, v < s'.nvars → s'.assigns v ≠ none := by
  unfold solve
  obtain ⟨a, b⟩ := propagate_halts (E := E) K h.toSteady
  match hx : s.propagate E O with
  | .error e => simp only; exact ⟨fun he => by injection he with he; subst he; exact a hx, by simp⟩
  | .ok (s1, false) => simp
  | .ok (s1, true) =>
    simp only
    have R := propagate_steady h.toSteady hx
    have G := b s1 hx
    obtain ⟨c1, c2, c3⟩ := R.outcome.2 rfl
    have hb := s1.weight_bound (s1.dl + s1.nvars)
    have hS : Strict s1 s1.dl := fun i h1 h2 => absurd h2 (by omega)
    obtain ⟨x, y⟩ := solveLoop_halts (E := E) K hh k s1 s1.dl c1 c2 c3 hS (by
      refine hb.trans_le (le_trans ?_ hk)
      rw [G.nv]
      exact Nat.pow_le_pow_right (by omega) (by have := G.dl; omega))
    refine ⟨x, fun s' hs => ?_⟩
    obtain ⟨y1, y2, y3, y4, y5, y6⟩ := y s' hs
    exact ⟨y1, y2, y3, y4.trans G.post, y5.trans G.nv, y6⟩

end Sat

/-! ### A firm theory that also keeps something of its own -/

theorem ActFirm.with {T : Type} {Q : T → (Nat → Lit → Prop) → (Lit → Prop) → Prop} {R : T → (Nat → Lit → Prop) → Prop} {n : Nat} {I : T → Prop} {A P val act}
    (h : ActFirm Q R n A P val act) : act.All I → ActFirm (fun t A P => Q t A P ∧ I t) (fun t A => R t A ∧ I t) n A P val act := by
  induction h with
  | ok a => exact fun hp => .ok ⟨a, hp⟩
  | confl a => exact fun hp => .confl ⟨a, hp⟩
  | record _ ih => exact fun hp => .record (fun l0 rest e h1 h2 A' P' v h3 h4 h5 h6 h7 h8 h9 h10 => ih l0 rest e h1 h2 A' P' v h3 h4 h5 h6 h7 h8 h9 h10 (hp v))

theorem ActFirm.mono {T : Type} {Q Q' : T → (Nat → Lit → Prop) → (Lit → Prop) → Prop} {R R' : T → (Nat → Lit → Prop) → Prop} {n : Nat} {A P val act}
    (hQ : ∀ t A P, Q t A P → Q' t A P) (hR : ∀ t A, R t A → R' t A) (h : ActFirm Q R n A P val act) : ActFirm Q' R' n A P val act := by
  induction h with
  | ok a => exact .ok (hQ _ _ _ a)
  | confl a => exact .confl (hR _ _ a)
  | record _ ih => exact .record (fun l0 rest e h1 h2 A' P' v h3 h4 h5 h6 h7 h8 h9 h10 => ih l0 rest e h1 h2 A' P' v h3 h4 h5 h6 h7 h8 h9 h10)

theorem checkAll_keeps {T : Type} {O : TheoryOps T} {I : T → Prop} (hk : Keeps O I) : ∀ (is : List Nat) {t t' : T} {val r}, I t → checkAll O is t val = .ok (t', r) → I t'
  | [], t, t', val, r, hi, h => by injection h with h; injection h with h1 h2; subst h1; exact hi
  | i :: is, t, t', val, r, hi, h => by
    simp only [checkAll] at h
    match hc : O.check i t val with
    | .error e => simp [hc] at h
    | .ok (t1, some cl) =>
      simp only [hc] at h
      injection h with h; injection h with h1 h2; subst h1
      exact hk.check _ _ _ _ _ hi hc
    | .ok (t1, none) =>
      simp only [hc] at h
      exact checkAll_keeps hk is (hk.check _ _ _ _ _ hi hc) h

/-- The same theory with `I` in the invariant. -/
def Firm.with {T : Type} {O : TheoryOps T} (K : Firm O) {I : T → Prop} (hk : Keeps O I) : Firm O where
  LI := fun t nv b n A P => K.LI t nv b n A P ∧ I t
  Done := K.Done
  adv := fun h h1 h2 h3 h4 h5 => ⟨K.adv h.1 h1 h2 h3 h4 h5, h.2⟩
  pop := fun h hp => ⟨K.pop h.1 hp, hk.pop _ _ h.2 hp⟩
  pop_ok := fun h => K.pop_ok h.1
  push := fun h h1 h2 => ⟨K.push h.1 h1 h2, hk.push _ h.2⟩
  prop := fun h h1 h2 h3 h4 => by
    rcases K.prop h.1 h1 h2 h3 h4 with ⟨a, b⟩ | ⟨i, a, b⟩
    · exact .inl ⟨a, b, h.2⟩
    · exact .inr ⟨i, a, (b.with (hk.prop i _ _ _ h.2)).mono (fun _ _ _ x => ⟨⟨x.1.1, x.2⟩, fun h0 => ⟨x.1.2 h0, x.2⟩⟩) (fun _ _ x => x)⟩
  check := fun h h1 h2 h3 h4 => by
    obtain ⟨a, b⟩ := K.check h.1 h1 h2 h3 h4
    have := checkAll_keeps hk _ h.2 h4
    exact ⟨fun e => ⟨⟨(a e).1, this⟩, (a e).2⟩, fun cl e => ⟨b cl e, this⟩⟩
  check_ok := fun h h1 h2 h3 => K.check_ok h.1 h1 h2 h3

theorem Sat.Calm.with {T : Type} {O : TheoryOps T} {K : Firm O} {I : T → Prop} (hk : Keeps O I) {s : Sat T} (h : s.Calm K) (hi : I s.th) : s.Calm (K.with hk) :=
  ⟨⟨h.tw, ⟨h.li, hi⟩, h.lk⟩, h.qr⟩

theorem Sat.Calm.without {T : Type} {O : TheoryOps T} {K : Firm O} {I : T → Prop} {hk : Keeps O I} {s : Sat T} (h : s.Calm (K.with hk)) : s.Calm K ∧ I s.th :=
  ⟨⟨⟨h.tw, h.li.1, h.lk⟩, h.qr⟩, h.li.2⟩

end Semitone
