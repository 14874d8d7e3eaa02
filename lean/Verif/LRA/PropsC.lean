import Verif.LRA.Build

/-!
# Linear arithmetic: C45

`t.lo v`, `t.hi v` are what `lb(v)`, `ub(v)` return; `InB lo hi x`: `x` is within the bounds.
-/
namespace Semitone
namespace LRA
open Lin
variable {t : LRA}

/-- Specification: the valuation is within the current bounds. -/
def InBounds (t : LRA) (X : Nat → IQ) : Prop := ∀ v, InB (t.lo v) (t.hi v) (X v)

/-- C45: `lb(l)`, `ub(l)`, `bounds(l)` enclose the value of `l` under every valuation within the current bounds. -/
theorem C45_enclose {X : Nat → IQ} (hX : InBounds t X) (l : Lin) :
    t.lbL l ≤ ((l.eval IQ.one X : IQ) : WithBot IQ) ∧ ((l.eval IQ.one X : IQ) : WithTop IQ) ≤ t.ubL l ∧ t.boundsL l = (t.lbL l, t.ubL l) :=
  ⟨(inB_lin (fun v _ => hX v)).1, (inB_lin (fun v _ => hX v)).2, rfl⟩

theorem termLo_eq {x : Nat × ℚ} {d : IQ} (hne : ∀ v, ∃ w, InB (t.lo v) (t.hi v) w) (h : t.termLo x = ((d : IQ) : WithBot IQ)) :
    ∃ y, InB (t.lo x.1) (t.hi x.1) y ∧ d = x.2 • y := by
  obtain ⟨w, h1, h2⟩ := hne x.1
  unfold termLo at h
  split at h
  · split at h
    · cases h
    · next a ha =>
      have ha : t.lo x.1 = ((a : IQ) : WithBot IQ) := ha
      rw [ha, WithBot.coe_le_coe] at h1
      exact ⟨a, ⟨by rw [ha], (WithTop.coe_le_coe.mpr h1).trans h2⟩, (WithBot.coe_inj.mp h).symm⟩
  · split at h
    · cases h
    · next a ha =>
      have ha : t.hi x.1 = ((a : IQ) : WithTop IQ) := ha
      rw [ha, WithTop.coe_le_coe] at h2
      exact ⟨a, ⟨h1.trans (WithBot.coe_le_coe.mpr h2), by rw [ha]⟩, (WithBot.coe_inj.mp h).symm⟩

theorem termHi_eq {x : Nat × ℚ} {d : IQ} (hne : ∀ v, ∃ w, InB (t.lo v) (t.hi v) w) (h : t.termHi x = ((d : IQ) : WithTop IQ)) :
    ∃ y, InB (t.lo x.1) (t.hi x.1) y ∧ d = x.2 • y := by
  obtain ⟨w, h1, h2⟩ := hne x.1
  unfold termHi at h
  split at h
  · split at h
    · cases h
    · next a ha =>
      have ha : t.hi x.1 = ((a : IQ) : WithTop IQ) := ha
      rw [ha, WithTop.coe_le_coe] at h2
      exact ⟨a, ⟨h1.trans (WithBot.coe_le_coe.mpr h2), by rw [ha]⟩, (WithTop.coe_inj.mp h).symm⟩
  · split at h
    · cases h
    · next a ha =>
      have ha : t.lo x.1 = ((a : IQ) : WithBot IQ) := ha
      rw [ha, WithBot.coe_le_coe] at h1
      exact ⟨a, ⟨by rw [ha], (WithTop.coe_le_coe.mpr h1).trans h2⟩, (WithTop.coe_inj.mp h).symm⟩

theorem foldLo_eq (hne : ∀ v, ∃ w, InB (t.lo v) (t.hi v) w) : ∀ (ts : List (Nat × ℚ)) (b : WithBot IQ) (a : IQ), (keys ts).Pairwise (· < ·) →
    ts.foldl (fun b x => b + t.termLo x) b = ((a : IQ) : WithBot IQ) → ∃ b0 : IQ, b = (b0 : WithBot IQ) ∧ ∃ X, InBounds t X ∧ a = b0 + evalT X ts
  | [], b, a, _, h => by
    refine ⟨a, h, fun v => (hne v).choose, fun v => (hne v).choose_spec, ?_⟩
    simp
  | x :: ts, b, a, hs, h => by
    rw [List.foldl_cons] at h
    obtain ⟨hx, hs⟩ := List.pairwise_cons.mp hs
    obtain ⟨c0, h1, X, hX, h2⟩ := foldLo_eq hne ts _ a hs h
    obtain ⟨b0, d, e1, e2, e3⟩ := WithBot.add_eq_coe.mp h1
    obtain ⟨y, hy, hd⟩ := termLo_eq hne e2.symm
    refine ⟨b0, e1.symm, upd X x.1 y, fun v => ?_, ?_⟩
    · by_cases e : v = x.1
      · rw [e, upd_self]; exact hy
      · rw [upd_ne _ _ e]; exact hX v
    · rw [evalT_cons, upd_self, evalT_upd_not _ _ _ (fun hm => Nat.lt_irrefl _ (hx _ hm)), h2, ← e3, hd, add_assoc]

theorem foldHi_eq (hne : ∀ v, ∃ w, InB (t.lo v) (t.hi v) w) : ∀ (ts : List (Nat × ℚ)) (b : WithTop IQ) (a : IQ), (keys ts).Pairwise (· < ·) →
    ts.foldl (fun b x => b + t.termHi x) b = ((a : IQ) : WithTop IQ) → ∃ b0 : IQ, b = (b0 : WithTop IQ) ∧ ∃ X, InBounds t X ∧ a = b0 + evalT X ts
  | [], b, a, _, h => by
    refine ⟨a, h, fun v => (hne v).choose, fun v => (hne v).choose_spec, ?_⟩
    simp
  | x :: ts, b, a, hs, h => by
    rw [List.foldl_cons] at h
    obtain ⟨hx, hs⟩ := List.pairwise_cons.mp hs
    obtain ⟨c0, h1, X, hX, h2⟩ := foldHi_eq hne ts _ a hs h
    obtain ⟨b0, d, e1, e2, e3⟩ := WithTop.add_eq_coe.mp h1
    obtain ⟨y, hy, hd⟩ := termHi_eq hne e2.symm
    refine ⟨b0, e1.symm, upd X x.1 y, fun v => ?_, ?_⟩
    · by_cases e : v = x.1
      · rw [e, upd_self]; exact hy
      · rw [upd_ne _ _ e]; exact hX v
    · rw [evalT_cons, upd_self, evalT_upd_not _ _ _ (fun hm => Nat.lt_irrefl _ (hx _ hm)), h2, ← e3, hd, add_assoc]

theorem eval_eq (l : Lin) (X : Nat → IQ) : l.eval IQ.one X = IQ.ofQ l.kt + evalT X l.vars := by unfold Lin.eval; rw [IQ.ofQ_eq, add_comm]

theorem foldLo_bot : ∀ (ts : List (Nat × ℚ)) (b : WithBot IQ), b ≠ ⊥ → ts.foldl (fun b x => b + t.termLo x) b = ⊥ → ∃ x ∈ ts, t.termLo x = ⊥
  | [], b, hb, h => absurd h hb
  | x :: ts, b, hb, h => by
    rw [List.foldl_cons] at h
    by_cases hx : t.termLo x = ⊥
    · exact ⟨x, List.mem_cons_self, hx⟩
    · obtain ⟨y, hy, e⟩ := foldLo_bot ts _ (fun e => by rcases WithBot.add_eq_bot.mp e with e | e <;> contradiction) h
      exact ⟨y, List.mem_cons_of_mem _ hy, e⟩

theorem foldHi_top : ∀ (ts : List (Nat × ℚ)) (b : WithTop IQ), b ≠ ⊤ → ts.foldl (fun b x => b + t.termHi x) b = ⊤ → ∃ x ∈ ts, t.termHi x = ⊤
  | [], b, hb, h => absurd h hb
  | x :: ts, b, hb, h => by
    rw [List.foldl_cons] at h
    by_cases hx : t.termHi x = ⊤
    · exact ⟨x, List.mem_cons_self, hx⟩
    · obtain ⟨y, hy, e⟩ := foldHi_top ts _ (fun e => by rcases WithTop.add_eq_top.mp e with e | e <;> contradiction) h
      exact ⟨y, List.mem_cons_of_mem _ hy, e⟩

theorem lookup_of_mem {ts : List (Nat × ℚ)} (hs : (keys ts).Pairwise (· < ·)) {x : Nat × ℚ} (h : x ∈ ts) : ts.lookup x.1 = some x.2 := by
  induction ts with
  | nil => cases h
  | cons y ts ih =>
    obtain ⟨hy, hs⟩ := List.pairwise_cons.mp hs
    rw [List.lookup_cons]
    rcases List.mem_cons.mp h with rfl | h
    · simp
    · have : x.1 ≠ y.1 := Nat.ne_of_gt (hy _ (List.mem_map.mpr ⟨x, h, rfl⟩))
      rw [beq_false_of_ne this]
      exact ih hs h

/-- Moving one variable changes the value of the expression by any amount. -/
theorem eval_move {l : Lin} (hc : l.Canon) {x : Nat × ℚ} (hx : x ∈ l.vars) (X : Nat → IQ) (d : IQ) :
    l.eval IQ.one (upd X x.1 (X x.1 + (1 / x.2) • d)) = l.eval IQ.one X + d := by
  have hz : x.2 ≠ 0 := hc.2 x hx
  rw [eval_eq, eval_eq, evalT_upd _ _ _ hc.1 (lookup_of_mem hc.1 hx), add_sub_cancel_left, smul_smul, mul_one_div_cancel hz, one_smul, add_assoc]

theorem smul_nonpos {c : ℚ} {d : IQ} (hc : 0 ≤ c) (hd : d ≤ 0) : c • d ≤ 0 := by
  have := IQ.smul_le hc hd
  rwa [smul_zero] at this
theorem smul_nonneg' {c : ℚ} {d : IQ} (hc : c ≤ 0) (hd : d ≤ 0) : 0 ≤ c • d := by
  have := IQ.smul_le_neg hc hd
  rwa [smul_zero] at this

/-- C45: the bounds of an expression are as tight as the bounds of the variables allow: a finite bound is the value of the expression under some valuation within the
bounds, and where there is no bound the value can be as small (as large) as one wants. -/
theorem C45_tight {l : Lin} (hc : l.Canon) (hne : ∀ v, ∃ w, InB (t.lo v) (t.hi v) w) :
    (∀ a : IQ, t.lbL l = ((a : IQ) : WithBot IQ) → ∃ X, InBounds t X ∧ l.eval IQ.one X = a) ∧
    (∀ a : IQ, t.ubL l = ((a : IQ) : WithTop IQ) → ∃ X, InBounds t X ∧ l.eval IQ.one X = a) ∧
    (t.lbL l = ⊥ → ∀ M : IQ, ∃ X, InBounds t X ∧ l.eval IQ.one X ≤ M) ∧
    (t.ubL l = ⊤ → ∀ M : IQ, ∃ X, InBounds t X ∧ M ≤ l.eval IQ.one X) := by
  have hch : ∃ X, InBounds t X := ⟨fun v => (hne v).choose, fun v => (hne v).choose_spec⟩
  refine ⟨fun a h => ?_, fun a h => ?_, fun h M => ?_, fun h M => ?_⟩
  · obtain ⟨b0, e, X, hX, hv⟩ := foldLo_eq hne l.vars _ a hc.1 h
    exact ⟨X, hX, by rw [eval_eq, hv, WithBot.coe_inj.mp e]⟩
  · obtain ⟨b0, e, X, hX, hv⟩ := foldHi_eq hne l.vars _ a hc.1 h
    exact ⟨X, hX, by rw [eval_eq, hv, WithTop.coe_inj.mp e]⟩
  · obtain ⟨x, hx, hb⟩ := foldLo_bot l.vars _ WithBot.coe_ne_bot h
    obtain ⟨X, hX⟩ := hch
    refine ⟨upd X x.1 (X x.1 + (1 / x.2) • (min 0 (M - l.eval IQ.one X))), fun v => ?_, ?_⟩
    · by_cases e : v = x.1
      · subst e
        rw [upd_self]
        have hd : min 0 (M - l.eval IQ.one X) ≤ 0 := min_le_left _ _
        obtain ⟨h1, h2⟩ := hX x.1
        unfold termLo at hb
        split at hb
        · next hp =>
          split at hb
          · next hlo =>
            have hlo : t.lo x.1 = ⊥ := hlo
            refine ⟨by rw [hlo]; exact bot_le, le_trans (WithTop.coe_le_coe.mpr ?_) h2⟩
            have := smul_nonpos (le_of_lt (one_div_pos.mpr hp)) hd
            simpa using add_le_add (le_refl (X x.1)) this
          · cases hb
        · next hp =>
          split at hb
          · next hhi =>
            have hhi : t.hi x.1 = ⊤ := hhi
            refine ⟨le_trans h1 (WithBot.coe_le_coe.mpr ?_), by rw [hhi]; exact le_top⟩
            have := smul_nonneg' (one_div_nonpos.mpr (not_lt.mp hp)) hd
            simpa using add_le_add (le_refl (X x.1)) this
          · cases hb
      · rw [upd_ne _ _ e]; exact hX v
    · rw [eval_move hc hx]
      have : min 0 (M - l.eval IQ.one X) ≤ M - l.eval IQ.one X := min_le_right _ _
      grind
  · obtain ⟨x, hx, hb⟩ := foldHi_top l.vars _ WithTop.coe_ne_top h
    obtain ⟨X, hX⟩ := hch
    refine ⟨upd X x.1 (X x.1 + (1 / x.2) • (- min 0 (l.eval IQ.one X - M))), fun v => ?_, ?_⟩
    · by_cases e : v = x.1
      · subst e
        rw [upd_self]
        have hd : min 0 (l.eval IQ.one X - M) ≤ 0 := min_le_left _ _
        obtain ⟨h1, h2⟩ := hX x.1
        unfold termHi at hb
        split at hb
        · next hp =>
          split at hb
          · next hhi =>
            have hhi : t.hi x.1 = ⊤ := hhi
            refine ⟨le_trans h1 (WithBot.coe_le_coe.mpr ?_), by rw [hhi]; exact le_top⟩
            have := smul_nonpos (le_of_lt (one_div_pos.mpr hp)) hd
            rw [smul_neg]
            grind
          · cases hb
        · next hp =>
          split at hb
          · next hlo =>
            have hlo : t.lo x.1 = ⊥ := hlo
            refine ⟨by rw [hlo]; exact bot_le, le_trans (WithTop.coe_le_coe.mpr ?_) h2⟩
            have := smul_nonneg' (one_div_nonpos.mpr (not_lt.mp hp)) hd
            rw [smul_neg]
            grind
          · cases hb
      · rw [upd_ne _ _ e]; exact hX v
    · rw [eval_move hc hx]
      have : min 0 (l.eval IQ.one X - M) ≤ l.eval IQ.one X - M := min_le_right _ _
      grind

/-- C45: `matches(l0, l1)` is false only if no valuation within the bounds makes the two expressions equal. -/
theorem C45_matches {X : Nat → IQ} (hX : InBounds t X) {l0 l1 : Lin} (h : t.matchesL l0 l1 = false) : l0.eval IQ.one X ≠ l1.eval IQ.one X := by
  intro e
  have h0 := C45_enclose hX l0
  have h1 := C45_enclose hX l1
  unfold matchesL at h
  rw [leBT_of h1.1 (by rw [← e]; exact h0.2.1), leBT_of h0.1 (by rw [e]; exact h1.2.1)] at h
  cases h

theorem leBT_iff {a : WithBot IQ} {b : WithTop IQ} : leBT a b = true ↔ ∃ x : IQ, a ≤ (x : WithBot IQ) ∧ (x : WithTop IQ) ≤ b := by
  constructor
  · intro h
    induction a using WithBot.recBotCoe with
    | bot =>
      induction b using WithTop.recTopCoe with
      | top => exact ⟨0, bot_le, le_top⟩
      | coe b => exact ⟨b, bot_le, le_refl _⟩
    | coe a =>
      induction b using WithTop.recTopCoe with
      | top => exact ⟨a, le_refl _, le_top⟩
      | coe b => exact ⟨a, le_refl _, WithTop.coe_le_coe.mpr (of_decide_eq_true h)⟩
  · rintro ⟨x, h1, h2⟩
    exact leBT_of h1 h2

/-- C45: `matches(l0, l1)` is true exactly when the intervals of the two expressions have a common value. -/
theorem C45_matches_exact {X : Nat → IQ} (hX : InBounds t X) (l0 l1 : Lin) :
    t.matchesL l0 l1 = true ↔ ∃ w : IQ, InB (t.lbL l0) (t.ubL l0) w ∧ InB (t.lbL l1) (t.ubL l1) w := by
  obtain ⟨a0, b0, -⟩ := C45_enclose hX l0
  obtain ⟨a1, b1, -⟩ := C45_enclose hX l1
  unfold matchesL
  rw [Bool.and_eq_true, leBT_iff, leBT_iff]
  constructor
  · rintro ⟨⟨p, p1, p2⟩, q, q1, q2⟩
    generalize l0.eval IQ.one X = e0 at *
    generalize l1.eval IQ.one X = e1 at *
    generalize t.lbL l0 = m0 at *
    generalize t.lbL l1 = m1 at *
    generalize t.ubL l0 = M0 at *
    generalize t.ubL l1 = M1 at *
    have up : ∀ {a b : IQ} {M : WithTop IQ}, (b : WithTop IQ) ≤ M → a ≤ b → (a : WithTop IQ) ≤ M := fun h1 h2 => (WithTop.coe_le_coe.mpr h2).trans h1
    induction m0 using WithBot.recBotCoe with
    | bot =>
      induction m1 using WithBot.recBotCoe with
      | bot => exact ⟨min e0 e1, ⟨bot_le, up b0 (min_le_left _ _)⟩, bot_le, up b1 (min_le_right _ _)⟩
      | coe m1 =>
        rw [WithBot.coe_le_coe] at a1 p1
        exact ⟨m1, ⟨bot_le, up p2 p1⟩, le_refl _, up b1 a1⟩
    | coe m0 =>
      rw [WithBot.coe_le_coe] at a0 q1
      induction m1 using WithBot.recBotCoe with
      | bot => exact ⟨m0, ⟨le_refl _, up b0 a0⟩, bot_le, up q2 q1⟩
      | coe m1 =>
        rw [WithBot.coe_le_coe] at a1 p1
        refine ⟨max m0 m1, ⟨WithBot.coe_le_coe.mpr (le_max_left _ _), ?_⟩, WithBot.coe_le_coe.mpr (le_max_right _ _), ?_⟩
        · rcases max_choice m0 m1 with e | e <;> rw [e]
          · exact up b0 a0
          · exact up p2 p1
        · rcases max_choice m0 m1 with e | e <;> rw [e]
          · exact up q2 q1
          · exact up b1 a1
  · rintro ⟨w, ⟨h1, h2⟩, h3, h4⟩
    exact ⟨⟨w, h3, h2⟩, w, h1, h4⟩

end LRA
end Semitone
