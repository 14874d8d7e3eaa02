import Verif.LRA.Assert

/-!
# The clauses of the linear-arithmetic theory are valid
-/
namespace Semitone

/-- Every clause recorded satisfies `V`, a reported conflict satisfies `V` and all its literals are false, the call does not fail, and ends in a state that
satisfies `P` when it answers "consistent" and `R` when it reports a conflict; the values may grow while clauses are recorded. -/
inductive TAct.Valid {T : Type} (V : List Lit → Prop) (P R : T → Prop) : (Lit → Option Bool) → TAct T → Prop
  | ok {val t} : P t → TAct.Valid V P R val (.ok t)
  | confl {val t cl} : R t → V cl → (∀ q ∈ cl, val q = some false) → TAct.Valid V P R val (.confl t cl)
  | record {val cl k} : V cl → (∀ v, (∀ q, val q = some true → v q = some true) → Coh v → TAct.Valid V P R v (k v)) → TAct.Valid V P R val (.record cl k)

namespace LRA
open Lin
variable {t t' : LRA} {A A' : Nat → Lit → Prop} {Fs : List (List BF)}

/-- The rows have no known term. -/
def K0 (t : LRA) : Prop := ∀ v l, t.row v = some l → l.kt = 0

/-- `q` is the negation of the reason of a current bound. -/
def NegReason (t : LRA) (q : Lit) : Prop := ∃ v, q = (t.loR v).neg ∨ q = (t.hiR v).neg

theorem sat_of_neg {α : Asg} {p : Lit} (h : ¬ α.sat p.neg) : α.sat p := by rwa [Asg.sat_neg, not_not] at h

theorem rowLo_spec {P : Lit → Prop} (hb : BOk t P t.bd) : ∀ (ts : List (Nat × ℚ)) (b : IQ) (L : List Lit), t.rowLo ts = some (b, L) →
    (∀ q ∈ L, NegReason t q) ∧ ∀ α X, Mod t α X → (∀ q ∈ L, ¬ α.sat q) → b ≤ evalT X ts
  | [], b, L, h => by
    unfold rowLo at h
    injection h with h; injection h with h1 h2
    subst h1 h2
    exact ⟨by simp, fun _ _ _ _ => le_refl _⟩
  | (v, c) :: ts, b, L, h => by
    unfold rowLo at h
    split at h
    · cases h
    · next b' L' h' =>
      obtain ⟨ih1, ih2⟩ := rowLo_spec hb ts b' L' h'
      split at h
      · next hc =>
        split at h
        · cases h
        · next a ha =>
          injection h with h; injection h with h1 h2
          subst h1 h2
          refine ⟨fun q hq => ?_, fun α X hm hf => ?_⟩
          · rcases List.mem_cons.mp hq with rfl | hq
            · exact ⟨v, Or.inl rfl⟩
            · exact ih1 q hq
          · have h1 := hb.jlo v α X hm (sat_of_neg (hf _ List.mem_cons_self))
            have h1' : t.lo v ≤ ((X v : IQ) : WithBot IQ) := h1
            have h1' : ((a : IQ) : WithBot IQ) ≤ ((X v : IQ) : WithBot IQ) := le_of_eq_of_le (show ((a : IQ) : WithBot IQ) = t.lo v from ha.symm) h1'
            rw [WithBot.coe_le_coe] at h1'
            have h2 := ih2 α X hm (fun q hq => hf q (List.mem_cons_of_mem _ hq))
            rw [evalT_cons]
            exact add_le_add (IQ.smul_le hc.le h1') h2
      · next hc =>
        split at h
        · next hc' =>
          split at h
          · cases h
          · next a ha =>
            injection h with h; injection h with h1 h2
            subst h1 h2
            refine ⟨fun q hq => ?_, fun α X hm hf => ?_⟩
            · rcases List.mem_cons.mp hq with rfl | hq
              · exact ⟨v, Or.inr rfl⟩
              · exact ih1 q hq
            · have h1' : ((X v : IQ) : WithTop IQ) ≤ t.hi v := hb.jhi v α X hm (sat_of_neg (hf _ List.mem_cons_self))
              have h1' : ((X v : IQ) : WithTop IQ) ≤ ((a : IQ) : WithTop IQ) := le_of_le_of_eq h1' (show t.hi v = ((a : IQ) : WithTop IQ) from ha)
              rw [WithTop.coe_le_coe] at h1'
              have h2 := ih2 α X hm (fun q hq => hf q (List.mem_cons_of_mem _ hq))
              rw [evalT_cons]
              exact add_le_add (IQ.smul_le_neg hc'.le h1') h2
        · next hc' =>
          injection h with h; injection h with h1 h2
          subst h1 h2
          have : c = 0 := le_antisymm (not_lt.mp hc) (not_lt.mp hc')
          subst this
          refine ⟨ih1, fun α X hm hf => ?_⟩
          rw [evalT_cons, zero_smul, zero_add]
          exact ih2 α X hm hf

theorem rowHi_spec {P : Lit → Prop} (hb : BOk t P t.bd) : ∀ (ts : List (Nat × ℚ)) (b : WithTop IQ) (L : List Lit), t.rowHi ts = some (b, L) →
    (∀ q ∈ L, NegReason t q) ∧ ∀ α X, Mod t α X → (∀ q ∈ L, ¬ α.sat q) → ((evalT X ts : IQ) : WithTop IQ) ≤ b
  | [], b, L, h => by
    unfold rowHi at h
    injection h with h; injection h with h1 h2
    subst h1 h2
    exact ⟨by simp, fun _ _ _ _ => le_refl _⟩
  | (v, c) :: ts, b, L, h => by
    unfold rowHi at h
    split at h
    · cases h
    · next b' L' h' =>
      obtain ⟨ih1, ih2⟩ := rowHi_spec hb ts b' L' h'
      split at h
      · next hc =>
        split at h
        · cases h
        · next a ha =>
          injection h with h; injection h with h1 h2
          subst h1 h2
          refine ⟨fun q hq => ?_, fun α X hm hf => ?_⟩
          · rcases List.mem_cons.mp hq with rfl | hq
            · exact ⟨v, Or.inr rfl⟩
            · exact ih1 q hq
          · have h1' : ((X v : IQ) : WithTop IQ) ≤ t.hi v := hb.jhi v α X hm (sat_of_neg (hf _ List.mem_cons_self))
            have h1' : ((X v : IQ) : WithTop IQ) ≤ ((a : IQ) : WithTop IQ) := le_of_le_of_eq h1' (show t.hi v = ((a : IQ) : WithTop IQ) from ha)
            rw [WithTop.coe_le_coe] at h1'
            have h2 := ih2 α X hm (fun q hq => hf q (List.mem_cons_of_mem _ hq))
            rw [evalT_cons, WithTop.coe_add]
            exact add_le_add (WithTop.coe_le_coe.mpr (IQ.smul_le hc.le h1')) h2
      · next hc =>
        split at h
        · next hc' =>
          split at h
          · cases h
          · next a ha =>
            injection h with h; injection h with h1 h2
            subst h1 h2
            refine ⟨fun q hq => ?_, fun α X hm hf => ?_⟩
            · rcases List.mem_cons.mp hq with rfl | hq
              · exact ⟨v, Or.inl rfl⟩
              · exact ih1 q hq
            · have h1' : t.lo v ≤ ((X v : IQ) : WithBot IQ) := hb.jlo v α X hm (sat_of_neg (hf _ List.mem_cons_self))
              have h1' : ((a : IQ) : WithBot IQ) ≤ ((X v : IQ) : WithBot IQ) := le_of_eq_of_le (show ((a : IQ) : WithBot IQ) = t.lo v from ha.symm) h1'
              rw [WithBot.coe_le_coe] at h1'
              have h2 := ih2 α X hm (fun q hq => hf q (List.mem_cons_of_mem _ hq))
              rw [evalT_cons, WithTop.coe_add]
              exact add_le_add (WithTop.coe_le_coe.mpr (IQ.smul_le_neg hc'.le h1')) h2
        · next hc' =>
          injection h with h; injection h with h1 h2
          subst h1 h2
          have : c = 0 := le_antisymm (not_lt.mp hc) (not_lt.mp hc')
          subst this
          refine ⟨ih1, fun α X hm hf => ?_⟩
          rw [evalT_cons, zero_smul, zero_add]
          exact ih2 α X hm hf

theorem rowHiU_spec {P : Lit → Prop} (hb : BOk t P t.bd) (x : Nat) : ∀ (ts : List (Nat × ℚ)) (b : WithTop IQ) (L : List Lit), t.rowHiU x ts = some (b, L) →
    (∀ q ∈ L, NegReason t q) ∧ ∀ α X, Mod t α X → (∀ q ∈ L, ¬ α.sat q) → ((evalT X ts : IQ) : WithTop IQ) ≤ b
  | [], b, L, h => by
    unfold rowHiU at h
    injection h with h; injection h with h1 h2
    subst h1 h2
    exact ⟨by simp, fun _ _ _ _ => le_refl _⟩
  | (v, c) :: ts, b, L, h => by
    unfold rowHiU at h
    split at h
    · cases h
    · next b' L' h' =>
      obtain ⟨ih1, ih2⟩ := rowHiU_spec hb x ts b' L' h'
      split at h
      · next hc =>
        split at h
        · cases h
        · next a ha =>
          injection h with h; injection h with h1 h2
          subst h1 h2
          refine ⟨fun q hq => ?_, fun α X hm hf => ?_⟩
          · rcases List.mem_cons.mp hq with rfl | hq
            · exact ⟨v, Or.inr rfl⟩
            · exact ih1 q hq
          · have h1' : ((X v : IQ) : WithTop IQ) ≤ t.hi v := hb.jhi v α X hm (sat_of_neg (hf _ List.mem_cons_self))
            have h1' : ((X v : IQ) : WithTop IQ) ≤ ((a : IQ) : WithTop IQ) := le_of_le_of_eq h1' (show t.hi v = ((a : IQ) : WithTop IQ) from ha)
            rw [WithTop.coe_le_coe] at h1'
            have h2 := ih2 α X hm (fun q hq => hf q (List.mem_cons_of_mem _ hq))
            rw [evalT_cons, WithTop.coe_add]
            exact add_le_add (WithTop.coe_le_coe.mpr (IQ.smul_le hc.le h1')) h2
      · next hc =>
        split at h
        · next hc' =>
          split at h
          · cases h
          · split at h
            · injection h with h; injection h with h1 h2
              subst h1 h2
              refine ⟨fun q hq => ?_, fun α X hm hf => le_top⟩
              rcases List.mem_cons.mp hq with rfl | hq
              · exact ⟨v, Or.inl rfl⟩
              · exact ih1 q hq
            · next a ha =>
              injection h with h; injection h with h1 h2
              subst h1 h2
              refine ⟨fun q hq => ?_, fun α X hm hf => ?_⟩
              · rcases List.mem_cons.mp hq with rfl | hq
                · exact ⟨v, Or.inl rfl⟩
                · exact ih1 q hq
              · have h1' : t.lo v ≤ ((X v : IQ) : WithBot IQ) := hb.jlo v α X hm (sat_of_neg (hf _ List.mem_cons_self))
                have h1' : ((a : IQ) : WithBot IQ) ≤ ((X v : IQ) : WithBot IQ) := le_of_eq_of_le (show ((a : IQ) : WithBot IQ) = t.lo v from ha.symm) h1'
                rw [WithBot.coe_le_coe] at h1'
                have h2 := ih2 α X hm (fun q hq => hf q (List.mem_cons_of_mem _ hq))
                rw [evalT_cons, WithTop.coe_add]
                exact add_le_add (WithTop.coe_le_coe.mpr (IQ.smul_le_neg hc'.le h1')) h2
        · next hc' =>
          injection h with h; injection h with h1 h2
          subst h1 h2
          have : c = 0 := le_antisymm (not_lt.mp hc) (not_lt.mp hc')
          subst this
          refine ⟨ih1, fun α X hm hf => ?_⟩
          rw [evalT_cons, zero_smul, zero_add]
          exact ih2 α X hm hf

theorem lt_add_eps (v : IQ) : v < v + IQ.eps := lt_add_of_pos_right v IQ.eps_pos
theorem sub_eps_lt (v : IQ) : v - IQ.eps < v := sub_lt_self v IQ.eps_pos

/-- A lower bound decides assertions rightly. -/
theorem decLo_spec {a : Asrt} {b : IQ} {q : Lit} {α : Asg} {X : Nat → IQ} (h : decLo a b = some q) (hm : a.means (α a.b) X) (hb : b ≤ X a.x) : α.sat q := by
  unfold decLo at h
  unfold Asrt.means at hm
  split at h
  · next e =>
    rw [e] at hm
    split at h
    · next hlt =>
      injection h with h; subst h
      show α a.b = false
      cases hs : α a.b with
      | false => rfl
      | true =>
        rw [hs] at hm
        exact absurd (hb.trans hm) (not_le.mpr hlt)
    · cases h
  · next e =>
    have e : a.le = false := by simpa using e
    rw [e] at hm
    split at h
    · next hle =>
      injection h with h; subst h
      show α a.b = true
      cases hs : α a.b with
      | true => rfl
      | false =>
        rw [hs] at hm
        exact absurd (hle.trans (hb.trans hm)) (not_le.mpr (sub_eps_lt a.v))
    · cases h

/-- An upper bound decides assertions rightly. -/
theorem decHi_spec {a : Asrt} {b : WithTop IQ} {q : Lit} {α : Asg} {X : Nat → IQ} (h : decHi a b = some q) (hm : a.means (α a.b) X)
    (hb : ((X a.x : IQ) : WithTop IQ) ≤ b) : α.sat q := by
  unfold decHi at h
  unfold Asrt.means at hm
  split at h
  · next e =>
    rw [e] at hm
    split at h
    · next hle =>
      injection h with h; subst h
      show α a.b = true
      cases hs : α a.b with
      | true => rfl
      | false =>
        rw [hs] at hm
        have := WithTop.coe_le_coe.mp (hb.trans hle)
        exact absurd (hm.trans this) (not_le.mpr (lt_add_eps a.v))
    · cases h
  · next e =>
    have e : a.le = false := by simpa using e
    rw [e] at hm
    split at h
    · next hlt =>
      injection h with h; subst h
      show α a.b = false
      cases hs : α a.b with
      | false => rfl
      | true =>
        rw [hs] at hm
        have := WithTop.coe_lt_coe.mp (hb.trans_lt hlt)
        exact absurd hm (not_le.mpr this)
    · cases h

/-- Valid, when the rows have no known term. -/
def LemmaK (t : LRA) (cl : List Lit) : Prop := K0 t → Lemma t cl

/-- The jobs of the theory: a literal and the negated reasons. -/
def JobOK (t : LRA) (j : Lit × List Lit) : Prop := LemmaK t (j.1 :: j.2) ∧ ∀ q ∈ j.2, NegReason t q

theorem jobs_of_lo {r : Nat} {b : IQ} {L : List Lit} (haw : ∀ a ∈ t.aw r, t.vas a.b = some a ∧ a.x = r) (hL : ∀ q ∈ L, NegReason t q)
    (hX : K0 t → ∀ α X, Mod t α X → (∀ q ∈ L, ¬ α.sat q) → b ≤ X r) :
    ∀ j ∈ (t.aw r).filterMap (fun a => (decLo a b).map (fun q => (q, L))), JobOK t j := by
  intro j hj
  obtain ⟨a, ha, h⟩ := List.mem_filterMap.mp hj
  obtain ⟨q, hq, rfl⟩ := Option.map_eq_some_iff.mp h
  refine ⟨fun hk α X hm => ?_, hL⟩
  by_contra hcl
  simp only [Asg.clause, not_exists, not_and] at hcl
  have h1 := hX hk α X hm (fun q' hq' => hcl q' (List.mem_cons_of_mem _ hq'))
  obtain ⟨hv, hx⟩ := haw a ha
  exact hcl q List.mem_cons_self (decLo_spec hq (hm.asrt _ _ hv) (by rw [hx]; exact h1))

theorem jobs_of_hi {r : Nat} {b : WithTop IQ} {L : List Lit} (haw : ∀ a ∈ t.aw r, t.vas a.b = some a ∧ a.x = r) (hL : ∀ q ∈ L, NegReason t q)
    (hX : K0 t → ∀ α X, Mod t α X → (∀ q ∈ L, ¬ α.sat q) → ((X r : IQ) : WithTop IQ) ≤ b) :
    ∀ j ∈ (t.aw r).filterMap (fun a => (decHi a b).map (fun q => (q, L))), JobOK t j := by
  intro j hj
  obtain ⟨a, ha, h⟩ := List.mem_filterMap.mp hj
  obtain ⟨q, hq, rfl⟩ := Option.map_eq_some_iff.mp h
  refine ⟨fun hk α X hm => ?_, hL⟩
  by_contra hcl
  simp only [Asg.clause, not_exists, not_and] at hcl
  have h1 := hX hk α X hm (fun q' hq' => hcl q' (List.mem_cons_of_mem _ hq'))
  obtain ⟨hv, hx⟩ := haw a ha
  exact hcl q List.mem_cons_self (decHi_spec hq (hm.asrt _ _ hv) (by rw [hx]; exact h1))

theorem row_eval (h : Good t A Fs) (hk : K0 t) {r : Nat} {l : Lin} (hl : t.row r = some l) {α : Asg} {X : Nat → IQ} (hm : Mod t α X) : X r = evalT X l.vars := by
  have := (h.tab.equiv X).mpr hm.defs r l hl
  rw [this]
  unfold Lin.eval
  rw [hk r l hl, zero_smul, add_zero]

theorem rowJobsLb_valid (h : Good t A Fs) {x r : Nat} {J : List (Lit × List Lit)} (hJ : t.rowJobsLb x r = .ok J) : ∀ j ∈ J, JobOK t j := by
  unfold rowJobsLb at hJ
  split at hJ
  · cases hJ
  · next l hl =>
    split at hJ
    · cases hJ
    · split at hJ
      · split at hJ
        · cases hJ; exact fun _ h => by cases h
        · next b L hL =>
          injection hJ with hJ; subst hJ
          obtain ⟨a1, a2⟩ := rowLo_spec h.bok l.vars b L hL
          unfold jobsLo
          split
          · exact jobs_of_lo (h.tab.aw r) a1 (fun hk α X hm hf => by rw [row_eval h hk hl hm]; exact a2 α X hm hf)
          · exact fun _ h => by cases h
      · split at hJ
        · cases hJ; exact fun _ h => by cases h
        · next b L hL =>
          injection hJ with hJ; subst hJ
          obtain ⟨a1, a2⟩ := rowHi_spec h.bok l.vars b L hL
          unfold jobsHi
          split
          · exact jobs_of_hi (h.tab.aw r) a1 (fun hk α X hm hf => by rw [row_eval h hk hl hm]; exact a2 α X hm hf)
          · exact fun _ h => by cases h

theorem rowJobsUb_valid (h : Good t A Fs) {x r : Nat} {J : List (Lit × List Lit)} (hJ : t.rowJobsUb x r = .ok J) : ∀ j ∈ J, JobOK t j := by
  unfold rowJobsUb at hJ
  split at hJ
  · cases hJ
  · next l hl =>
    split at hJ
    · cases hJ
    · split at hJ
      · split at hJ
        · cases hJ; exact fun _ h => by cases h
        · next b L hL =>
          injection hJ with hJ; subst hJ
          obtain ⟨a1, a2⟩ := rowHiU_spec h.bok x l.vars b L hL
          unfold jobsHi
          split
          · exact jobs_of_hi (h.tab.aw r) a1 (fun hk α X hm hf => by rw [row_eval h hk hl hm]; exact a2 α X hm hf)
          · exact fun _ h => by cases h
      · split at hJ
        · cases hJ; exact fun _ h => by cases h
        · next b L hL =>
          injection hJ with hJ; subst hJ
          obtain ⟨a1, a2⟩ := rowLo_spec h.bok l.vars b L hL
          unfold jobsLo
          split
          · exact jobs_of_lo (h.tab.aw r) a1 (fun hk α X hm hf => by rw [row_eval h hk hl hm]; exact a2 α X hm hf)
          · exact fun _ h => by cases h

theorem unateLo_valid (h : Good t A Fs) {x : Nat} {v : IQ} (hx : t.lo x = (v : WithBot IQ)) :
    ∀ j ∈ (t.aw x).filterMap (fun a => (decLo a v).map (fun q => (q, [(t.loR x).neg]))), JobOK t j := by
  refine jobs_of_lo (h.tab.aw x) (fun q hq => ⟨x, Or.inl (List.mem_singleton.mp hq)⟩) (fun _ α X hm hf => ?_)
  have h1 : t.lo x ≤ ((X x : IQ) : WithBot IQ) := h.bok.jlo x α X hm (sat_of_neg (hf _ List.mem_cons_self))
  rw [hx] at h1
  exact WithBot.coe_le_coe.mp h1

theorem unateHi_valid (h : Good t A Fs) {x : Nat} {v : IQ} (hx : t.hi x = (v : WithTop IQ)) :
    ∀ j ∈ (t.aw x).filterMap (fun a => (decHi a (v : WithTop IQ)).map (fun q => (q, [(t.hiR x).neg]))), JobOK t j := by
  refine jobs_of_hi (h.tab.aw x) (fun q hq => ⟨x, Or.inr (List.mem_singleton.mp hq)⟩) (fun _ α X hm hf => ?_)
  have h1 : ((X x : IQ) : WithTop IQ) ≤ t.hi x := h.bok.jhi x α X hm (sat_of_neg (hf _ List.mem_cons_self))
  rw [hx] at h1
  exact h1

/-- The reasons of the bounds are true. -/
theorem Good.neg_false (h : Good t A Fs) {val : Lit → Option Bool} (hc : Coh val) (hA : ∀ q, A t.layers.length q → val q = some true) {q : Lit} (hq : NegReason t q) :
    val q = some false := by
  obtain ⟨v, rfl | rfl⟩ := hq
  · rw [hc, hA (t.loR v) (h.bok.rlo v)]; rfl
  · rw [hc, hA (t.hiR v) (h.bok.rhi v)]; rfl

/-- Recording of the implied literals. -/
theorem emit_valid (h : Good t A Fs) {V : List Lit → Prop} {P R : LRA → Prop} (hP : P t) (hR : R t) : ∀ (js : List (Lit × List Lit)) (val : Lit → Option Bool),
    (∀ j ∈ js, V (j.1 :: j.2) ∧ ∀ q ∈ j.2, NegReason t q) → Coh val → (∀ q, A t.layers.length q → val q = some true) → (emit t js val).Valid V P R val
  | [], _, _, _, _ => .ok hP
  | (q, L) :: js, val, hj, hc, hA => by
    obtain ⟨h1, h2⟩ := hj _ List.mem_cons_self
    have ih := fun v hv1 hv2 => emit_valid (V := V) h hP hR js v (fun j hj' => hj j (List.mem_cons_of_mem _ hj')) hv1 hv2
    unfold emit
    split
    · next hq =>
      refine .confl hR h1 (fun q' hq' => ?_)
      rcases List.mem_cons.mp hq' with rfl | hq'
      · exact hq
      · exact h.neg_false hc hA (h2 q' hq')
    · exact .record h1 (fun v hv hcv => ih v hcv (fun q hq => hv q (hA q hq)))
    · exact ih val hc hA

/-- An asserted bound may be forgotten. -/
theorem Good.forget {f : BF} {F : List BF} (h : Good t A ((f :: F) :: Fs)) : Good t A (F :: Fs) := by
  refine ⟨h.tab, h.inb, ?_⟩
  have hl := h.lev
  generalize t.layers = Ls at hl
  cases hl with
  | base a b => exact .base a (fun f hf => b f (List.mem_cons_of_mem _ hf))
  | level a b c d e => exact .level a (fun f hf => b f (List.mem_cons_of_mem _ hf)) c d e

theorem Good.enforced_add {f : BF} {F : List BF} (h : Good t A (F :: Fs)) (hf : f.ok t.bd) : Good t A ((f :: F) :: Fs) := by
  refine ⟨h.tab, h.inb, ?_⟩
  have hl := h.lev
  generalize t.layers = Ls at hl
  cases hl with
  | base a b => exact .base a (fun f' hf' => by rcases List.mem_cons.mp hf' with rfl | hf' <;> [exact hf; exact b _ hf'])
  | level a b c d e => exact .level a (fun f' hf' => by rcases List.mem_cons.mp hf' with rfl | hf' <;> [exact hf; exact b _ hf']) c d e

/-- `assert_lower`. -/
theorem assertLower_valid (E : LEnv) {F : List BF} (h : Good t A (F :: Fs)) {val : Lit → Option Bool} {x : Nat} {v : IQ} {p : Lit} (hx : x < t.n)
    (hc : Coh val) (hA : ∀ q, A t.layers.length q → val q = some true) (hp : A t.layers.length p) (hj : ∀ α X, Mod t α X → α.sat p → v ≤ X x) :
    (t.assertLower E val x v p).Valid (LemmaK t) (fun t' => Good t' A ((.lo x v :: F) :: Fs) ∧ Same t t') (fun t' => Good t' A (F :: Fs) ∧ Same t t') val := by
  have hval : val p ≠ none := by rw [hA p hp]; simp
  rcases assertLower_cases E h hx hp hval hj with ⟨e, h1⟩ | ⟨e, h1⟩ | ⟨t', J, hg, hs, h1, h2, hJ, e⟩
  · rw [e]; exact .ok ⟨h.enforced_add h1, Same.refl t⟩
  · rw [e]
    refine .confl ⟨h, Same.refl t⟩ (fun _ α X hm => ?_) (fun q hq => ?_)
    · by_contra hcl
      simp only [Asg.clause, not_exists, not_and] at hcl
      have a1 := hj α X hm (sat_of_neg (hcl _ List.mem_cons_self))
      have a2 : ((X x : IQ) : WithTop IQ) ≤ t.hi x := h.bok.jhi x α X hm (sat_of_neg (hcl (t.hiR x).neg (by simp)))
      have := a2.trans_lt h1
      rw [WithTop.coe_lt_coe] at this
      exact absurd a1 (not_le.mpr this)
    · simp only [List.mem_cons, List.not_mem_nil, or_false] at hq
      rcases hq with rfl | rfl
      · rw [hc, hA p hp]; rfl
      · exact h.neg_false hc hA ⟨x, Or.inr rfl⟩
  · rw [e]
    obtain ⟨J', hJ1, hJ2⟩ := rowsJobs_ok (f := t'.rowJobsLb x) (E.ord (t'.tw x)) (fun r hr => rowJobsLb_ok hg.tab.wat ((E.perm _).mem_iff.mp hr))
    rw [hJ] at hJ1
    injection hJ1 with hJ1
    subst hJ1
    have hlm : ∀ cl, LemmaK t' cl → LemmaK t cl := fun cl h' hk α X hm => h' (fun w l hl => hk w l (by rw [← hs.row]; exact hl)) α X ((hs.mod α X).mpr hm)
    refine emit_valid hg ⟨hg, hs⟩ ⟨hg.forget, hs⟩ _ val (fun j hj' => ?_) hc (fun q hq => hA q (by rw [← hs.lay]; exact hq))
    rcases List.mem_append.mp hj' with hj' | hj'
    · have := unateLo_valid hg h1 j hj'
      exact ⟨hlm _ this.1, this.2⟩
    · obtain ⟨r, hr, K, hK1, hK2⟩ := hJ2 j hj'
      have := rowJobsLb_valid hg hK1 j hK2
      exact ⟨hlm _ this.1, this.2⟩

/-- `assert_upper`. -/
theorem assertUpper_valid (E : LEnv) {F : List BF} (h : Good t A (F :: Fs)) {val : Lit → Option Bool} {x : Nat} {v : IQ} {p : Lit} (hx : x < t.n)
    (hc : Coh val) (hA : ∀ q, A t.layers.length q → val q = some true) (hp : A t.layers.length p) (hj : ∀ α X, Mod t α X → α.sat p → X x ≤ v) :
    (t.assertUpper E val x v p).Valid (LemmaK t) (fun t' => Good t' A ((.hi x v :: F) :: Fs) ∧ Same t t') (fun t' => Good t' A (F :: Fs) ∧ Same t t') val := by
  have hval : val p ≠ none := by rw [hA p hp]; simp
  rcases assertUpper_cases E h hx hp hval hj with ⟨e, h1⟩ | ⟨e, h1⟩ | ⟨t', J, hg, hs, h1, h2, hJ, e⟩
  · rw [e]; exact .ok ⟨h.enforced_add h1, Same.refl t⟩
  · rw [e]
    refine .confl ⟨h, Same.refl t⟩ (fun _ α X hm => ?_) (fun q hq => ?_)
    · by_contra hcl
      simp only [Asg.clause, not_exists, not_and] at hcl
      have a1 := hj α X hm (sat_of_neg (hcl _ List.mem_cons_self))
      have a2 : t.lo x ≤ ((X x : IQ) : WithBot IQ) := h.bok.jlo x α X hm (sat_of_neg (hcl (t.loR x).neg (by simp)))
      have := h1.trans_le a2
      rw [WithBot.coe_lt_coe] at this
      exact absurd a1 (not_le.mpr this)
    · simp only [List.mem_cons, List.not_mem_nil, or_false] at hq
      rcases hq with rfl | rfl
      · rw [hc, hA p hp]; rfl
      · exact h.neg_false hc hA ⟨x, Or.inl rfl⟩
  · rw [e]
    obtain ⟨J', hJ1, hJ2⟩ := rowsJobs_ok (f := t'.rowJobsUb x) (E.ord (t'.tw x)) (fun r hr => rowJobsUb_ok hg.tab.wat ((E.perm _).mem_iff.mp hr))
    rw [hJ] at hJ1
    injection hJ1 with hJ1
    subst hJ1
    have hlm : ∀ cl, LemmaK t' cl → LemmaK t cl := fun cl h' hk α X hm => h' (fun w l hl => hk w l (by rw [← hs.row]; exact hl)) α X ((hs.mod α X).mpr hm)
    refine emit_valid hg ⟨hg, hs⟩ ⟨hg.forget, hs⟩ _ val (fun j hj' => ?_) hc (fun q hq => hA q (by rw [← hs.lay]; exact hq))
    rcases List.mem_append.mp hj' with hj' | hj'
    · have := unateHi_valid hg h1 j hj'
      exact ⟨hlm _ this.1, this.2⟩
    · obtain ⟨r, hr, K, hK1, hK2⟩ := hJ2 j hj'
      have := rowJobsUb_valid hg hK1 j hK2
      exact ⟨hlm _ this.1, this.2⟩

/-- `propagate`: the literal of a registered assertion, or its negation, has become true. -/
theorem propagate_valid (E : LEnv) {F : List BF} (h : Good t A (F :: Fs)) {val : Lit → Option Bool} {p : Lit} {a : Asrt} (ha : t.vas p.var = some a)
    (hc : Coh val) (hA : ∀ q, A t.layers.length q → val q = some true) (hp : A t.layers.length p) :
    (t.propagate E val p).Valid (LemmaK t) (fun t' => Good t' A ((a.bf p.sign :: F) :: Fs) ∧ Same t t') (fun t' => Good t' A (F :: Fs) ∧ Same t t') val := by
  obtain ⟨hb, hx⟩ := h.tab.regs _ _ ha
  have hmean : ∀ (α : Asg) X, Mod t α X → α.sat p → a.means p.sign X := fun α X hm hs => by
    have := hm.asrt _ _ ha
    have hs : α p.var = p.sign := hs
    rwa [hs] at this
  have hv := hA p hp
  unfold propagate
  rw [ha]
  simp only
  obtain ⟨pv, ps⟩ := p
  simp only at hb hmean
  subst hb
  cases ps with
  | true =>
    rw [hv]
    simp only
    cases hle : a.le with
    | true =>
      simp only [Asrt.bf, hle, if_true]
      exact assertUpper_valid E h hx hc hA hp (fun α X hm hs => by have := hmean α X hm hs; simpa only [Asrt.means, hle] using this)
    | false =>
      simp only [Asrt.bf, hle, Bool.false_eq_true, if_false]
      exact assertLower_valid E h hx hc hA hp (fun α X hm hs => by have := hmean α X hm hs; simpa only [Asrt.means, hle] using this)
  | false =>
    have hv' : val ⟨a.b, true⟩ = some false := by
      have := hc ⟨a.b, false⟩
      rw [hv] at this
      exact this
    rw [hv']
    simp only
    cases hle : a.le with
    | true =>
      simp only [Asrt.bf, hle, if_true]
      exact assertLower_valid E h hx hc hA hp (fun α X hm hs => by have := hmean α X hm hs; simpa only [Asrt.means, hle] using this)
    | false =>
      simp only [Asrt.bf, hle, Bool.false_eq_true, if_false]
      exact assertUpper_valid E h hx hc hA hp (fun α X hm hs => by have := hmean α X hm hs; simpa only [Asrt.means, hle] using this)

/-- A bound imposed from outside is remembered; nothing else changes. -/
theorem Good.fact {f : Fact} (h : Good t A Fs) : Good { t with facts := f :: t.facts } A Fs := by
  refine ⟨⟨h.tab.shape, h.tab.wat, h.tab.rows, h.tab.equiv, h.tab.regs, h.tab.aw⟩, h.inb, ?_⟩
  refine Lev.congr (t := t) (A := A) (A' := A) h.lev (fun α X hm => ?_) (Nat.le_refl _) (fun _ _ _ h => h)
  exact ⟨hm.zero, hm.asrt, hm.defs, fun g hg => hm.fact g (List.mem_cons_of_mem _ hg)⟩

theorem listen_eq {t' : LRA} {v l : Nat} (h : t.listen v l = .ok t') : ∃ f, t' = { t with lst := f } := by
  unfold listen at h
  split at h
  · cases h
  · injection h with h
    subst h
    split
    · exact ⟨_, rfl⟩
    · exact ⟨t.lst, rfl⟩

theorem Good.lst {f : Nat → List Nat} (h : Good t A Fs) : Good { t with lst := f } A Fs := by
  refine ⟨⟨h.tab.shape, h.tab.wat, h.tab.rows, h.tab.equiv, h.tab.regs, h.tab.aw⟩, h.inb, ?_⟩
  refine Lev.congr (t := t) (A := A) (A' := A) h.lev (fun α X hm => ?_) (Nat.le_refl _) (fun _ _ _ h => h)
  exact ⟨hm.zero, hm.asrt, hm.defs, hm.fact⟩

/-- `set_lb`. -/
theorem setLb_valid (E : LEnv) {F : List BF} (h : Good t A (F :: Fs)) {val : Lit → Option Bool} {x : Nat} {v : IQ} {p : Lit} (hx : x < t.n)
    (hc : Coh val) (hA : ∀ q, A t.layers.length q → val q = some true) (hp : A t.layers.length p) :
    (t.setLb E val x v p).Valid (LemmaK { t with facts := .lo p x v :: t.facts }) (fun t' => Good t' A ((.lo x v :: F) :: Fs) ∧ Same { t with facts := .lo p x v :: t.facts } t')
      (fun t' => Good t' A (F :: Fs) ∧ Same { t with facts := .lo p x v :: t.facts } t') val :=
  assertLower_valid E (h.fact (f := .lo p x v)) hx hc hA hp (fun _ _ hm hs => WithBot.coe_le_coe.mp (hm.fact (.lo p x v) List.mem_cons_self hs))

/-- `set_ub`. -/
theorem setUb_valid (E : LEnv) {F : List BF} (h : Good t A (F :: Fs)) {val : Lit → Option Bool} {x : Nat} {v : IQ} {p : Lit} (hx : x < t.n)
    (hc : Coh val) (hA : ∀ q, A t.layers.length q → val q = some true) (hp : A t.layers.length p) :
    (t.setUb E val x v p).Valid (LemmaK { t with facts := .hi p x v :: t.facts }) (fun t' => Good t' A ((.hi x v :: F) :: Fs) ∧ Same { t with facts := .hi p x v :: t.facts } t')
      (fun t' => Good t' A (F :: Fs) ∧ Same { t with facts := .hi p x v :: t.facts } t') val :=
  assertUpper_valid E (h.fact (f := .hi p x v)) hx hc hA hp (fun _ _ hm hs => WithTop.coe_le_coe.mp (hm.fact (.hi p x v) List.mem_cons_self hs))

end LRA
end Semitone
