import Verif.LRA.Witness

/-!
# C47: the copy constructor of the linear-arithmetic theory

`copyOf` (`LRA/Model.lean`) models `lra_theory(sat, orig)`. The copy is compared with the original on every later sequence of calls.
-/
namespace Semitone

/-- A theory call executed by a core that does nothing but record clauses (`sat_core::record` makes the first literal true): the resulting state, whether
the theory answered "consistent", and the literals made true, newest first. -/
def TAct.exec {T : Type} : TAct T → (Lit → Option Bool) → List Lit → Except Err (T × Bool × List Lit)
  | .ok t, _, acc => .ok (t, true, acc)
  | .confl t _, _, acc => .ok (t, false, acc)
  | .fail e, _, _ => .error e
  | .record [] _, _, _ => .error .ub
  | .record (q :: _) k, val, acc =>
    exec (k (fun p => if p = q then some true else if p = q.neg then some false else val p))
      (fun p => if p = q then some true else if p = q.neg then some false else val p) (q :: acc)

namespace LRA
open Lin

/-- A later call on a theory. -/
inductive LOp where
  | newVar
  | newVarL (root : Bool) (l : Lin)
  | assertion (a : Asrt)
  | lit (val : Lit → Option Bool) (p : Lit)
  | setLb (val : Lit → Option Bool) (x : Nat) (v : IQ) (p : Lit)
  | setUb (val : Lit → Option Bool) (x : Nat) (v : IQ) (p : Lit)
  | check
  | push
  | pop

/-- What a call does and answers. -/
def LOp.exec (E : LEnv) (t : LRA) : LOp → Except Err (LRA × Bool × List Lit)
  | .newVar => .ok (t.newVar.1, true, [])
  | .newVarL root l => (t.newVarL root l).map (fun r => (r.1, true, []))
  | .assertion a => .ok (t.addAsrt a, true, [])
  | .lit val p => (t.propagate E val p).exec val []
  | .setLb val x v p => (t.setLb E val x v p).exec val []
  | .setUb val x v p => (t.setUb E val x v p).exec val []
  | .check => (t.check E).map (fun r => (r.1, r.2.isNone, []))
  | .push => .ok (t.push, true, [])
  | .pop => t.pop.map (fun t => (t, true, []))

/-- A sequence of calls, with the answers. -/
def runL (E : LEnv) : List LOp → LRA → Except Err (LRA × List (Bool × List Lit))
  | [], t => .ok (t, [])
  | o :: os, t =>
    match o.exec E t with
    | .error e => .error e
    | .ok (t, b) => (runL E os t).map (fun r => (r.1, b :: r.2))

/-- Two answers are the same: both "inconsistent", or both "consistent" with the same literals made true. -/
def SameAns (a b : Bool × List Lit) : Prop := a.1 = b.1 ∧ (a.1 = true → ∀ q, q ∈ a.2 ↔ q ∈ b.2)

/-- Two runs are the same: both fail in the same way, or the answers are the same and so are bounds, reasons, values and the calls of the value listeners at the end. -/
def SameRun : Except Err (LRA × List (Bool × List Lit)) → Except Err (LRA × List (Bool × List Lit)) → Prop
  | .error e, .error e' => e = e'
  | .ok r, .ok r' => List.Forall₂ SameAns r.2 r'.2 ∧ r.1.n = r'.1.n ∧ r.1.lo = r'.1.lo ∧ r.1.hi = r'.1.hi ∧ r.1.loR = r'.1.loR ∧ r.1.hiR = r'.1.hiR ∧ r.1.vals = r'.1.vals ∧ r.1.told = r'.1.told
  | _, _ => False

/-! ### Only the order of the assertions differs -/

/-- The same state with other lists of assertions. -/
def withAw (t : LRA) (w : Nat → List Asrt) : LRA := { t with aw := w }

variable {E : LEnv} {t t' : LRA} {w : Nat → List Asrt}

theorem aw_row : (t.withAw w).row = t.row := rfl
theorem aw_tw : (t.withAw w).tw = t.tw := rfl
theorem aw_vals : (t.withAw w).vals = t.vals := rfl
theorem aw_told : (t.withAw w).told = t.told := rfl
theorem aw_tell (x : Nat) (a : IQ) (T : List (Nat × Nat × IQ)) : (t.withAw w).tell x a T = t.tell x a T := rfl
theorem aw_basic (x : Nat) : (t.withAw w).basic x = t.basic x := rfl

theorem updRows_aw (x : Nat) (v : IQ) : ∀ (rs : List Nat) (vals : (Nat → IQ) × List (Nat × Nat × IQ)), updRows (t.withAw w) x v rs vals = updRows t x v rs vals
  | [], _ => rfl
  | r :: rs, vals => by
    unfold updRows
    rw [aw_row]
    cases (t.row r).bind (fun l => l.coef x) with
    | none => rfl
    | some c => exact updRows_aw x v rs _

theorem shiftRows_aw (xi xj : Nat) (θ : IQ) : ∀ (rs : List Nat) (vals : (Nat → IQ) × List (Nat × Nat × IQ)), shiftRows (t.withAw w) xi xj θ rs vals = shiftRows t xi xj θ rs vals
  | [], _ => rfl
  | r :: rs, vals => by
    unfold shiftRows
    rw [aw_row]
    split
    · exact shiftRows_aw xi xj θ rs _
    · cases (t.row r).bind (fun l => l.coef xj) with
      | none => rfl
      | some c => exact shiftRows_aw xi xj θ rs _

theorem update_aw (x : Nat) (v : IQ) : (t.withAw w).update E x v = (t.update E x v).map (·.withAw w) := by
  unfold update
  rw [updRows_aw, aw_basic, aw_tw, aw_vals, aw_told]
  split
  · rfl
  · cases updRows t x v (E.ord (t.tw x)) (t.vals, t.told) <;> rfl

theorem pivot_aw (xi xj : Nat) : (t.withAw w).pivot E xi xj = (t.pivot E xi xj).map (·.withAw w) := by
  unfold pivot
  rw [aw_row, aw_tw]
  cases t.row xi with
  | none => rfl
  | some l =>
    simp only
    cases solveFor l xi xj with
    | error e => rfl
    | ok e =>
      simp only
      generalize substRows xj e _ _ = R
      cases R with
      | error e => rfl
      | ok r => rfl

theorem pivotAndUpdate_aw (xi xj : Nat) (v : IQ) : (t.withAw w).pivotAndUpdate E xi xj v = (t.pivotAndUpdate E xi xj v).map (·.withAw w) := by
  unfold pivotAndUpdate
  rw [aw_row]
  cases (t.row xi).bind (fun l => l.coef xj) with
  | none => rfl
  | some a =>
    simp only [aw_basic, shiftRows_aw, aw_vals, aw_tw, aw_told, aw_tell]
    split
    · rfl
    · generalize shiftRows t xi xj _ _ _ = R
      cases R with
      | error e => rfl
      | ok vals => exact pivot_aw (t := { t with vals := vals.1, told := vals.2 }) xi xj

theorem aw_flaw : (t.withAw w).findFlaw = t.findFlaw := rfl
theorem aw_under (x : Nat) : (t.withAw w).under x = t.under x := rfl
theorem aw_lo : (t.withAw w).lo = t.lo := rfl
theorem aw_hi : (t.withAw w).hi = t.hi := rfl
theorem aw_loR : (t.withAw w).loR = t.loR := rfl
theorem aw_hiR : (t.withAw w).hiR = t.hiR := rfl
theorem aw_n : (t.withAw w).n = t.n := rfl
theorem aw_find (up : Bool) (l : Lin) : (t.withAw w).findPivot up l = t.findPivot up l := rfl

/-- The same iteration with other lists of assertions. -/
def CheckStep.withAw (w : Nat → List Asrt) : CheckStep → CheckStep
  | .next t => .next (t.withAw w)
  | c => c

theorem checkStep_aw : (t.withAw w).checkStep E = (t.checkStep E).withAw w := by
  unfold checkStep
  rw [aw_flaw, aw_row]
  cases t.findFlaw with
  | none => rfl
  | some xi =>
    simp only
    cases t.row xi with
    | none => rfl
    | some l =>
      simp only [pivotAndUpdate_aw, aw_under, aw_lo, aw_hi, aw_find]
      split
      · generalize t.lo xi = b
        cases b with
        | bot => rfl
        | coe b =>
          simp only
          cases t.findPivot true l with
          | none => rfl
          | some xj =>
            simp only
            cases t.pivotAndUpdate E xi xj.1 b <;> rfl
      · generalize t.hi xi = b
        cases b with
        | top => rfl
        | coe b =>
          simp only
          cases t.findPivot false l with
          | none => rfl
          | some xj =>
            simp only
            cases t.pivotAndUpdate E xi xj.1 b <;> rfl

theorem checkLoop_aw : ∀ (f : Nat) (t : LRA), checkLoop E f (t.withAw w) = (checkLoop E f t).map (fun r => (r.1.withAw w, r.2))
  | 0, _ => rfl
  | f + 1, t => by
    unfold checkLoop
    rw [checkStep_aw]
    cases t.checkStep E with
    | done => rfl
    | confl cl => rfl
    | fail e => rfl
    | next t1 => exact checkLoop_aw f t1

theorem check_aw : (t.withAw w).check E = (t.check E).map (fun r => (r.1.withAw w, r.2)) := checkLoop_aw _ t

/-! ### The literals made true do not depend on the order -/

/-- Jobs that end without a conflict. -/
def Calm (js : List (Lit × List Lit)) (val : Lit → Option Bool) : Prop :=
  (∀ j ∈ js, val j.1 ≠ some false) ∧ ∀ j ∈ js, ∀ k ∈ js, val j.1 = none → k.1 ≠ j.1.neg

theorem neg_ne (q : Lit) : q.neg ≠ q := fun h => by
  have := congrArg Lit.sign h
  rw [Lit.neg_sign] at this
  cases hq : q.sign <;> rw [hq] at this <;> cases this

theorem coh_enq {val : Lit → Option Bool} (hc : Coh val) (q : Lit) : Coh (fun p => if p = q then some true else if p = q.neg then some false else val p) := by
  intro p
  show (if p.neg = q then some true else if p.neg = q.neg then some false else val p.neg) = _
  by_cases h1 : p = q
  · subst h1
    simp [neg_ne p]
  · by_cases h2 : p = q.neg
    · subst h2
      simp [Lit.neg_neg, neg_ne]
    · have h3 : p.neg ≠ q := fun h => h2 (by rw [← h, Lit.neg_neg])
      have h4 : p.neg ≠ q.neg := fun h => h1 (by rw [← Lit.neg_neg p, h, Lit.neg_neg])
      simp only [h1, h2, h3, h4, if_false]
      exact hc p

theorem emit_exec : ∀ (js : List (Lit × List Lit)) (val : Lit → Option Bool) (acc : List Lit), Coh val →
    ∃ b acc', (emit t js val).exec val acc = .ok (t, b, acc') ∧ (b = true ↔ Calm js val) ∧
      (b = true → ∀ q, q ∈ acc' ↔ q ∈ acc ∨ ((∃ j ∈ js, j.1 = q) ∧ val q = none))
  | [], val, acc, _ => ⟨true, acc, rfl, by simp [Calm], fun _ q => by simp⟩
  | (q, L) :: js, val, acc, hc => by
    unfold emit
    cases hq : val q with
    | none =>
      simp only [TAct.exec]
      obtain ⟨b, acc', e, h1, h2⟩ := emit_exec js _ (q :: acc) (coh_enq hc q)
      refine ⟨b, acc', e, ?_, ?_⟩
      · rw [h1]
        constructor
        · rintro ⟨a1, a2⟩
          have hne : ∀ j ∈ js, j.1 ≠ q.neg := fun j hj e => by
            have := a1 j hj
            rw [e] at this
            simp [neg_ne] at this
          refine ⟨fun j hj => ?_, fun j hj k hk hn => ?_⟩
          · rcases List.mem_cons.mp hj with rfl | hj
            · rw [hq]; simp
            · have := a1 j hj
              by_cases e1 : j.1 = q
              · rw [e1, hq]; simp
              · simpa [e1, hne j hj] using this
          · rcases List.mem_cons.mp hj with rfl | hj
            · rcases List.mem_cons.mp hk with rfl | hk
              · exact (neg_ne q).symm
              · exact hne k hk
            · by_cases e1 : j.1 = q
              · rw [e1]
                rcases List.mem_cons.mp hk with rfl | hk
                · exact (neg_ne q).symm
                · exact hne k hk
              · rcases List.mem_cons.mp hk with rfl | hk
                · intro e2
                  exact hne j hj (by rw [show q = j.1.neg from e2, Lit.neg_neg])
                · exact a2 j hj k hk (by simpa [e1, hne j hj] using hn)
        · rintro ⟨a1, a2⟩
          have hne : ∀ j ∈ js, j.1 ≠ q.neg := fun j hj => a2 (q, L) List.mem_cons_self j (List.mem_cons_of_mem _ hj) hq
          refine ⟨fun j hj => ?_, fun j hj k hk hn => ?_⟩
          · have := a1 j (List.mem_cons_of_mem _ hj)
            by_cases e1 : j.1 = q
            · simp [e1]
            · simpa [e1, hne j hj] using this
          · by_cases e1 : j.1 = q
            · simp [e1] at hn
            · exact a2 j (List.mem_cons_of_mem _ hj) k (List.mem_cons_of_mem _ hk) (by simpa [e1, hne j hj] using hn)
      · intro hb p
        rw [h2 hb p]
        have hcalm := (h1.mp hb).1
        constructor
        · rintro (h | ⟨⟨j, hj, rfl⟩, hv⟩)
          · rcases List.mem_cons.mp h with rfl | h
            · exact Or.inr ⟨⟨_, List.mem_cons_self, rfl⟩, hq⟩
            · exact Or.inl h
          · refine Or.inr ⟨⟨j, List.mem_cons_of_mem _ hj, rfl⟩, ?_⟩
            by_cases e1 : j.1 = q
            · rw [e1, hq]
            · by_cases e2 : j.1 = q.neg
              · simp [e2, neg_ne] at hv
              · simpa [e1, e2] using hv
        · rintro (h | ⟨⟨j, hj, rfl⟩, hv⟩)
          · exact Or.inl (List.mem_cons_of_mem _ h)
          · by_cases e1 : j.1 = q
            · exact Or.inl (by rw [e1]; exact List.mem_cons_self)
            · rcases List.mem_cons.mp hj with rfl | hj
              · exact absurd rfl e1
              · have e2 : j.1 ≠ q.neg := fun e2 => by
                  have := hcalm j hj
                  rw [e2] at this
                  simp [neg_ne] at this
                exact Or.inr ⟨⟨j, hj, rfl⟩, by simpa [e1, e2] using hv⟩
    | some b0 =>
      cases b0 with
      | false =>
        refine ⟨false, acc, rfl, ?_, fun h => by cases h⟩
        constructor
        · intro h; cases h
        · rintro ⟨a1, _⟩
          exact absurd hq (a1 (q, L) List.mem_cons_self)
      | true =>
        simp only
        obtain ⟨b, acc', e, h1, h2⟩ := emit_exec js val acc hc
        refine ⟨b, acc', e, ?_, ?_⟩
        · rw [h1]
          constructor
          · rintro ⟨a1, a2⟩
            refine ⟨fun j hj => ?_, fun j hj k hk hn => ?_⟩
            · rcases List.mem_cons.mp hj with rfl | hj
              · rw [hq]; simp
              · exact a1 j hj
            · rcases List.mem_cons.mp hj with rfl | hj
              · rw [hq] at hn; cases hn
              · rcases List.mem_cons.mp hk with rfl | hk
                · intro e2
                  have := hc j.1
                  rw [hn, ← show q = j.1.neg from e2, hq] at this
                  cases this
                · exact a2 j hj k hk hn
          · rintro ⟨a1, a2⟩
            exact ⟨fun j hj => a1 j (List.mem_cons_of_mem _ hj), fun j hj k hk => a2 j (List.mem_cons_of_mem _ hj) k (List.mem_cons_of_mem _ hk)⟩
        · intro hb p
          rw [h2 hb p]
          constructor
          · rintro (h | ⟨⟨j, hj, rfl⟩, hv⟩)
            · exact Or.inl h
            · exact Or.inr ⟨⟨j, List.mem_cons_of_mem _ hj, rfl⟩, hv⟩
          · rintro (h | ⟨⟨j, hj, rfl⟩, hv⟩)
            · exact Or.inl h
            · rcases List.mem_cons.mp hj with rfl | hj
              · rw [hq] at hv; cases hv
              · exact Or.inr ⟨⟨j, hj, rfl⟩, hv⟩

theorem Calm.perm {js ks : List (Lit × List Lit)} (h : js.Perm ks) {val : Lit → Option Bool} : Calm js val ↔ Calm ks val := by
  unfold Calm
  simp only [h.mem_iff]

/-- The states differ in the order of the assertions only. -/
def Cp (t u : LRA) : Prop := ∃ w, u = t.withAw w ∧ ∀ x, (w x).Perm (t.aw x)

/-- Two outcomes of the same call. -/
def Alike : Except Err (LRA × Bool × List Lit) → Except Err (LRA × Bool × List Lit) → Prop
  | .error e, .error e' => e = e'
  | .ok r, .ok r' => Cp r.1 r'.1 ∧ SameAns r.2 r'.2
  | _, _ => False

theorem emit_alike (hw : ∀ x, (w x).Perm (t.aw x)) {js ks : List (Lit × List Lit)} (h : ks.Perm js) {val : Lit → Option Bool} (hc : Coh val) :
    Alike ((emit t js val).exec val []) ((emit (t.withAw w) ks val).exec val []) := by
  obtain ⟨b, acc, e, h1, h2⟩ := emit_exec (t := t) js val [] hc
  obtain ⟨b', acc', e', h1', h2'⟩ := emit_exec (t := t.withAw w) ks val [] hc
  rw [e, e']
  have hb : b = b' := by
    have : b = true ↔ b' = true := by rw [h1, h1', Calm.perm h]
    cases b <;> cases b' <;> simp_all
  refine ⟨⟨w, rfl, hw⟩, hb, fun hb' q => ?_⟩
  have hb' : b = true := hb'
  show q ∈ acc ↔ q ∈ acc'
  rw [h2 hb', h2' (hb ▸ hb')]
  simp only [h.mem_iff]

/-- Two lists of jobs, up to order. -/
def PermE : Except Err (List (Lit × List Lit)) → Except Err (List (Lit × List Lit)) → Prop
  | .error e, .error e' => e = e'
  | .ok J, .ok K => K.Perm J
  | _, _ => False

theorem rowsJobs_perm {f g : Nat → Except Err (List (Lit × List Lit))} (h : ∀ r, PermE (f r) (g r)) : ∀ rs, PermE (rowsJobs f rs) (rowsJobs g rs)
  | [] => List.Perm.refl _
  | r :: rs => by
    have hr := h r
    have ih := rowsJobs_perm h rs
    unfold rowsJobs
    cases hf : f r with
    | error e =>
      rw [hf] at hr
      cases hg : g r with
      | error e' => rw [hg] at hr; exact hr
      | ok K => rw [hg] at hr; exact hr.elim
    | ok J =>
      rw [hf] at hr
      cases hg : g r with
      | error e' => rw [hg] at hr; exact hr.elim
      | ok K =>
        rw [hg] at hr
        simp only
        generalize rowsJobs f rs = X at ih
        generalize rowsJobs g rs = Y at ih
        cases X with
        | error e => cases Y with
          | error e' => exact ih
          | ok Y => exact ih.elim
        | ok X => cases Y with
          | error e' => exact ih.elim
          | ok Y => exact List.Perm.append hr ih

theorem aw_rowLo : ∀ ts, (t.withAw w).rowLo ts = t.rowLo ts
  | [] => rfl
  | (v, c) :: ts => by
    unfold rowLo
    rw [aw_rowLo ts]
    rfl

theorem aw_rowHi : ∀ ts, (t.withAw w).rowHi ts = t.rowHi ts
  | [] => rfl
  | (v, c) :: ts => by
    unfold rowHi
    rw [aw_rowHi ts]
    rfl

theorem aw_rowHiU (x : Nat) : ∀ ts, (t.withAw w).rowHiU x ts = t.rowHiU x ts
  | [] => rfl
  | (v, c) :: ts => by
    unfold rowHiU
    rw [aw_rowHiU x ts]
    rfl

theorem jobsLo_perm (hw : ∀ x, (w x).Perm (t.aw x)) (r : Nat) (b : IQ) (L : List Lit) : ((t.withAw w).jobsLo r b L).Perm (t.jobsLo r b L) := by
  unfold jobsLo
  rw [aw_lo]
  split
  · exact (hw r).filterMap _
  · exact .refl _

theorem jobsHi_perm (hw : ∀ x, (w x).Perm (t.aw x)) (r : Nat) (b : WithTop IQ) (L : List Lit) : ((t.withAw w).jobsHi r b L).Perm (t.jobsHi r b L) := by
  unfold jobsHi
  rw [aw_hi]
  split
  · exact (hw r).filterMap _
  · exact .refl _

theorem rowJobsLb_perm (hw : ∀ x, (w x).Perm (t.aw x)) (x r : Nat) : PermE (t.rowJobsLb x r) ((t.withAw w).rowJobsLb x r) := by
  unfold rowJobsLb
  rw [aw_row]
  cases t.row r with
  | none => exact rfl
  | some l =>
    simp only
    cases l.coef x with
    | none => exact rfl
    | some c =>
      simp only [aw_rowLo, aw_rowHi]
      split
      · cases t.rowLo l.vars with
        | none => exact .refl _
        | some b => exact jobsLo_perm hw r b.1 b.2
      · cases t.rowHi l.vars with
        | none => exact .refl _
        | some b => exact jobsHi_perm hw r b.1 b.2

theorem rowJobsUb_perm (hw : ∀ x, (w x).Perm (t.aw x)) (x r : Nat) : PermE (t.rowJobsUb x r) ((t.withAw w).rowJobsUb x r) := by
  unfold rowJobsUb
  rw [aw_row]
  cases t.row r with
  | none => exact rfl
  | some l =>
    simp only
    cases l.coef x with
    | none => exact rfl
    | some c =>
      simp only [aw_rowLo, aw_rowHiU]
      split
      · cases t.rowHiU x l.vars with
        | none => exact .refl _
        | some b => exact jobsHi_perm hw r b.1 b.2
      · cases t.rowLo l.vars with
        | none => exact .refl _
        | some b => exact jobsLo_perm hw r b.1 b.2

theorem update_keeps_aw {x : Nat} {v : IQ} (h : t.update E x v = .ok t') : t'.aw = t.aw := by
  unfold update at h
  split at h
  · cases h
  · split at h
    · cases h
    · injection h with h
      rw [← h]

theorem assertLower_alike (hw : ∀ x, (w x).Perm (t.aw x)) {val : Lit → Option Bool} (hc : Coh val) (x : Nat) (v : IQ) (p : Lit) :
    Alike ((t.assertLower E val x v p).exec val []) (((t.withAw w).assertLower E val x v p).exec val []) := by
  unfold assertLower
  rw [aw_n, aw_lo, aw_hi, aw_hiR]
  split
  · exact rfl
  · split
    · exact rfl
    · split
      · exact ⟨⟨w, rfl, hw⟩, rfl, fun _ _ => Iff.rfl⟩
      · split
        · exact ⟨⟨w, rfl, hw⟩, rfl, fun _ _ => Iff.rfl⟩
        · simp only
          have e1 : (t.withAw w).setLo x v p = (t.setLo x v p).withAw w := rfl
          have hw1 : ∀ x', (w x').Perm ((t.setLo x v p).aw x') := hw
          rw [e1, aw_vals, aw_basic, update_aw]
          generalize t.setLo x v p = t1 at hw1
          have key : ∀ t2 : LRA, (∀ x', (w x').Perm (t2.aw x')) → Alike
              ((match rowsJobs (t2.rowJobsLb x) (E.ord (t2.tw x)) with
                | .error e => TAct.fail e
                | .ok J => emit t2 ((t2.aw x).filterMap (fun a => (decLo a v).map (fun q => (q, [(t2.loR x).neg]))) ++ J) val).exec val [])
              ((match rowsJobs ((t2.withAw w).rowJobsLb x) (E.ord ((t2.withAw w).tw x)) with
                | .error e => TAct.fail e
                | .ok J => emit (t2.withAw w) (((t2.withAw w).aw x).filterMap (fun a => (decLo a v).map (fun q => (q, [((t2.withAw w).loR x).neg]))) ++ J) val).exec val []) := by
            intro t2 hw2
            have hp := rowsJobs_perm (fun r => rowJobsLb_perm hw2 x r) (E.ord (t2.tw x))
            rw [aw_tw]
            generalize rowsJobs (t2.rowJobsLb x) (E.ord (t2.tw x)) = X at hp
            generalize rowsJobs ((t2.withAw w).rowJobsLb x) (E.ord (t2.tw x)) = Y at hp
            cases X with
            | error e => cases Y with
              | error e' => exact hp
              | ok Y => exact hp.elim
            | ok X => cases Y with
              | error e' => exact hp.elim
              | ok Y => exact emit_alike hw2 (((hw2 x).filterMap _).append hp) hc
          by_cases hi : t1.vals x < v ∧ t1.basic x = false
          · simp only [if_pos hi]
            cases hu : t1.update E x v with
            | error e => exact rfl
            | ok t2 =>
              refine key t2 ?_
              rw [update_keeps_aw hu]; exact hw1
          · simp only [if_neg hi]
            exact key t1 hw1

theorem assertUpper_alike (hw : ∀ x, (w x).Perm (t.aw x)) {val : Lit → Option Bool} (hc : Coh val) (x : Nat) (v : IQ) (p : Lit) :
    Alike ((t.assertUpper E val x v p).exec val []) (((t.withAw w).assertUpper E val x v p).exec val []) := by
  unfold assertUpper
  rw [aw_n, aw_lo, aw_hi, aw_loR]
  split
  · exact rfl
  · split
    · exact rfl
    · split
      · exact ⟨⟨w, rfl, hw⟩, rfl, fun _ _ => Iff.rfl⟩
      · split
        · exact ⟨⟨w, rfl, hw⟩, rfl, fun _ _ => Iff.rfl⟩
        · simp only
          have e1 : (t.withAw w).setHi x v p = (t.setHi x v p).withAw w := rfl
          have hw1 : ∀ x', (w x').Perm ((t.setHi x v p).aw x') := hw
          rw [e1, aw_vals, aw_basic, update_aw]
          generalize t.setHi x v p = t1 at hw1
          have key : ∀ t2 : LRA, (∀ x', (w x').Perm (t2.aw x')) → Alike
              ((match rowsJobs (t2.rowJobsUb x) (E.ord (t2.tw x)) with
                | .error e => TAct.fail e
                | .ok J => emit t2 ((t2.aw x).filterMap (fun a => (decHi a (v : WithTop IQ)).map (fun q => (q, [(t2.hiR x).neg]))) ++ J) val).exec val [])
              ((match rowsJobs ((t2.withAw w).rowJobsUb x) (E.ord ((t2.withAw w).tw x)) with
                | .error e => TAct.fail e
                | .ok J => emit (t2.withAw w) (((t2.withAw w).aw x).filterMap (fun a => (decHi a (v : WithTop IQ)).map (fun q => (q, [((t2.withAw w).hiR x).neg]))) ++ J) val).exec val []) := by
            intro t2 hw2
            have hp := rowsJobs_perm (fun r => rowJobsUb_perm hw2 x r) (E.ord (t2.tw x))
            rw [aw_tw]
            generalize rowsJobs (t2.rowJobsUb x) (E.ord (t2.tw x)) = X at hp
            generalize rowsJobs ((t2.withAw w).rowJobsUb x) (E.ord (t2.tw x)) = Y at hp
            cases X with
            | error e => cases Y with
              | error e' => exact hp
              | ok Y => exact hp.elim
            | ok X => cases Y with
              | error e' => exact hp.elim
              | ok Y => exact emit_alike hw2 (((hw2 x).filterMap _).append hp) hc
          by_cases hi : v < t1.vals x ∧ t1.basic x = false
          · simp only [if_pos hi]
            cases hu : t1.update E x v with
            | error e => exact rfl
            | ok t2 =>
              refine key t2 ?_
              rw [update_keeps_aw hu]; exact hw1
          · simp only [if_neg hi]
            exact key t1 hw1

/-- The values of the literals are coherent. -/
def LOp.coh : LOp → Prop
  | .lit val _ => Coh val
  | .setLb val _ _ _ => Coh val
  | .setUb val _ _ _ => Coh val
  | _ => True

theorem check_keeps_aw : ∀ (f : Nat) (t : LRA) {t' : LRA} {r : Option (List Lit)}, checkLoop E f t = .ok (t', r) → t'.aw = t.aw := by
  intro f t t' r h
  have h1 := checkLoop_aw (E := E) (w := t.aw) f t
  have h2 : t.withAw t.aw = t := rfl
  rw [h2, h] at h1
  injection h1 with h1
  have := congrArg (fun r => r.1.aw) h1
  exact this

theorem LOp.alike (hw : ∀ x, (w x).Perm (t.aw x)) {o : LOp} (ho : o.coh) : Alike (o.exec E t) (o.exec E (t.withAw w)) := by
  cases o with
  | newVar =>
    refine ⟨⟨upd w t.n [], rfl, fun x => ?_⟩, rfl, fun _ _ => Iff.rfl⟩
    show (upd w t.n [] x).Perm (upd t.aw t.n [] x)
    by_cases e : x = t.n
    · subst e; simp [upd]
    · simp only [upd, e, if_false]; exact hw x
  | newVarL root l =>
    show Alike ((t.newVarL root l).map _) (((t.withAw w).newVarL root l).map _)
    unfold LRA.newVarL
    rw [show (t.withAw w).exprs = t.exprs from rfl, aw_n]
    split
    · exact rfl
    · cases t.exprs.lookup l with
      | some x => exact ⟨⟨w, rfl, hw⟩, rfl, fun _ _ => Iff.rfl⟩
      | none =>
        simp only
        split
        · exact rfl
        · split
          · exact rfl
          · refine ⟨⟨upd w t.n [], rfl, fun x => ?_⟩, rfl, fun _ _ => Iff.rfl⟩
            show (upd w t.n [] x).Perm (upd t.aw t.n [] x)
            by_cases e : x = t.n
            · subst e; simp [upd]
            · simp only [upd, e, if_false]; exact hw x
  | assertion a =>
    refine ⟨⟨upd w a.x (w a.x ++ [a]), rfl, fun x => ?_⟩, rfl, fun _ _ => Iff.rfl⟩
    show (upd w a.x (w a.x ++ [a]) x).Perm (upd t.aw a.x (t.aw a.x ++ [a]) x)
    by_cases e : x = a.x
    · subst e; simp only [upd, if_true]; exact (hw a.x).append_right _
    · simp only [upd, e, if_false]; exact hw x
  | lit val p =>
    show Alike ((t.propagate E val p).exec val []) (((t.withAw w).propagate E val p).exec val [])
    unfold propagate
    rw [show (t.withAw w).vas = t.vas from rfl]
    cases t.vas p.var with
    | none => exact rfl
    | some a =>
      simp only
      cases val ⟨a.b, true⟩ with
      | none => exact ⟨⟨w, rfl, hw⟩, rfl, fun _ _ => Iff.rfl⟩
      | some b =>
        cases b <;> simp only <;> split
        · exact assertLower_alike hw ho _ _ _
        · exact assertUpper_alike hw ho _ _ _
        · exact assertUpper_alike hw ho _ _ _
        · exact assertLower_alike hw ho _ _ _
  | setLb val x v p => exact assertLower_alike (t := { t with facts := .lo p x v :: t.facts }) hw ho x v p
  | setUb val x v p => exact assertUpper_alike (t := { t with facts := .hi p x v :: t.facts }) hw ho x v p
  | check =>
    show Alike ((t.check E).map _) (((t.withAw w).check E).map _)
    rw [check_aw]
    cases hk : t.check E with
    | error e => exact rfl
    | ok r => exact ⟨⟨w, rfl, fun x => by rw [check_keeps_aw _ _ hk]; exact hw x⟩, rfl, fun _ _ => Iff.rfl⟩
  | push => exact ⟨⟨w, rfl, hw⟩, rfl, fun _ _ => Iff.rfl⟩
  | pop =>
    show Alike (t.pop.map _) ((t.withAw w).pop.map _)
    unfold LRA.pop
    rw [show (t.withAw w).layers = t.layers from rfl]
    cases t.layers with
    | nil => exact rfl
    | cons L Ls => exact ⟨⟨w, rfl, hw⟩, rfl, fun _ _ => Iff.rfl⟩

theorem run_alike : ∀ (os : List LOp) (t u : LRA), Cp t u → (∀ o ∈ os, o.coh) → SameRun (runL E os t) (runL E os u)
  | [], t, u, h, _ => by
    obtain ⟨w, rfl, _⟩ := h
    exact ⟨.nil, rfl, rfl, rfl, rfl, rfl, rfl, rfl⟩
  | o :: os, t, u, h, ho => by
    obtain ⟨w, rfl, hw⟩ := h
    have h1 := LOp.alike (E := E) hw (ho o List.mem_cons_self)
    unfold runL
    generalize o.exec E t = X at h1
    generalize o.exec E (t.withAw w) = Y at h1
    cases X with
    | error e => cases Y with
      | error e' => exact h1
      | ok Y => exact h1.elim
    | ok X => cases Y with
      | error e' => exact h1.elim
      | ok Y =>
        obtain ⟨hc, hs⟩ := h1
        have ih := run_alike os X.1 Y.1 hc (fun o h => ho o (List.mem_cons_of_mem _ h))
        simp only
        generalize runL E os X.1 = X' at ih
        generalize runL E os Y.1 = Y' at ih
        cases X' with
        | error e => cases Y' with
          | error e' => exact ih
          | ok Y => exact ih.elim
        | ok X' => cases Y' with
          | error e' => exact ih.elim
          | ok Y' => exact ⟨.cons hs ih.1, ih.2⟩

/-! ### The lists of assertions of a reachable state -/

/-- The list of assertions of a variable has every assertion on it, once. -/
structure AwI (t : LRA) : Prop where
  nd : ∀ x, (t.aw x).Nodup
  all : ∀ b a, t.vas b = some a → a ∈ t.aw a.x

theorem AwI.congr (h : AwI t) (h1 : t'.aw = t.aw) (h2 : t'.vas = t.vas) : AwI t' := ⟨by rw [h1]; exact h.nd, by rw [h1, h2]; exact h.all⟩

theorem Call.awI {x y : LRA × List (List BF)} (h : Call E x y) (hi : HInv x) (ha : AwI x.1) : AwI y.1 := by
  obtain ⟨hg, he⟩ := hi
  cases h with
  | newVar => rw [newVar_eq hg]; exact ha.congr rfl rfl
  | newVarL hc hb hn =>
    rcases newVarL_cases hg hn with ⟨e, _⟩ | ⟨_, _, hr, hv, e, _⟩
    · subst e; exact ha
    · subst e; exact ha.congr rfl rfl
  | @assertion t _ a hf hx =>
    constructor
    · intro x
      show (upd t.aw a.x (t.aw a.x ++ [a]) x).Nodup
      by_cases e : x = a.x
      · subst e
        rw [upd_self, List.nodup_append]
        refine ⟨ha.nd _, List.nodup_singleton _, fun b hb c hc e => ?_⟩
        rw [List.mem_singleton] at hc
        subst hc e
        have := (hg.tab.aw _ _ hb).1
        have hf : t.vas b.b = none := hf
        rw [hf] at this; cases this
      · rw [upd_ne _ _ e]; exact ha.nd x
    · intro b c hc
      have hc : upd t.vas a.b (some a) b = some c := hc
      show c ∈ upd t.aw a.x (t.aw a.x ++ [a]) c.x
      by_cases e : b = a.b
      · subst e
        rw [upd_self] at hc; cases hc
        rw [upd_self]; simp
      · rw [upd_ne _ _ e] at hc
        have := ha.all b c hc
        by_cases e : c.x = a.x
        · rw [e, upd_self]
          rw [e] at this
          exact List.mem_append_left _ this
        · rw [upd_ne _ _ e]; exact this
  | lit h1 hc hp hf => have := (propagate_final hg h1 hc hp hf).1; exact ha.congr this.aw this.vas
  | refused h1 hc hp hf => have := (propagate_final hg h1 hc hp hf).1; exact ha.congr this.aw this.vas
  | setLb hx _ hp hf => have := (setLb_final hg hx hp hf).1; exact ha.congr this.aw this.vas
  | setLbNo hx _ hp hf => have := (setLb_final hg hx hp hf).1; exact ha.congr this.aw this.vas
  | setUb hx _ hp hf => have := (setUb_final hg hx hp hf).1; exact ha.congr this.aw this.vas
  | setUbNo hx _ hp hf => have := (setUb_final hg hx hp hf).1; exact ha.congr this.aw this.vas
  | check hc =>
    obtain ⟨t1, r1, e, h1⟩ := check_total E hg
    rw [hc] at e
    injection e with e; injection e with e1 e2
    subst e1 e2
    exact ha.congr h1.same.aw h1.same.vas
  | listen hl =>
    obtain ⟨f, e⟩ := listen_eq hl
    subst e
    exact ha.congr rfl rfl
  | push => exact ha.congr rfl rfl
  | pop hne hp =>
    obtain ⟨L, Ls, hl, e⟩ := pop_cases hp
    subst e
    exact ha.congr rfl rfl

theorem Hist.awI {x : LRA × List (List BF)} (h : Hist E x) : AwI x.1 := by
  induction h with
  | init => exact ⟨fun _ => List.nodup_nil, fun _ _ h => by cases h⟩
  | call h hc ih => exact hc.awI h.inv ih

/-- C47, for a theory without derived variables: in every reachable state in which no variable is basic, whatever the order in which the copy constructor visits the assertions
(`as` lists them, each once), every later sequence of calls (new variables, new derived variables, new assertions, propagated literals, `set_lb`, `set_ub`, `check`, `push`, `pop`)
on the copy gives the answers that it gives on the original, makes the same literals true, and ends with the same bounds, reasons and values.
What is missing: states with derived variables, where it is false (`C47_witness`). -/
theorem C47_partial {Fs : List (List BF)} (h : Hist E (t, Fs)) (hr : ∀ v, t.row v = none) {as : List Asrt} (hn : as.Nodup) (ha : ∀ a, a ∈ as ↔ t.vas a.b = some a)
    (os : List LOp) (ho : ∀ o ∈ os, o.coh) : SameRun (runL E os t) (runL E os (t.copyOf as)) := by
  refine run_alike os t _ ⟨fun x => as.filter (fun a => a.x == x), ?_, fun x => ?_⟩ ho
  · have : t.tw = fun _ => [] := by
      funext v
      cases hv : t.tw v with
      | nil => rfl
      | cons r rs =>
        have := (h.inv.good.tab.wat.mem v r).mp (by rw [hv]; exact List.mem_cons_self)
        obtain ⟨l, hl, _⟩ := this
        rw [hr r] at hl; cases hl
    unfold copyOf withAw
    rw [← this]
  · refine (List.perm_ext_iff_of_nodup (hn.filter _) (h.awI.nd x)).mpr (fun a => ?_)
    rw [List.mem_filter, ha]
    constructor
    · rintro ⟨h1, h2⟩
      have := h.awI.all _ _ h1
      rw [beq_iff_eq] at h2
      rw [h2] at this
      exact this
    · intro h1
      obtain ⟨h2, h3⟩ := h.inv.good.tab.aw _ _ h1
      exact ⟨h2, by rw [h3, beq_iff_eq]⟩

/-! ### The witness -/

/-- `x3 = x0 + x1`, with the literal of variable 1 controlling `x3 <= 5`. -/
def tc : LRA := (defd three l01).addAsrt ⟨true, 1, 3, IQ.ofQ 5⟩

theorem tc_hist : Hist stdL (tc, [[]]) := by
  have h3 : Hist stdL (three, [[]]) := .call (.call (.call .init .newVar) .newVar) .newVar
  have h4 : Hist stdL (defd three l01, [[]]) := by
    refine .call h3 (.newVarL (l := l01) (x := 3) ⟨by unfold Lin.Sorted; decide +kernel, by decide +kernel⟩ (by decide +kernel) ?_)
    rfl
  exact .call h4 (.assertion (by decide +kernel) (by decide +kernel))

/-- C47 is false of the code with a derived variable: with `x3 = new_var(x0 + x1)` and a literal `b` controlling `x3 <= 5`, `set_lb(x0, 3)`, `set_lb(x1, 3)` makes `b` false
and moves `value(x3)` to `6` in the original; in the copy, `b` stays undefined, `value(x3)` stays `0` (no row watches `x0`, `x1`), and does so after `check` too. -/
theorem C47_witness : Hist stdL (tc, [[]]) ∧
    (runL stdL [.setLb val0 0 (IQ.ofQ 3) TRUE_lit, .setLb val0 1 (IQ.ofQ 3) TRUE_lit, .check] tc).map (fun r => (r.2, r.1.vals 3)) =
      .ok ([(true, []), (true, [⟨1, false⟩]), (true, [])], IQ.ofQ 6) ∧
    (runL stdL [.setLb val0 0 (IQ.ofQ 3) TRUE_lit, .setLb val0 1 (IQ.ofQ 3) TRUE_lit, .check] (tc.copyOf [⟨true, 1, 3, IQ.ofQ 5⟩])).map (fun r => (r.2, r.1.vals 3)) =
      .ok ([(true, []), (true, []), (true, [])], IQ.ofQ 0) := by
  refine ⟨tc_hist, ?_⟩
  decide +kernel

/-- The hypotheses of `C47_partial` are met: three variables with two assertions, copied in the other order. -/
theorem C47_example : ∃ (t : LRA) (as : List Asrt), Hist stdL (t, [[]]) ∧ (∀ v, t.row v = none) ∧ as.Nodup ∧ (∀ a, a ∈ as ↔ t.vas a.b = some a) ∧ t.copyOf as ≠ t ∧
    (runL stdL [.setLb val0 0 (IQ.ofQ 7) TRUE_lit, .check] (t.copyOf as)).map (fun r => (r.2, r.1.vals 0)) = .ok ([(true, [⟨1, false⟩, ⟨2, true⟩]), (true, [])], IQ.ofQ 7) := by
  refine ⟨(three.addAsrt ⟨true, 1, 0, IQ.ofQ 5⟩).addAsrt ⟨false, 2, 0, IQ.ofQ 4⟩, [⟨false, 2, 0, IQ.ofQ 4⟩, ⟨true, 1, 0, IQ.ofQ 5⟩], ?_, fun _ => rfl, by decide +kernel, fun a => ?_, ?_, ?_⟩
  · have h3 : Hist stdL (three, [[]]) := .call (.call (.call .init .newVar) .newVar) .newVar
    exact .call (.call h3 (.assertion (by decide +kernel) (by decide +kernel))) (.assertion (by decide +kernel) (by decide +kernel))
  · show _ ↔ upd (upd (fun _ => none) 1 (some _)) 2 (some _) a.b = some a
    obtain ⟨le, b, x, v⟩ := a
    simp only [List.mem_cons, List.not_mem_nil, or_false, upd]
    by_cases e2 : b = 2
    · subst e2
      simp only [if_true, Option.some.injEq]
      constructor
      · rintro (h | h)
        · exact h.symm
        · cases h
      · intro h; exact Or.inl h.symm
    · by_cases e1 : b = 1
      · subst e1
        simp only [e2, if_true, if_false, Option.some.injEq]
        constructor
        · rintro (h | h)
          · cases h
          · exact h.symm
        · intro h; exact Or.inr h.symm
      · simp only [e1, e2, if_false]
        constructor
        · rintro (h | h)
          · injection h with _ h; exact absurd h e2
          · injection h with _ h; exact absurd h e1
        · intro h; cases h
  · intro h
    have := congrArg (fun t => t.aw 0) h
    revert this
    decide +kernel
  · decide +kernel

end LRA
end Semitone
