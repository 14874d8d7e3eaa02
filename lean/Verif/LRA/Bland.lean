import Verif.LRA.Check
import Mathlib.Data.Fintype.Pigeonhole
import Mathlib.Data.Fintype.Pi
import Mathlib.Data.Fintype.BigOperators
import Mathlib.Order.Interval.Finset.Nat

/-!
# `check` terminates

Bland's rule: the variable that leaves the basis is the first one outside of its bounds, the variable that enters is the first suitable one.
-/
namespace Semitone
namespace LRA
open Lin
variable {A : Nat → Lit → Prop} {Fs : List (List BF)}

/-- `N` consecutive iterations of `check`. -/
structure Run (A : Nat → Lit → Prop) (Fs : List (List BF)) (s : Nat → LRA) (N : Nat) (p e : Nat → Nat) (l : Nat → Lin) (c : Nat → ℚ) (up : Nat → Bool) (b : Nat → IQ) : Prop where
  step : ∀ k, k < N → Step (s k) (s (k + 1)) (p k) (e k) (l k) (c k) (up k) (b k)
  good : Good (s 0) A Fs

namespace Run
variable {s : Nat → LRA} {N : Nat} {p e : Nat → Nat} {l : Nat → Lin} {c : Nat → ℚ} {up : Nat → Bool} {b : Nat → IQ}

/-- `v` is basic after `k` iterations. -/
abbrev B (s : Nat → LRA) (k v : Nat) : Prop := ((s k).row v).isSome

theorem goodAt (h : Run A Fs s N p e l c up b) : ∀ k, k ≤ N → Good (s k) A Fs ∧ PSame (s 0) (s k)
  | 0, _ => ⟨h.good, PSame.refl _⟩
  | k + 1, hk => by
    obtain ⟨h1, h2⟩ := h.goodAt k (Nat.le_of_succ_le hk)
    have st := h.step k hk
    exact ⟨st.good h1, h2.trans st.same⟩

theorem pB (h : Run A Fs s N p e l c up b) {k : Nat} (hk : k < N) : B s k (p k) := by
  unfold B; rw [(h.step k hk).row]; rfl

theorem eB (h : Run A Fs s N p e l c up b) {k : Nat} (hk : k < N) : e k < (s 0).n ∧ ¬ B s k (e k) := by
  have st := h.step k hk
  obtain ⟨hg, hs⟩ := h.goodAt k hk.le
  have := hg.tab.shape.vars _ _ st.row _ (mem_keys_iff.mpr ⟨_, st.coef⟩)
  rw [hs.n] at this
  exact ⟨this.1, by unfold B; rw [this.2]; simp⟩

theorem pne (h : Run A Fs s N p e l c up b) {k : Nat} (hk : k < N) : p k ≠ e k := fun h' => (h.eB hk).2 (h' ▸ h.pB hk)

theorem plt (h : Run A Fs s N p e l c up b) {k : Nat} (hk : k < N) : p k < (s 0).n := by
  obtain ⟨hg, hs⟩ := h.goodAt k hk.le
  rw [← hs.n]
  exact hg.tab.shape.lt _ _ (h.step k hk).row

theorem Bsucc (h : Run A Fs s N p e l c up b) {k : Nat} (hk : k < N) (v : Nat) : B s (k + 1) v ↔ v = e k ∨ (v ≠ p k ∧ B s k v) := (h.step k hk).piv.basic v

theorem Bkeep (h : Run A Fs s N p e l c up b) {k : Nat} (hk : k < N) {v : Nat} (h1 : v ≠ p k) (h2 : v ≠ e k) : B s (k + 1) v ↔ B s k v := by
  rw [h.Bsucc hk]
  exact ⟨fun h' => h'.elim (fun h' => absurd h' h2) And.right, fun h' => Or.inr ⟨h1, h'⟩⟩

theorem vkeep (h : Run A Fs s N p e l c up b) {k : Nat} (hk : k < N) {v : Nat} (h1 : ¬ B s k v) (h2 : v ≠ e k) : (s (k + 1)).vals v = (s k).vals v :=
  (h.step k hk).mov.same v (by simpa [B] using h1) h2

/-- If `r` is basic after `m` iterations and not after `x`, it left the basis between, and has kept its value since. -/
theorem lastLeave (h : Run A Fs s N p e l c up b) {r m : Nat} (hm : B s m r) : ∀ x, m ≤ x → x ≤ N → ¬ B s x r →
    ∃ S, m ≤ S ∧ S < x ∧ p S = r ∧ (s x).vals r = (s (S + 1)).vals r := by
  intro x hmx
  induction x, hmx using Nat.le_induction with
  | base => intro _ hn; exact absurd hm hn
  | succ x hmx ih =>
    intro hx hn
    by_cases hb : B s x r
    · refine ⟨x, hmx, Nat.lt_succ_self x, ?_, rfl⟩
      by_contra hp
      exact hn ((h.Bsucc hx r).mpr (Or.inr ⟨fun e' => hp e'.symm, hb⟩))
    · obtain ⟨S, h1, h2, h3, h4⟩ := ih (Nat.le_of_succ_le hx) hb
      refine ⟨S, h1, Nat.lt_succ_of_lt h2, h3, ?_⟩
      rw [h.vkeep hx hb, h4]
      intro e'
      exact hn ((h.Bsucc hx r).mpr (Or.inl e'))

/-- If `r` is not basic after `a` iterations and is basic after `x`, it entered the basis between, having kept its value until then. -/
theorem firstEnter (h : Run A Fs s N p e l c up b) {r a : Nat} (ha : ¬ B s a r) : ∀ x, a ≤ x → x ≤ N → B s x r →
    ∃ T, a ≤ T ∧ T < x ∧ e T = r ∧ (s T).vals r = (s a).vals r := by
  have key : ∀ x, a ≤ x → x ≤ N → (∃ T, a ≤ T ∧ T < x ∧ e T = r ∧ (s T).vals r = (s a).vals r) ∨ (¬ B s x r ∧ (s x).vals r = (s a).vals r) := by
    intro x hax
    induction x, hax using Nat.le_induction with
    | base => intro _; exact Or.inr ⟨ha, rfl⟩
    | succ x hax ih =>
      intro hx
      rcases ih (Nat.le_of_succ_le hx) with ⟨T, h1, h2, h3, h4⟩ | ⟨h1, h2⟩
      · exact Or.inl ⟨T, h1, Nat.lt_succ_of_lt h2, h3, h4⟩
      · by_cases he : r = e x
        · exact Or.inl ⟨x, hax, Nat.lt_succ_self x, he.symm, h2⟩
        · refine Or.inr ⟨fun hb => ?_, (h.vkeep hx h1 he).trans h2⟩
          rcases (h.Bsucc hx r).mp hb with h' | h'
          · exact he h'
          · exact h1 h'.2
  intro x hax hx hb
  rcases key x hax hx with h' | h'
  · exact h'
  · exact absurd hb h'.1

/-- Bland's argument: the same basis and the same values of the non-basic variables cannot come back. -/
theorem no_cycle (h : Run A Fs s N p e l c up b) {a z : Nat} (haz : a < z) (hz : z ≤ N) (hB : ∀ v, v < (s 0).n → (B s a v ↔ B s z v))
    (hv : ∀ v, v < (s 0).n → ¬ B s a v → (s a).vals v = (s z).vals v) : False := by
  classical
  let D : Nat → Prop := fun v => ∃ k, a ≤ k ∧ k < z ∧ (v = e k ∨ v = p k)
  have Dlt : ∀ v, D v → v < (s 0).n := by
    rintro v ⟨k, _, hk, rfl | rfl⟩
    · exact (h.eB (hk.trans_le hz)).1
    · exact h.plt (hk.trans_le hz)
  have hD : D (e a) := ⟨a, Nat.le_refl a, haz, Or.inl rfl⟩
  obtain ⟨r, hDr, hmax⟩ : ∃ r, D r ∧ ∀ v, D v → v ≤ r :=
    ⟨Nat.findGreatest D (s 0).n, Nat.findGreatest_spec (Dlt _ hD).le hD, fun v hv => Nat.le_findGreatest (Dlt v hv).le hv⟩
  have hrn := Dlt r hDr
  -- an iteration in which `r` enters and one in which it leaves, with the same value in between
  obtain ⟨T, S, haT, hTz, haS, hSz, heT, hpS, hval⟩ : ∃ T S, a ≤ T ∧ T < z ∧ a ≤ S ∧ S < z ∧ e T = r ∧ p S = r ∧ (s T).vals r = (s (S + 1)).vals r := by
    obtain ⟨k, hak, hkz, hk⟩ := hDr
    by_cases hba : B s a r
    · obtain ⟨x, hax, hxz, hnx⟩ : ∃ x, a ≤ x ∧ x ≤ z ∧ ¬ B s x r := by
        rcases hk with hk | hk
        · exact ⟨k, hak, hkz.le, hk ▸ (h.eB (hkz.trans_le hz)).2⟩
        · refine ⟨k + 1, Nat.le_succ_of_le hak, hkz, fun hb => ?_⟩
          rcases (h.Bsucc (hkz.trans_le hz) r).mp hb with h' | h'
          · exact h.pne (hkz.trans_le hz) (hk ▸ h')
          · exact h'.1 hk
      obtain ⟨S, s1, s2, s3, s4⟩ := h.lastLeave hba x hax (hxz.trans hz) hnx
      obtain ⟨T, t1, t2, t3, t4⟩ := h.firstEnter hnx z hxz hz ((hB r hrn).mp hba)
      exact ⟨T, S, hax.trans t1, t2, s1, s2.trans_le hxz, t3, s3, t4.trans s4⟩
    · obtain ⟨x, hax, hxz, hbx⟩ : ∃ x, a ≤ x ∧ x ≤ z ∧ B s x r := by
        rcases hk with hk | hk
        · exact ⟨k + 1, Nat.le_succ_of_le hak, hkz, (h.Bsucc (hkz.trans_le hz) r).mpr (Or.inl hk)⟩
        · exact ⟨k, hak, hkz.le, hk ▸ h.pB (hkz.trans_le hz)⟩
      obtain ⟨T, t1, t2, t3, t4⟩ := h.firstEnter hba x hax (hxz.trans hz) hbx
      obtain ⟨S, s1, s2, s3, s4⟩ := h.lastLeave hbx z hxz hz (fun h' => hba ((hB r hrn).mpr h'))
      exact ⟨T, S, t1, t2.trans_le hxz, hax.trans s1, s2, t3, s3, t4.trans ((hv r hrn hba).trans s4)⟩
  have hTN := hTz.trans_le hz
  have hSN := hSz.trans_le hz
  obtain ⟨gT, mT⟩ := h.goodAt T hTN.le
  obtain ⟨gS, mS⟩ := h.goodAt S hSN.le
  have stT := h.step T hTN
  have stS := h.step S hSN
  -- the variables before `r` are within their bounds at `S`
  have inS : ∀ v, v < r → InB ((s T).lo v) ((s T).hi v) ((s S).vals v) := by
    intro v hvr
    rw [mT.lo, mT.hi, ← mS.lo, ← mS.hi]
    by_cases hb : B s S v
    · exact stS.first v (by rw [hpS]; exact hvr) hb
    · exact gS.inb v (by rw [mS.n]; exact hvr.trans hrn) (by simpa [B] using hb)
  -- the variables after `r` do not move
  have still : ∀ w, r < w → ∀ k, a ≤ k → k ≤ z → (B s k w ↔ B s a w) ∧ (¬ B s a w → (s k).vals w = (s a).vals w) := by
    intro w hw k hak
    have nD : ∀ k, a ≤ k → k < z → w ≠ e k ∧ w ≠ p k := fun k h1 h2 =>
      ⟨fun h' => absurd (hmax w ⟨k, h1, h2, Or.inl h'⟩) (Nat.not_le.mpr hw), fun h' => absurd (hmax w ⟨k, h1, h2, Or.inr h'⟩) (Nat.not_le.mpr hw)⟩
    induction k, hak using Nat.le_induction with
    | base => intro _; exact ⟨Iff.rfl, fun _ => rfl⟩
    | succ k hak ih =>
      intro hk
      obtain ⟨i1, i2⟩ := ih (Nat.le_of_succ_le hk)
      obtain ⟨n1, n2⟩ := nD k hak hk
      have hkN : k < N := Nat.lt_of_lt_of_le hk hz
      exact ⟨(h.Bkeep hkN n2 n1).trans i1, fun hn => (h.vkeep hkN (fun hb => hn (i1.mp hb)) n1).trans (i2 hn)⟩
  -- the leaving variable of `T`
  have hir : p T < r := by
    refine lt_of_le_of_ne (hmax _ ⟨T, haT, hTz, Or.inr rfl⟩) (fun e' => h.pne hTN (e'.trans heT.symm))
  have hterm : ∀ ts : List (Nat × ℚ), (∀ x ∈ ts, x ∈ (l T).vars) → sg (up T) • evalT (s S).vals ts ≤ sg (up T) • evalT (s T).vals ts := by
    intro ts
    induction ts with
    | nil => intro _; exact le_refl _
    | cons x ts ih =>
      intro hts
      obtain ⟨w, d⟩ := x
      have hmem := hts _ List.mem_cons_self
      rw [evalT_cons, evalT_cons, smul_add, smul_add, smul_smul, smul_smul]
      refine add_le_add ?_ (ih (fun x hx => hts x (List.mem_cons_of_mem _ hx)))
      rcases lt_trichotomy w r with hw | hw | hw
      · have hnf := stT.least w d hmem (by rw [heT]; exact hw)
        unfold Free at hnf
        push Not at hnf
        obtain ⟨n1, n2⟩ := hnf
        obtain ⟨b1, b2⟩ := inS w hw
        rcases lt_trichotomy 0 (sg (up T) * d) with hd | hd | hd
        · exact IQ.smul_le hd.le (WithTop.coe_le_coe.mp (b2.trans (n1 hd)))
        · rw [← hd, zero_smul, zero_smul]
        · exact IQ.smul_le_neg hd.le (WithBot.coe_le_coe.mp ((n2 hd).trans b1))
      · subst hw
        have hdc : d = c T := by
          have h1 := mem_lookup (gT.tab.shape.canon _ _ stT.row).1 hmem
          have h2 := stT.coef
          rw [heT] at h2
          have h1 : (l T).coef w = some d := h1
          rw [h1] at h2
          exact Option.some.inj h2
        have hfree := stT.free
        rw [← hdc, heT] at hfree
        have hvS := stS.vi
        rw [hpS] at hvS
        have hbS := stS.bound
        have hviol := stS.viol
        rw [hpS] at hbS hviol
        have hTw : (s T).vals w = b S := hval.trans hvS
        rcases hfree with ⟨hd, hf⟩ | ⟨hd, hf⟩
        · refine IQ.smul_le hd.le ?_
          cases hu : up S with
          | true =>
            rw [hu] at hviol
            rw [hTw]
            simpa [sg] using hviol.le
          | false =>
            rw [hu] at hbS
            simp only [Bool.false_eq_true, if_false] at hbS
            rw [mT.hi, ← mS.hi, hbS, hTw] at hf
            exact absurd hf (lt_irrefl _)
        · refine IQ.smul_le_neg hd.le ?_
          cases hu : up S with
          | true =>
            rw [hu] at hbS
            simp only [if_true] at hbS
            rw [mT.lo, ← mS.lo, hbS, hTw] at hf
            exact absurd hf (lt_irrefl _)
          | false =>
            rw [hu] at hviol
            rw [hTw]
            have : -(s S).vals w < - b S := by simpa [sg] using hviol
            exact (neg_lt_neg_iff.mp this).le
      · have hnT : ¬ B s T w := by
          have := (gT.tab.shape.vars _ _ stT.row w (mem_keys_of hmem)).2
          unfold B; rw [this]; simp
        have hna : ¬ B s a w := fun hb => hnT ((still w hw T haT hTz.le).1.mpr hb)
        rw [(still w hw S haS hSz.le).2 hna, (still w hw T haT hTz.le).2 hna]
  have hrows : Rows (s T).row (s S).vals := by
    refine (gT.tab.equiv _).mpr ?_
    rw [mT.defs, ← mS.defs]
    exact (gS.tab.equiv _).mp gS.tab.rows
  have e1 := hrows _ _ stT.row
  have e2 := gT.tab.rows _ _ stT.row
  have hle : sg (up T) • (s S).vals (p T) ≤ sg (up T) • (s T).vals (p T) := by
    rw [e1, e2]
    unfold Lin.eval
    rw [smul_add, smul_add]
    exact add_le_add_left (hterm _ (fun _ h => h)) _
  have hfar : sg (up T) • b T ≤ sg (up T) • (s S).vals (p T) := by
    obtain ⟨b1, b2⟩ := inS _ hir
    have hbT := stT.bound
    cases hu : up T with
    | true =>
      rw [hu] at hbT
      simp only [if_true] at hbT
      rw [hbT, WithBot.coe_le_coe] at b1
      exact IQ.smul_le (by norm_num [sg]) b1
    | false =>
      rw [hu] at hbT
      simp only [Bool.false_eq_true, if_false] at hbT
      rw [hbT, WithTop.coe_le_coe] at b2
      exact IQ.smul_le_neg (by norm_num [sg]) b2
  exact absurd (hfar.trans hle) (not_le.mpr stT.viol)

/-- A non-basic variable has its initial value or is at one of its bounds. -/
theorem atBound (h : Run A Fs s N p e l c up b) : ∀ k, k ≤ N → ∀ v, ¬ B s k v →
    (s k).vals v = (s 0).vals v ∨ (s 0).lo v = (((s k).vals v : IQ) : WithBot IQ) ∨ (s 0).hi v = (((s k).vals v : IQ) : WithTop IQ)
  | 0, _, _, _ => Or.inl rfl
  | k + 1, hk, v, hb => by
    obtain ⟨_, hs⟩ := h.goodAt k (Nat.le_of_succ_le hk)
    have st := h.step k hk
    by_cases hp : v = p k
    · right
      have hbd := st.bound
      rw [hp, st.vi]
      cases hu : up k with
      | true => rw [hu] at hbd; left; rw [← hs.lo]; exact hbd
      | false => rw [hu] at hbd; right; rw [← hs.hi]; exact hbd
    · have hne : v ≠ e k := fun e' => hb ((h.Bsucc hk v).mpr (Or.inl e'))
      have hnb : ¬ B s k v := fun hb' => hb ((h.Bsucc hk v).mpr (Or.inr ⟨hp, hb'⟩))
      rw [h.vkeep hk hnb hne]
      exact h.atBound k (Nat.le_of_succ_le hk) v hnb

open Classical in
/-- Basic, or non-basic with the initial value, at the lower bound or at the upper bound. -/
noncomputable def cfg (s : Nat → LRA) (n k : Nat) : Fin n → Fin 4 := fun v =>
  if B s k v then 0 else if (s k).vals v = (s 0).vals v then 1 else if (s 0).lo v = (((s k).vals v : IQ) : WithBot IQ) then 2 else 3

theorem cfg_eq (h : Run A Fs s N p e l c up b) {n i j : Nat} (hi : i ≤ N) (hj : j ≤ N) (hc : cfg s n i = cfg s n j) : ∀ v, v < n →
    (B s i v ↔ B s j v) ∧ (¬ B s i v → (s i).vals v = (s j).vals v) := by
  classical
  intro v hv
  have hcv := congrFun hc ⟨v, hv⟩
  simp only [cfg] at hcv
  by_cases hbi : B s i v
  · by_cases hbj : B s j v
    · exact ⟨⟨fun _ => hbj, fun _ => hbi⟩, fun hn => absurd hbi hn⟩
    · exfalso
      rw [if_pos hbi, if_neg hbj] at hcv
      split at hcv <;> [skip; split at hcv] <;> cases hcv
  · by_cases hbj : B s j v
    · exfalso
      rw [if_neg hbi, if_pos hbj] at hcv
      split at hcv <;> [skip; split at hcv] <;> cases hcv
    · refine ⟨⟨fun hb => absurd hb hbi, fun hb => absurd hb hbj⟩, fun _ => ?_⟩
      rw [if_neg hbi, if_neg hbj] at hcv
      have ai := h.atBound i hi v hbi
      have aj := h.atBound j hj v hbj
      by_cases h1 : (s i).vals v = (s 0).vals v
      · rw [if_pos h1] at hcv
        by_cases h2 : (s j).vals v = (s 0).vals v
        · rw [h1, h2]
        · exfalso; rw [if_neg h2] at hcv; split at hcv <;> cases hcv
      · rw [if_neg h1] at hcv
        by_cases h2 : (s j).vals v = (s 0).vals v
        · exfalso; rw [if_pos h2] at hcv; split at hcv <;> cases hcv
        · rw [if_neg h2] at hcv
          have ai := ai.resolve_left h1
          have aj := aj.resolve_left h2
          by_cases h3 : (s 0).lo v = (((s i).vals v : IQ) : WithBot IQ)
          · rw [if_pos h3] at hcv
            by_cases h4 : (s 0).lo v = (((s j).vals v : IQ) : WithBot IQ)
            · exact WithBot.coe_inj.mp (h3.symm.trans h4)
            · exfalso; rw [if_neg h4] at hcv; cases hcv
          · rw [if_neg h3] at hcv
            by_cases h4 : (s 0).lo v = (((s j).vals v : IQ) : WithBot IQ)
            · exfalso; rw [if_pos h4] at hcv; cases hcv
            · exact WithTop.coe_inj.mp ((ai.resolve_left h3).symm.trans (aj.resolve_left h4))

/-- There are at most `4 ^ n` iterations. -/
theorem bound (h : Run A Fs s N p e l c up b) : N < 4 ^ (s 0).n := by
  by_contra hN
  have hN : 4 ^ (s 0).n ≤ N := Nat.not_lt.mp hN
  obtain ⟨i, j, hij, hc⟩ := Fintype.exists_ne_map_eq_of_card_lt (fun k : Fin (N + 1) => cfg s (s 0).n k) (by simp; omega)
  have key : ∀ i j : Nat, i < j → j ≤ N → cfg s (s 0).n i = cfg s (s 0).n j → False := fun i j hlt hj hc => by
    have hq := h.cfg_eq (hlt.le.trans hj) hj hc
    exact h.no_cycle hlt hj (fun v hv => (hq v hv).1) (fun v hv => (hq v hv).2)
  have hij' : (i : Nat) ≠ j := fun h' => hij (Fin.ext h')
  rcases Nat.lt_or_gt_of_ne hij' with hlt | hlt
  · exact key i j hlt (Nat.lt_succ_iff.mp j.2) hc
  · exact key j i hlt (Nat.lt_succ_iff.mp i.2) hc.symm

end Run

/-- The answer of `check`: the invariant and the bounds are kept; a solution, or a valid explanation. -/
structure Checked (t : LRA) (A : Nat → Lit → Prop) (Fs : List (List BF)) (t' : LRA) (r : Option (List Lit)) : Prop where
  good : Good t' A Fs
  same : PSame t t'
  k0 : K0 t → K0 t'
  sol : r = none → ∀ v, (t'.row v).isSome → InB (t'.lo v) (t'.hi v) (t'.vals v)
  lem : ∀ cl, r = some cl → Lemma t cl ∧ ∀ q ∈ cl, NegReason t q

theorem checkLoop_cases (E : LEnv) : ∀ (f : Nat) (t : LRA), Good t A Fs → (∃ t' r, checkLoop E f t = .ok (t', r) ∧ Checked t A Fs t' r) ∨
    ∃ s p e l c up b, Run A Fs s f p e l c up b ∧ s 0 = t
  | 0, t, h => Or.inr ⟨fun _ => t, fun _ => 0, fun _ => 0, fun _ => ⟨[], 0⟩, fun _ => 0, fun _ => true, fun _ => 0, ⟨fun k hk => absurd hk (Nat.not_lt_zero k), h⟩, rfl⟩
  | f + 1, t, h => by
    rcases checkStep_cases E h with ⟨e, h1⟩ | ⟨cl, e, h1⟩ | ⟨t', xi, xj, l0, c0, up0, b0, e, st⟩
    · left
      exact ⟨t, none, by simp only [checkLoop, e], h, PSame.refl t, fun h => h, fun _ => h1, fun cl hc => by cases hc⟩
    · left
      exact ⟨t, some cl, by simp only [checkLoop, e], h, PSame.refl t, fun h => h, fun hn => (by cases hn), fun cl' hc => by cases hc; exact h1⟩
    · rcases checkLoop_cases E f t' (st.good h) with ⟨t'', r, e1, hc⟩ | ⟨s, p, e1, l, c, up, b, hr, h0⟩
      · left
        refine ⟨t'', r, by simp only [checkLoop, e, e1], hc.good, st.same.trans hc.same, fun hk => hc.k0 (st.k0 hk), hc.sol, fun cl hcl => ?_⟩
        obtain ⟨a1, a2⟩ := hc.lem cl hcl
        refine ⟨fun α X hm => a1 α X ((st.same.mod α X).mpr hm), fun q hq => ?_⟩
        obtain ⟨v, hv⟩ := a2 q hq
        rw [st.same.loR, st.same.hiR] at hv
        exact ⟨v, hv⟩
      · right
        refine ⟨fun k => k.casesOn t s, fun k => k.casesOn xi p, fun k => k.casesOn xj e1, fun k => k.casesOn l0 l, fun k => k.casesOn c0 c, fun k => k.casesOn up0 up,
          fun k => k.casesOn b0 b, ⟨fun k hk => ?_, h⟩, rfl⟩
        cases k with
        | zero => show Step t (s 0) xi xj l0 c0 up0 b0; rw [h0]; exact st
        | succ k => exact hr.step k (Nat.lt_of_succ_lt_succ hk)

/-- `check` always answers. -/
theorem check_total (E : LEnv) {t : LRA} (h : Good t A Fs) : ∃ t' r, t.check E = .ok (t', r) ∧ Checked t A Fs t' r := by
  rcases checkLoop_cases E (4 ^ t.n + 1) t h with h' | ⟨s, p, e, l, c, up, b, hr, h0⟩
  · exact h'
  · have := hr.bound
    rw [h0] at this
    omega

end LRA
end Semitone
