import Verif.Sat.SteadyOps
import Verif.Sat.View

/-!
# Theories that keep their invariant, together

A theory that satisfies its contract and is live is firm; two firm families that listen to different variables are firm together, even if one of them records wrong clauses.
-/
namespace Semitone
variable {T T' T1 T2 : Type}

theorem ActFirm.map {Q1 : T → (Nat → Lit → Prop) → (Lit → Prop) → Prop} {R1 : T → (Nat → Lit → Prop) → Prop} {Q : T' → (Nat → Lit → Prop) → (Lit → Prop) → Prop}
    {R : T' → (Nat → Lit → Prop) → Prop} {J : (Nat → Lit → Prop) → (Lit → Prop) → Prop} {n : Nat} (f : T → T') (hQ : ∀ t A P, Q1 t A P → J A P → Q (f t) A P)
    (hR : ∀ t A P, R1 t A → J A P → R (f t) A)
    (hJ : ∀ A A' P P', J A P → (∀ i q, i ≤ n → A i q → A' i q) → (∀ i q, i < n → A' i q → A i q) → (∀ q, A' n q → A n q ∨ P' q) → (∀ q, P q → P' q) → J A' P')
    {A : Nat → Lit → Prop} {P : Lit → Prop} {val : Lit → Option Bool} {a : TAct T} (h : ActFirm Q1 R1 n A P val a) (hj : J A P) : ActFirm Q R n A P val (a.map f) := by
  induction h with
  | ok a => exact .ok (hQ _ _ _ a hj)
  | confl a => exact .confl (hR _ _ _ a hj)
  | record _ ih =>
    refine .record (fun l0 rest e h0 hf A' P' v x1 x2 x3 x4 x5 x6 x7 x8 => ih l0 rest e h0 hf A' P' v x1 x2 x3 x4 x5 x6 x7 x8 (hJ _ _ _ _ hj x1 x2 (fun q hq => ?_) x5))
    rcases x3 q hq with h | h
    · exact .inl h
    · subst h; exact .inr x6

/-- A theory that respects its contract and is live. -/
theorem ActFirm.ofLive {F : Err → Prop} {Q : T → (Nat → Lit → Prop) → (Lit → Prop) → Prop} {R : T → (Nat → Lit → Prop) → Prop} {Th : T → Asg → Prop} {TI : T → Nat → (Nat → Lit → Prop) → Prop}
    {t : T} {n nv : Nat} {p : Lit} {A : Nat → Lit → Prop} {P : Lit → Prop} {val : Lit → Option Bool} {a : TAct T} (hF : ∀ e, ¬ F e) (h : ActLive F Q R n nv p A P val a) :
    ActOK Th TI t n A a → ActFirm (fun t A P => Q t A P ∧ TI t n A) (fun t A => R t A ∧ TI t n A) n A P val a := by
  induction h with
  | ok a =>
    intro h
    cases h with
    | ok b _ => exact .ok ⟨a, b⟩
  | confl a _ _ =>
    intro h
    cases h with
    | confl b _ _ _ => exact .confl ⟨a, b⟩
  | fail h => intro _; exact absurd h (hF _)
  | record _ _ _ _ _ _ ih =>
    intro h
    cases h with
    | record _ hk =>
      refine .record (fun l0' rest' e _ _ A' P' v x1 x2 x3 x4 x5 x6 x7 x8 => ?_)
      injection e with e1 e2
      subst e1 e2
      exact ih A' P' v x1 x2 x3 x4 x5 x6 x7 x8 (hk A' v (fun i hi q => x1 i q hi) x7 x8)

theorem ActFirm.imp {Q Q' : T → (Nat → Lit → Prop) → (Lit → Prop) → Prop} {R R' : T → (Nat → Lit → Prop) → Prop} {n : Nat} (hQ : ∀ t A P, Q t A P → Q' t A P) (hR : ∀ t A, R t A → R' t A)
    {A : Nat → Lit → Prop} {P : Lit → Prop} {val : Lit → Option Bool} {a : TAct T} (h : ActFirm Q R n A P val a) : ActFirm Q' R' n A P val a := by
  induction h with
  | ok a => exact .ok (hQ _ _ _ a)
  | confl a => exact .confl (hR _ _ a)
  | record _ ih => exact .record ih

/-- A theory that respects one of a family of contracts and is live for it. -/
def Firm.ofLive {O : TheoryOps T} {ι : Type} {C : ι → Contract O} (V : ∀ i, Live (C i)) (J : ι → Prop) (D : T → Prop) (hD : ∀ i t, (V i).Done t → D t)
    (hF : ∀ i e, ¬ (V i).F e) : Firm O where
  LI := fun t nv b n A P => ∃ i, J i ∧ (V i).LI t nv b n A P ∧ (C i).TI t n A
  Done := D
  adv := fun ⟨i, hi, h, hT⟩ h1 h2 h3 h4 h5 => ⟨i, hi, (V i).adv h h1 h2 h3 h4 h5, (C i).mono _ _ _ _ hT (fun j hj q => h2 j q hj)⟩
  pop := fun ⟨i, hi, h, hT⟩ hp => by
    obtain ⟨t1, h1, h2⟩ := (V i).pop h
    rw [hp] at h1
    injection h1 with h1
    subst h1
    exact ⟨i, hi, h2, ((C i).pop _ _ _ _ hT hp).1⟩
  pop_ok := fun ⟨i, _, h, _⟩ => ((V i).pop h).imp (fun _ h => h.1)
  push := fun ⟨i, hi, h, hT⟩ hP hA => ⟨i, hi, (V i).push h hP hA, ((C i).push _ _ _ hT (fun q hq => (hA q).mpr hq)).1⟩
  prop := fun {t nv b n A P P1 val p} ⟨i, hi, h, hT⟩ hP hA hc hp => by
    rcases (V i).prop h hT hP hA hc hp with ⟨a, b⟩ | ⟨j, a, b⟩
    · exact .inl ⟨a, i, hi, b, hT⟩
    · refine .inr ⟨j, a, ?_⟩
      have := ActFirm.ofLive (hF i) b ((C i).prop j t n A val p hT hA hc hp)
      exact this.imp (fun t A P h => ⟨⟨i, hi, h.1.1, h.2⟩, fun h0 => ⟨i, hi, h.1.2 h0, h.2⟩⟩) (fun t A h => ⟨i, hi, h.1, h.2⟩)
  check := fun {t t' nv b n A P val r} ⟨i, hi, h, hT⟩ hP hA hc hk => by
    obtain ⟨t1, r1, h1, h2, h3⟩ := (V i).check h hT hP hA hc
    rw [hk] at h1
    injection h1 with h1; injection h1 with e1 e2
    subst e1 e2
    have hT' := (checkAll_spec (C i) hA hc _ hT hk).1
    exact ⟨fun hr => ⟨⟨i, hi, (h2 hr).1, hT'⟩, hD i _ (h2 hr).2.1⟩, fun cl hr => ⟨i, hi, (h3 cl hr).1, hT'⟩⟩
  check_ok := fun ⟨i, _, h, hT⟩ hP hA hc => by
    obtain ⟨t1, r1, h1, -⟩ := (V i).check h hT hP hA hc
    exact ⟨_, h1⟩

theorem checkAll_left_inv {m : Nat} {O1 : TheoryOps T1} {O2 : TheoryOps T2} {val : Lit → Option Bool} : ∀ (is : List Nat), (∀ i ∈ is, i < m) → ∀ {t t' : T1 × T2} {r},
    checkAll (O1.prod m O2) is t val = .ok (t', r) → checkAll O1 is t.1 val = .ok (t'.1, r) ∧ t'.2 = t.2 := by
  intro is
  induction is with
  | nil =>
    intro _ t t' r h
    injection h with h; injection h with h1 h2; subst h1 h2
    exact ⟨rfl, rfl⟩
  | cons i is ih =>
    intro hm t t' r h
    have hi := hm i (by simp)
    simp only [checkAll] at h ⊢
    match hk : O1.check i t.1 val with
    | .error e => simp [TheoryOps.prod, if_pos hi, hk] at h
    | .ok (u1, some cl) =>
      have e : (O1.prod m O2).check i t val = .ok ((u1, t.2), some cl) := by simp only [TheoryOps.prod, if_pos hi, hk]
      simp only [e] at h
      injection h with h; injection h with h1 h2; subst h1 h2
      exact ⟨rfl, rfl⟩
    | .ok (u1, none) =>
      have e : (O1.prod m O2).check i t val = .ok ((u1, t.2), none) := by simp only [TheoryOps.prod, if_pos hi, hk]
      simp only [e] at h
      exact ih (fun j hj => hm j (by simp [hj])) (t := (u1, t.2)) h

theorem checkAll_right_inv {m : Nat} {O1 : TheoryOps T1} {O2 : TheoryOps T2} {val : Lit → Option Bool} : ∀ (is : List Nat), ∀ {t t' : T1 × T2} {r},
    checkAll (O1.prod m O2) (is.map (· + m)) t val = .ok (t', r) → checkAll O2 is t.2 val = .ok (t'.2, r) ∧ t'.1 = t.1 := by
  intro is
  induction is with
  | nil =>
    intro t t' r h
    injection h with h; injection h with h1 h2; subst h1 h2
    exact ⟨rfl, rfl⟩
  | cons i is ih =>
    intro t t' r h
    have hi : ¬ i + m < m := by omega
    simp only [List.map_cons, checkAll] at h ⊢
    match hk : O2.check i t.2 val with
    | .error e => simp [TheoryOps.prod, if_neg hi, Nat.add_sub_cancel, hk] at h
    | .ok (u1, some cl) =>
      have e : (O1.prod m O2).check (i + m) t val = .ok ((t.1, u1), some cl) := by simp only [TheoryOps.prod, if_neg hi, Nat.add_sub_cancel, hk]
      simp only [e] at h
      injection h with h; injection h with h1 h2; subst h1 h2
      exact ⟨rfl, rfl⟩
    | .ok (u1, none) =>
      have e : (O1.prod m O2).check (i + m) t val = .ok ((t.1, u1), none) := by simp only [TheoryOps.prod, if_neg hi, Nat.add_sub_cancel, hk]
      simp only [e] at h
      exact ih (t := (t.1, u1)) h

/-- Two families of firm theories that listen to different variables. Compare `Live.prod`: the two need not be consistent with each other. -/
def Firm.prod (m : Nat) {O1 : TheoryOps T1} {O2 : TheoryOps T2} (K1 : Firm O1) (K2 : Firm O2) (hm : ∀ i ∈ O1.ids, i < m) : Firm (O1.prod m O2) where
  Done := fun t => K1.Done t.1 ∧ K2.Done t.2
  LI := fun t nv b n A P => K1.LI t.1 nv (bl m b) n A P ∧ K2.LI t.2 nv (br m b) n A P ∧ (∀ v, bl m b v = [] ∨ br m b v = []) ∧ Rising n A
  adv := fun h h1 h2 h3 h4 h5 => ⟨K1.adv h.1 h1 h2 h3 h4 h5, K2.adv h.2.1 h1 h2 h3 h4 h5, h.2.2.1, h.2.2.2.adv h2 h3⟩
  pop := fun {t t' nv b n A P} h hp => by
    simp only [TheoryOps.prod] at hp
    match hk1 : O1.pop t.1, hk2 : O2.pop t.2 with
    | .error e, _ => simp [hk1] at hp
    | .ok u1, .error e => simp [hk1, hk2] at hp
    | .ok u1, .ok u2 =>
      simp only [hk1, hk2] at hp
      injection hp with hp; subst hp
      exact ⟨K1.pop h.1 hk1, K2.pop h.2.1 hk2, h.2.2.1, fun i j q hij hj => h.2.2.2 i j q hij (by omega)⟩
  pop_ok := fun {t nv b n A P} h => by
    obtain ⟨u1, h1⟩ := K1.pop_ok h.1
    obtain ⟨u2, h2⟩ := K2.pop_ok h.2.1
    exact ⟨(u1, u2), by simp only [TheoryOps.prod, h1, h2]⟩
  push := fun h hP hA => ⟨K1.push h.1 hP hA, K2.push h.2.1 hP hA, h.2.2.1, h.2.2.2.push hA⟩
  prop := fun {t nv b n A P P1 val p} h hP hA hc hp => by
    obtain ⟨l1, l2, l3, l4⟩ := h
    rcases K1.prop l1 hP hA hc hp with ⟨a1, a2⟩ | ⟨i, a1, a2⟩
    · rcases K2.prop l2 hP hA hc hp with ⟨c1, c2⟩ | ⟨j, c1, c2⟩
      · exact .inl ⟨bl_br_nil a1 c1, a2, c2, l3, l4⟩
      · right
        refine ⟨j + m, by rw [only_right a1, c1]; rfl, ?_⟩
        have e : (O1.prod m O2).propagate (j + m) t val p = (O2.propagate j t.2 val p).map (fun u => (t.1, u)) := by
          simp only [TheoryOps.prod, if_neg (show ¬ j + m < m by omega), Nat.add_sub_cancel]
        rw [e]
        have hu : upd (bl m b) p.var [] = bl m b := by
          funext w
          by_cases hw : w = p.var
          · rw [hw, upd_self, a1]
          · rw [upd_ne _ _ hw]
        refine c2.map (J := fun A P => K1.LI t.1 nv (bl m b) n A P ∧ Rising n A) _ (fun u A P hq hJ => ⟨⟨hJ.1, hq.1, l3, hJ.2⟩, fun h0 => ⟨?_, ?_, fun v => ?_, hJ.2⟩⟩)
          (fun u A P hr hJ => ⟨K1.adv hJ.1 (Nat.le_refl _) (fun _ _ _ h => h) (fun _ _ _ h => h) (fun _ h => .inl h) (fun _ _ => trivial), hr, l3, hJ.2⟩)
          (fun A A' P P' hJ x1 x2 x3 x4 => ⟨K1.adv hJ.1 (Nat.le_refl _) x1 x2 x3 x4, hJ.2.adv x1 x2⟩) ⟨a2, l4⟩
        · rw [bl_upd, hu]; exact hJ.1
        · rw [br_upd]; exact hq.2 h0
        · rw [bl_upd, hu, br_upd]
          by_cases hw : v = p.var
          · rw [hw]; exact .inl a1
          · rw [upd_ne _ _ hw]; exact l3 v
    · have c1 : br m b p.var = [] := by
        rcases l3 p.var with h | h
        · rw [h] at a1; cases a1
        · exact h
      have hb : b p.var = [i] := by rw [← only_left c1, a1]
      have hi : i < m := by
        have : i ∈ bl m b p.var := by rw [a1]; simp
        simpa [bl] using (List.mem_filter.mp this).2
      rcases K2.prop l2 hP hA hc hp with ⟨-, c2⟩ | ⟨j, c2, -⟩
      · right
        refine ⟨i, hb, ?_⟩
        have e : (O1.prod m O2).propagate i t val p = (O1.propagate i t.1 val p).map (fun u => (u, t.2)) := by simp only [TheoryOps.prod, if_pos hi]
        rw [e]
        have hu : upd (br m b) p.var [] = br m b := by
          funext w
          by_cases hw : w = p.var
          · rw [hw, upd_self, c1]
          · rw [upd_ne _ _ hw]
        refine a2.map (J := fun A P => K2.LI t.2 nv (br m b) n A P ∧ Rising n A) _ (fun u A P hq hJ => ⟨⟨hq.1, hJ.1, l3, hJ.2⟩, fun h0 => ⟨?_, ?_, fun v => ?_, hJ.2⟩⟩)
          (fun u A P hr hJ => ⟨hr, K2.adv hJ.1 (Nat.le_refl _) (fun _ _ _ h => h) (fun _ _ _ h => h) (fun _ h => .inl h) (fun _ _ => trivial), l3, hJ.2⟩)
          (fun A A' P P' hJ x1 x2 x3 x4 => ⟨K2.adv hJ.1 (Nat.le_refl _) x1 x2 x3 x4, hJ.2.adv x1 x2⟩) ⟨c2, l4⟩
        · rw [bl_upd]; exact hq.2 h0
        · rw [br_upd, hu]; exact hJ.1
        · rw [br_upd, hu, bl_upd]
          by_cases hw : v = p.var
          · rw [hw]; exact .inr c1
          · rw [upd_ne _ _ hw]; exact l3 v
      · rw [c1] at c2; cases c2
  check := fun {t t' nv b n A P val r} h hP hA hc hk => by
    obtain ⟨l1, l2, l3, l4⟩ := h
    have full2 : ∀ {t2 : T2} {P}, K2.LI t2 nv (br m b) n A P → K2.LI t2 nv (br m b) n A (fun _ => True) := fun h =>
      K2.adv h (Nat.le_refl _) (fun _ _ _ h => h) (fun _ _ _ h => h) (fun _ h => .inl h) (fun _ _ => trivial)
    have full1 : ∀ {t1 : T1} {P}, K1.LI t1 nv (bl m b) n A P → K1.LI t1 nv (bl m b) n A (fun _ => True) := fun h =>
      K1.adv h (Nat.le_refl _) (fun _ _ _ h => h) (fun _ _ _ h => h) (fun _ h => .inl h) (fun _ _ => trivial)
    have hk : checkAll (O1.prod m O2) (O1.ids ++ O2.ids.map (· + m)) t val = .ok (t', r) := hk
    rw [checkAll_append] at hk
    match h1 : checkAll (O1.prod m O2) O1.ids t val with
    | .error e => simp [h1] at hk
    | .ok (u, some cl) =>
      simp only [h1] at hk
      injection hk with hk; injection hk with e1 e2; subst e1 e2
      obtain ⟨g1, g2⟩ := checkAll_left_inv _ hm h1
      refine ⟨fun h => (by cases h), fun cl' h => ⟨(K1.check l1 hP hA hc g1).2 cl' h, ?_, l3, l4⟩⟩
      rw [g2]; exact full2 l2
    | .ok (u, none) =>
      simp only [h1] at hk
      obtain ⟨g1, g2⟩ := checkAll_left_inv _ hm h1
      obtain ⟨f1, f2⟩ := checkAll_right_inv _ hk
      rw [g2] at f1
      have k1 := (K1.check l1 hP hA hc g1).1 rfl
      have k2 := K2.check l2 hP hA hc f1
      rw [← f2] at k1
      exact ⟨fun h => ⟨⟨k1.1, (k2.1 h).1, l3, l4⟩, k1.2, (k2.1 h).2⟩, fun cl' h => ⟨full1 k1.1, k2.2 cl' h, l3, l4⟩⟩
  check_ok := fun {t nv b n A P val} h hP hA hc => by
    obtain ⟨l1, l2, l3, l4⟩ := h
    obtain ⟨⟨u1, r1⟩, h1⟩ := K1.check_ok l1 hP hA hc
    obtain ⟨⟨u2, r2⟩, h2⟩ := K2.check_ok l2 hP hA hc
    show ∃ x, checkAll (O1.prod m O2) (O1.ids ++ O2.ids.map (· + m)) t val = .ok x
    rw [checkAll_append, checkAll_left _ hm h1]
    cases r1 with
    | some cl => exact ⟨_, rfl⟩
    | none => exact ⟨_, checkAll_right (t := (u1, t.2)) _ h2⟩

namespace Sat

/-- What does not concern the theories. -/
structure Sound (s : Sat T) : Prop where
  tw : s.TW
  lk : s.Lk
  qr : s.dl ≠ 0 → s.propQ = []

theorem Calm.sound {O : TheoryOps T} {K : Firm O} {s : Sat T} (h : s.Calm K) : s.Sound := ⟨h.tw, h.lk, h.qr⟩

theorem Sound.calm {O : TheoryOps T} {K : Firm O} {s : Sat T} (h : s.Sound) (hl : K.LI s.th s.nvars s.bounds s.dl s.tru (fun q => q ∈ s.propQ)) : s.Calm K := ⟨⟨h.tw, hl, h.lk⟩, h.qr⟩

theorem Sound.retheory {s : Sat T} (h : s.Sound) (t : T') (b : Nat → List Nat) : (s.retheory t b).Sound := by
  refine ⟨⟨h.tw.nv, h.tw.fv, h.tw.fvt, h.tw.rng, h.tw.tval, h.tw.tnd, h.tw.off, h.tw.tlv, h.tw.lims, h.tw.limle, h.tw.dec, h.tw.que, h.tw.crng, h.tw.wlt⟩, fun D hD => ?_, h.qr⟩
  rcases h.lk D hD with h1 | h1 | ⟨c, h1, h2⟩
  · exact .inl h1
  · exact .inr (.inl h1)
  · exact .inr (.inr ⟨c, ⟨h1.lt, h1.nd, h1.cnt, h1.wat⟩, h2⟩)

variable {m : Nat} {O1 : TheoryOps T1} {O2 : TheoryOps T2} {K1 K1' : Firm O1} {K2 K2' : Firm O2} {hm : ∀ i ∈ O1.ids, i < m} {S : Sat (T1 × T2)}

theorem Calm.left (h : S.Calm (K1.prod m K2 hm)) : (S.left m).Calm K1 := (h.sound.retheory S.th.1 (bl m S.bounds)).calm h.li.1

theorem Calm.right (h : S.Calm (K1.prod m K2 hm)) : (S.right m).Calm K2 := (h.sound.retheory S.th.2 (br m S.bounds)).calm h.li.2.1

theorem tru_rising (s : Sat T) (n : Nat) : Rising n s.tru := fun _ _ _ hij _ hq => ⟨hq.1, hq.2.trans hij⟩

/-- The theory of the first family has acted on its view. -/
theorem Calm.putL {s : Sat T1} (h : S.Calm (K1.prod m K2 hm)) (hs : s.Calm K1') (hM : (S.left m).Mild s) (hb : ∀ v, v < S.nvars → s.bounds v = (S.left m).bounds v)
    (hlt : ∀ v, ∀ i ∈ s.bounds v, i < m) (hfr : ∀ v, S.nvars ≤ v → br m S.bounds v = []) : (S.putL m s).Calm (K1'.prod m K2 hm) := by
  have e1 : bl m (bj m s.bounds (br m S.bounds)) = s.bounds := by
    rw [bl_bj]
    funext v
    exact List.filter_eq_self.mpr (fun i hi => by simpa using hlt v i hi)
  refine (hs.sound.retheory (s.th, S.th.2) (bj m s.bounds (br m S.bounds))).calm ⟨?_, ?_, fun v => ?_, tru_rising _ _⟩
  · show K1'.LI s.th s.nvars (bl m (bj m s.bounds (br m S.bounds))) s.dl s.tru _
    rw [e1]; exact hs.li
  · show K2.LI S.th.2 s.nvars (br m (bj m s.bounds (br m S.bounds))) s.dl s.tru (fun q => q ∈ s.propQ)
    rw [br_bj, show s.dl = S.dl from hM.dl]
    exact K2.adv h.li.2.1 hM.nv (fun i q _ hq => hM.up i q hq) (fun i q hi hq => hM.low i q hi hq) (fun q hq => hM.new q hq) hM.pen
  · show bl m (bj m s.bounds (br m S.bounds)) v = [] ∨ br m (bj m s.bounds (br m S.bounds)) v = []
    rw [e1, br_bj]
    by_cases hv : v < S.nvars
    · rw [hb v hv]; exact h.li.2.2.1 v
    · exact .inr (hfr v (by omega))

/-- The theory of the second family has acted on its view. -/
theorem Calm.putR {s : Sat T2} (h : S.Calm (K1.prod m K2 hm)) (hs : s.Calm K2') (hM : (S.right m).Mild s) (hb : ∀ v, v < S.nvars → s.bounds v = (S.right m).bounds v)
    (hfr : ∀ v, S.nvars ≤ v → bl m S.bounds v = []) : (S.putR m s).Calm (K1.prod m K2' hm) := by
  have e1 : bl m (bj m (bl m S.bounds) s.bounds) = bl m S.bounds := by
    rw [bl_bj]
    funext v
    exact List.filter_eq_self.mpr (fun i hi => (List.mem_filter.mp hi).2)
  refine (hs.sound.retheory (S.th.1, s.th) (bj m (bl m S.bounds) s.bounds)).calm ⟨?_, ?_, fun v => ?_, tru_rising _ _⟩
  · show K1.LI S.th.1 s.nvars (bl m (bj m (bl m S.bounds) s.bounds)) s.dl s.tru (fun q => q ∈ s.propQ)
    rw [e1, show s.dl = S.dl from hM.dl]
    exact K1.adv h.li.1 hM.nv (fun i q _ hq => hM.up i q hq) (fun i q hi hq => hM.low i q hi hq) (fun q hq => hM.new q hq) hM.pen
  · show K2'.LI s.th s.nvars (br m (bj m (bl m S.bounds) s.bounds)) s.dl s.tru _
    rw [br_bj]; exact hs.li
  · show bl m (bj m (bl m S.bounds) s.bounds) v = [] ∨ br m (bj m (bl m S.bounds) s.bounds) v = []
    rw [e1, br_bj]
    by_cases hv : v < S.nvars
    · rw [hb v hv]; exact h.li.2.2.1 v
    · exact .inl (hfr v (by omega))

end Sat
end Semitone
