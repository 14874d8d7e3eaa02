import Verif.Sat.Restrict
import Verif.Sat.Mild
import Verif.Sat.Guarded

/-!
# Two families of theories on one core

`sat_core` keeps a vector of theories (`sat_core.h:167`) and, for each variable, the theories bound to it (`sat_core.h:168`): several theories can be attached to the same core. Here
the state of the theories is a pair; the theories of the first family have the identifiers `< m`, those of the second family are shifted by `m`.
-/
namespace Semitone

variable {T T' T1 T2 : Type}

/-- What a theory does, seen in a larger state. -/
def TAct.map (f : T → T') : TAct T → TAct T'
  | .ok t => .ok (f t)
  | .confl t cl => .confl (f t) cl
  | .record cl k => .record cl (fun v => (k v).map f)
  | .fail e => .fail e

/-- The two families together: each theory is told its own literals (`sat_core.cpp:431-446`), the checks are done one after the other (`sat_core.cpp:453-465`), `push` and `pop` go to all of them
(`sat_core.cpp:361`, `sat_core.cpp:630`). -/
def TheoryOps.prod (m : Nat) (O1 : TheoryOps T1) (O2 : TheoryOps T2) : TheoryOps (T1 × T2) where
  ids := O1.ids ++ O2.ids.map (· + m)
  propagate := fun i t v p => if i < m then (O1.propagate i t.1 v p).map (fun u => (u, t.2)) else (O2.propagate (i - m) t.2 v p).map (fun u => (t.1, u))
  check := fun i t v =>
    if i < m then
      match O1.check i t.1 v with
      | .error e => .error e
      | .ok (u, r) => .ok ((u, t.2), r)
    else
      match O2.check (i - m) t.2 v with
      | .error e => .error e
      | .ok (u, r) => .ok ((t.1, u), r)
  push := fun t => (O1.push t.1, O2.push t.2)
  pop := fun t =>
    match O1.pop t.1 with
    | .error e => .error e
    | .ok u1 =>
      match O2.pop t.2 with
      | .error e => .error e
      | .ok u2 => .ok (u1, u2)

/-! ### Soundness -/

theorem ActOK.map1 {Th1 : T1 → Asg → Prop} {TI1 : T1 → Nat → (Nat → Lit → Prop) → Prop} {Th2 : T2 → Asg → Prop} {TI2 : T2 → Nat → (Nat → Lit → Prop) → Prop} {t1 : T1} {t2 : T2} {n : Nat}
    (mono : ∀ A A', TI2 t2 n A → (∀ i, i ≤ n → ∀ q, A i q → A' i q) → TI2 t2 n A') {A : Nat → Lit → Prop} {a : TAct T1} (h : ActOK Th1 TI1 t1 n A a) (h2 : TI2 t2 n A) :
    ActOK (fun (t : T1 × T2) α => Th1 t.1 α ∧ Th2 t.2 α) (fun t n A => TI1 t.1 n A ∧ TI2 t.2 n A) (t1, t2) n A (a.map (fun u => (u, t2))) := by
  induction h with
  | ok a b => exact .ok ⟨a, h2⟩ (fun α => and_congr_left' (b α))
  | confl a b c d => exact .confl ⟨a, h2⟩ (fun α => and_congr_left' (b α)) (fun α h => c α h.1) d
  | record a _ ih => exact .record (fun α h => a α h.1) (fun A' v x y z => ih A' v x y z (mono _ _ h2 x))
  | fail => exact .fail

theorem ActOK.map2 {Th1 : T1 → Asg → Prop} {TI1 : T1 → Nat → (Nat → Lit → Prop) → Prop} {Th2 : T2 → Asg → Prop} {TI2 : T2 → Nat → (Nat → Lit → Prop) → Prop} {t1 : T1} {t2 : T2} {n : Nat}
    (mono : ∀ A A', TI1 t1 n A → (∀ i, i ≤ n → ∀ q, A i q → A' i q) → TI1 t1 n A') {A : Nat → Lit → Prop} {a : TAct T2} (h : ActOK Th2 TI2 t2 n A a) (h1 : TI1 t1 n A) :
    ActOK (fun (t : T1 × T2) α => Th1 t.1 α ∧ Th2 t.2 α) (fun t n A => TI1 t.1 n A ∧ TI2 t.2 n A) (t1, t2) n A (a.map (fun u => (t1, u))) := by
  induction h with
  | ok a b => exact .ok ⟨h1, a⟩ (fun α => and_congr_right' (b α))
  | confl a b c d => exact .confl ⟨h1, a⟩ (fun α => and_congr_right' (b α)) (fun α h => c α h.2) d
  | record a _ ih => exact .record (fun α h => a α h.2) (fun A' v x y z => ih A' v x y z (mono _ _ h1 x))
  | fail => exact .fail

/-- The contracts of the two families make the contract of both. -/
def Contract.prod (m : Nat) {O1 : TheoryOps T1} {O2 : TheoryOps T2} (C1 : Contract O1) (C2 : Contract O2) : Contract (O1.prod m O2) where
  Th := fun t α => C1.Th t.1 α ∧ C2.Th t.2 α
  TI := fun t n A => C1.TI t.1 n A ∧ C2.TI t.2 n A
  mono := fun t n A A' h hA => ⟨C1.mono _ _ _ _ h.1 hA, C2.mono _ _ _ _ h.2 hA⟩
  prop := fun i t n A val p hi h1 h2 h3 => by
    simp only [TheoryOps.prod]
    split
    · exact (C1.prop i t.1 n A val p hi.1 h1 h2 h3).map1 (fun A A' => C2.mono _ _ A A') hi.2
    · exact (C2.prop (i - m) t.2 n A val p hi.2 h1 h2 h3).map2 (fun A A' => C1.mono _ _ A A') hi.1
  check := fun i t n A val t' r hi h1 h2 h3 => by
    simp only [TheoryOps.prod] at h3
    split at h3
    · match hk : O1.check i t.1 val with
      | .error e => simp [hk] at h3
      | .ok (u, r') =>
        simp only [hk] at h3
        injection h3 with h3; injection h3 with e1 e2; subst e1 e2
        obtain ⟨a, b, c⟩ := C1.check i t.1 n A val u r' hi.1 h1 h2 hk
        exact ⟨⟨a, hi.2⟩, fun α => and_congr_left' (b α), fun cl hcl => ⟨fun α hα => (c cl hcl).1 α hα.1, (c cl hcl).2⟩⟩
    · match hk : O2.check (i - m) t.2 val with
      | .error e => simp [hk] at h3
      | .ok (u, r') =>
        simp only [hk] at h3
        injection h3 with h3; injection h3 with e1 e2; subst e1 e2
        obtain ⟨a, b, c⟩ := C2.check (i - m) t.2 n A val u r' hi.2 h1 h2 hk
        exact ⟨⟨hi.1, a⟩, fun α => and_congr_right' (b α), fun cl hcl => ⟨fun α hα => (c cl hcl).1 α hα.2, (c cl hcl).2⟩⟩
  push := fun t n A hi hA =>
    ⟨⟨(C1.push t.1 n A hi.1 hA).1, (C2.push t.2 n A hi.2 hA).1⟩, fun α => and_congr ((C1.push t.1 n A hi.1 hA).2 α) ((C2.push t.2 n A hi.2 hA).2 α)⟩
  pop := fun t t' n A hi hp => by
    simp only [TheoryOps.prod] at hp
    match hk1 : O1.pop t.1, hk2 : O2.pop t.2 with
    | .error e, _ => simp [hk1] at hp
    | .ok u1, .error e => simp [hk1, hk2] at hp
    | .ok u1, .ok u2 =>
      simp only [hk1, hk2] at hp
      injection hp with hp; subst hp
      exact ⟨⟨(C1.pop _ _ n A hi.1 hk1).1, (C2.pop _ _ n A hi.2 hk2).1⟩, fun α => and_congr ((C1.pop _ _ n A hi.1 hk1).2 α) ((C2.pop _ _ n A hi.2 hk2).2 α)⟩

/-! ### Guards -/

theorem TAct.map_fail (f : T → T') (e : Err) : (TAct.fail e : TAct T).map f = .fail e := rfl

/-- Excluding propagations of the second family. -/
theorem Guards.prod {m : Nat} {O1 : TheoryOps T1} {O2 O2' : TheoryOps T2} {e0 : Err} (h : Guards O2 O2' e0) : Guards (O1.prod m O2) (O1.prod m O2') e0 := by
  refine ⟨?_, ?_, ?_, ?_, fun i t v p => ?_⟩
  · simp only [TheoryOps.prod, h.ids]
  · simp only [TheoryOps.prod, h.check]
  · simp only [TheoryOps.prod, h.push]
  · simp only [TheoryOps.prod, h.pop]
  · simp only [TheoryOps.prod]
    split
    · exact .inr rfl
    · rcases h.prop (i - m) t.2 v p with e | e
      · left; rw [e]; rfl
      · right; rw [e]

/-! ### Checks -/

theorem checkAll_append {O : TheoryOps T} {val : Lit → Option Bool} : ∀ (is js : List Nat) (t : T), checkAll O (is ++ js) t val =
    match checkAll O is t val with
    | .error e => .error e
    | .ok (t, some cl) => .ok (t, some cl)
    | .ok (t, none) => checkAll O js t val := by
  intro is js
  induction is with
  | nil => intro t; rfl
  | cons i is ih =>
    intro t
    simp only [List.cons_append, checkAll]
    match O.check i t val with
    | .error e => rfl
    | .ok (u, some cl) => rfl
    | .ok (u, none) => exact ih u

theorem checkAll_left {m : Nat} {O1 : TheoryOps T1} {O2 : TheoryOps T2} {val : Lit → Option Bool} : ∀ (is : List Nat), (∀ i ∈ is, i < m) → ∀ {t : T1 × T2} {u r},
    checkAll O1 is t.1 val = .ok (u, r) → checkAll (O1.prod m O2) is t val = .ok ((u, t.2), r) := by
  intro is
  induction is with
  | nil =>
    intro _ t u r h
    injection h with h; injection h with h1 h2; subst h1 h2
    rfl
  | cons i is ih =>
    intro hm t u r h
    have hi := hm i (by simp)
    simp only [checkAll] at h ⊢
    match hk : O1.check i t.1 val with
    | .error e => simp [hk] at h
    | .ok (u1, some cl) =>
      simp only [hk] at h
      injection h with h; injection h with h1 h2; subst h1 h2
      simp only [TheoryOps.prod, if_pos hi, hk]
    | .ok (u1, none) =>
      simp only [hk] at h
      have e : (O1.prod m O2).check i t val = .ok ((u1, t.2), none) := by simp only [TheoryOps.prod, if_pos hi, hk]
      simp only [e]
      exact ih (fun j hj => hm j (by simp [hj])) (t := (u1, t.2)) h

theorem checkAll_right {m : Nat} {O1 : TheoryOps T1} {O2 : TheoryOps T2} {val : Lit → Option Bool} : ∀ (is : List Nat), ∀ {t : T1 × T2} {u r},
    checkAll O2 is t.2 val = .ok (u, r) → checkAll (O1.prod m O2) (is.map (· + m)) t val = .ok ((t.1, u), r) := by
  intro is
  induction is with
  | nil =>
    intro t u r h
    injection h with h; injection h with h1 h2; subst h1 h2
    rfl
  | cons i is ih =>
    intro t u r h
    have hi : ¬ i + m < m := by omega
    simp only [List.map_cons, checkAll] at h ⊢
    match hk : O2.check i t.2 val with
    | .error e => simp [hk] at h
    | .ok (u1, some cl) =>
      simp only [hk] at h
      injection h with h; injection h with h1 h2; subst h1 h2
      simp only [TheoryOps.prod, if_neg hi, Nat.add_sub_cancel, hk]
    | .ok (u1, none) =>
      simp only [hk] at h
      have e : (O1.prod m O2).check (i + m) t val = .ok ((t.1, u1), none) := by simp only [TheoryOps.prod, if_neg hi, Nat.add_sub_cancel, hk]
      simp only [e]
      exact ih (t := (t.1, u1)) h

/-! ### Who listens -/

/-- The theories of the first family that listen to each variable. -/
def bl (m : Nat) (b : Nat → List Nat) (v : Nat) : List Nat := (b v).filter (fun i => decide (i < m))

/-- Those of the second family. -/
def br (m : Nat) (b : Nat → List Nat) (v : Nat) : List Nat := ((b v).filter (fun i => decide (m ≤ i))).map (· - m)

/-- The two together. -/
def bj (m : Nat) (b1 b2 : Nat → List Nat) (v : Nat) : List Nat := (b1 v).filter (fun i => decide (i < m)) ++ (b2 v).map (· + m)

theorem bl_upd (m : Nat) (b : Nat → List Nat) (v : Nat) : bl m (upd b v []) = upd (bl m b) v [] := by
  funext w
  simp only [bl, upd]
  split <;> rfl

theorem br_upd (m : Nat) (b : Nat → List Nat) (v : Nat) : br m (upd b v []) = upd (br m b) v [] := by
  funext w
  simp only [br, upd]
  split <;> rfl

theorem bl_bj (m : Nat) (b1 b2 : Nat → List Nat) : bl m (bj m b1 b2) = bl m b1 := by
  funext v
  simp only [bl, bj, List.filter_append, List.filter_filter, Bool.and_self]
  have e : ((b2 v).map (· + m)).filter (fun i => decide (i < m)) = [] := List.filter_eq_nil_iff.mpr (fun i hi => by
    obtain ⟨j, -, rfl⟩ := List.mem_map.mp hi
    simp)
  rw [e, List.append_nil]

theorem br_bj (m : Nat) (b1 b2 : Nat → List Nat) : br m (bj m b1 b2) = b2 := by
  funext v
  simp only [br, bj, List.filter_append, List.filter_filter]
  have e1 : (b1 v).filter (fun a => decide (m ≤ a) && decide (a < m)) = [] := List.filter_eq_nil_iff.mpr (fun i _ => by simp)
  have e2 : ((b2 v).map (· + m)).filter (fun i => decide (m ≤ i)) = (b2 v).map (· + m) := List.filter_eq_self.mpr (fun i hi => by
    obtain ⟨j, -, rfl⟩ := List.mem_map.mp hi
    simp)
  rw [e1, e2, List.nil_append, List.map_map]
  have : ((fun x => x - m) ∘ fun x => x + m) = id := by funext x; simp
  rw [this, List.map_id]

theorem bl_br_nil {m : Nat} {b : Nat → List Nat} {v : Nat} (h1 : bl m b v = []) (h2 : br m b v = []) : b v = [] := by
  cases hb : b v with
  | nil => rfl
  | cons i is =>
    exfalso
    simp only [bl, br, hb, List.filter_eq_nil_iff, List.map_eq_nil_iff] at h1 h2
    have a := h1 i (by simp)
    have c := h2 i (by simp)
    simp at a c
    omega

theorem only_left {m : Nat} {b : Nat → List Nat} {v : Nat} (h2 : br m b v = []) : bl m b v = b v := by
  simp only [bl, br, List.filter_eq_nil_iff, List.map_eq_nil_iff] at h2 ⊢
  refine List.filter_eq_self.mpr (fun i hi => ?_)
  have := h2 i hi
  simp at this ⊢
  exact this

theorem only_right {m : Nat} {b : Nat → List Nat} {v : Nat} (h1 : bl m b v = []) : b v = (br m b v).map (· + m) := by
  simp only [bl, br, List.filter_eq_nil_iff] at h1 ⊢
  have e : (b v).filter (fun i => decide (m ≤ i)) = b v := List.filter_eq_self.mpr (fun i hi => by have := h1 i hi; simp at this ⊢; exact this)
  rw [e, List.map_map]
  symm
  conv_rhs => rw [← List.map_id (b v)]
  refine List.map_congr_left (fun i hi => ?_)
  have := h1 i hi
  simp at this ⊢
  omega

/-! ### Liveness -/

theorem ActLive.map {F1 F : Err → Prop} {Q1 : T → (Nat → Lit → Prop) → (Lit → Prop) → Prop} {R1 : T → (Nat → Lit → Prop) → Prop} {Q : T' → (Nat → Lit → Prop) → (Lit → Prop) → Prop}
    {R : T' → (Nat → Lit → Prop) → Prop} {J : (Nat → Lit → Prop) → (Lit → Prop) → Prop} {n nv : Nat} {p : Lit} (f : T → T') (hF : ∀ e, F1 e → F e) (hQ : ∀ t A P, Q1 t A P → J A P → Q (f t) A P)
    (hR : ∀ t A P, R1 t A → J A P → R (f t) A)
    (hJ : ∀ A A' P P', J A P → (∀ i q, i ≤ n → A i q → A' i q) → (∀ i q, i < n → A' i q → A i q) → (∀ q, A' n q → A n q ∨ P' q) → (∀ q, P q → P' q) → J A' P')
    {A : Nat → Lit → Prop} {P : Lit → Prop} {val : Lit → Option Bool} {a : TAct T} (h : ActLive F1 Q1 R1 n nv p A P val a) (hj : J A P) : ActLive F Q R n nv p A P val (a.map f) := by
  induction h with
  | ok a => exact .ok (hQ _ _ _ a hj)
  | confl a b c => exact .confl (hR _ _ _ a hj) b c
  | fail a => exact .fail (hF _ a)
  | record a b c d e _ ih =>
    refine .record a b c d e (fun A' P' v x1 x2 x3 x4 x5 x6 x7 x8 => ih A' P' v x1 x2 x3 x4 x5 x6 x7 x8 (hJ _ _ _ _ hj x1 x2 (fun q hq => ?_) x5))
    rcases x3 q hq with h | h
    · exact .inl h
    · subst h; exact .inr x6

/-- Consistent literals of the two families, with what is true at root level among them, are consistent together: the two families speak about different variables. -/
def Joins {O1 : TheoryOps T1} {O2 : TheoryOps T2} (C1 : Contract O1) (C2 : Contract O2) : Prop :=
  ∀ t1 t2 n A (B : Lit → Prop), C1.TI t1 n A → C2.TI t2 n A → (∀ q, A 0 q → B q) → ∀ α1 α2, C1.Th t1 α1 → C2.Th t2 α2 → (∀ q, B q → α1.sat q) → (∀ q, B q → α2.sat q) →
    ∃ α, C1.Th t1 α ∧ C2.Th t2 α ∧ ∀ q, B q → α.sat q

/-- What is true at a level is true at the levels above. -/
def Rising (n : Nat) (A : Nat → Lit → Prop) : Prop := ∀ i j q, i ≤ j → j ≤ n → A i q → A j q

theorem Rising.adv {n : Nat} {A A' : Nat → Lit → Prop} (h : Rising n A) (h1 : ∀ i q, i ≤ n → A i q → A' i q) (h2 : ∀ i q, i < n → A' i q → A i q) : Rising n A' := by
  intro i j q hij hj hq
  rcases Nat.lt_or_ge i j with hlt | hge
  · exact h1 j q hj (h i j q hij hj (h2 i q (by omega) hq))
  · have : i = j := by omega
    rwa [← this]

theorem Rising.push {n : Nat} {A : Nat → Lit → Prop} (h : Rising n A) (hA : ∀ q, A (n + 1) q ↔ A n q) : Rising (n + 1) A := by
  intro i j q hij hj hq
  by_cases e : j = n + 1
  · subst e
    by_cases e : i = n + 1
    · rwa [← e]
    · exact (hA q).mpr (h i n q (by omega) (Nat.le_refl _) hq)
  · exact h i j q hij (by omega) hq

/-- Two families that speak about different variables keep the core going together. -/
def Live.prod (m : Nat) {O1 : TheoryOps T1} {O2 : TheoryOps T2} {C1 : Contract O1} {C2 : Contract O2} (V1 : Live C1) (V2 : Live C2) (hm : ∀ i ∈ O1.ids, i < m) (hj : Joins C1 C2) :
    Live (Contract.prod m C1 C2) where
  F := fun e => V1.F e ∨ V2.F e
  Done := fun t => V1.Done t.1 ∧ V2.Done t.2
  LI := fun t nv b n A P => V1.LI t.1 nv (bl m b) n A P ∧ V2.LI t.2 nv (br m b) n A P ∧ (∀ v, bl m b v = [] ∨ br m b v = []) ∧ Rising n A
  adv := fun h h1 h2 h3 h4 h5 => ⟨V1.adv h.1 h1 h2 h3 h4 h5, V2.adv h.2.1 h1 h2 h3 h4 h5, h.2.2.1, h.2.2.2.adv h2 h3⟩
  pop := fun h => by
    obtain ⟨u1, a1, b1⟩ := V1.pop h.1
    obtain ⟨u2, a2, b2⟩ := V2.pop h.2.1
    exact ⟨(u1, u2), by simp only [TheoryOps.prod, a1, a2], b1, b2, h.2.2.1, fun i j q hij hj => h.2.2.2 i j q hij (by omega)⟩
  push := fun h hP hA => ⟨V1.push h.1 hP hA, V2.push h.2.1 hP hA, h.2.2.1, h.2.2.2.push hA⟩
  prop := fun {t nv b n A P P1 val p} h hT hP hA hc hp => by
    obtain ⟨l1, l2, l3, l4⟩ := h
    rcases V1.prop l1 hT.1 hP hA hc hp with ⟨a1, a2⟩ | ⟨i, a1, a2⟩
    · rcases V2.prop l2 hT.2 hP hA hc hp with ⟨c1, c2⟩ | ⟨j, c1, c2⟩
      · exact .inl ⟨bl_br_nil a1 c1, a2, c2, l3, l4⟩
      · right
        refine ⟨j + m, by rw [only_right a1, c1]; rfl, ?_⟩
        have e : (O1.prod m O2).propagate (j + m) t val p = (O2.propagate j t.2 val p).map (fun u => (t.1, u)) := by
          simp only [TheoryOps.prod, if_neg (show ¬ j + m < m by omega), Nat.add_sub_cancel]
        rw [e]
        have hu : upd (bl m b) p.var [] = bl m b := by
          funext w
          by_cases hw : w = p.var
          · rw [hw, upd_self, a1]
          · rw [upd_ne _ _ hw]
        refine c2.map (J := fun A P => V1.LI t.1 nv (bl m b) n A P ∧ Rising n A) _ (fun _ => .inr) (fun u A P hq hJ => ⟨⟨hJ.1, hq.1, l3, hJ.2⟩, fun h0 => ⟨?_, ?_, fun v => ?_, hJ.2⟩⟩)
          (fun u A P hr hJ => ⟨V1.adv hJ.1 (Nat.le_refl _) (fun _ _ _ h => h) (fun _ _ _ h => h) (fun _ h => .inl h) (fun _ _ => trivial), hr, l3, hJ.2⟩)
          (fun A A' P P' hJ x1 x2 x3 x4 => ⟨V1.adv hJ.1 (Nat.le_refl _) x1 x2 x3 x4, hJ.2.adv x1 x2⟩) ⟨a2, l4⟩
        · rw [bl_upd, hu]; exact hJ.1
        · rw [br_upd]; exact hq.2 h0
        · rw [bl_upd, hu, br_upd]
          by_cases hw : v = p.var
          · rw [hw]; exact .inl a1
          · rw [upd_ne _ _ hw]; exact l3 v
    · have c1 : br m b p.var = [] := by
        rcases l3 p.var with h | h
        · rw [h] at a1; cases a1
        · exact h
      have hb : b p.var = [i] := by rw [← only_left c1, a1]
      have hi : i < m := by
        have : i ∈ bl m b p.var := by rw [a1]; simp
        simpa [bl] using (List.mem_filter.mp this).2
      rcases V2.prop l2 hT.2 hP hA hc hp with ⟨-, c2⟩ | ⟨j, c2, -⟩
      · right
        refine ⟨i, hb, ?_⟩
        have e : (O1.prod m O2).propagate i t val p = (O1.propagate i t.1 val p).map (fun u => (u, t.2)) := by simp only [TheoryOps.prod, if_pos hi]
        rw [e]
        have hu : upd (br m b) p.var [] = br m b := by
          funext w
          by_cases hw : w = p.var
          · rw [hw, upd_self, c1]
          · rw [upd_ne _ _ hw]
        refine a2.map (J := fun A P => V2.LI t.2 nv (br m b) n A P ∧ Rising n A) _ (fun _ => .inl) (fun u A P hq hJ => ⟨⟨hq.1, hJ.1, l3, hJ.2⟩, fun h0 => ⟨?_, ?_, fun v => ?_, hJ.2⟩⟩)
          (fun u A P hr hJ => ⟨hr, V2.adv hJ.1 (Nat.le_refl _) (fun _ _ _ h => h) (fun _ _ _ h => h) (fun _ h => .inl h) (fun _ _ => trivial), l3, hJ.2⟩)
          (fun A A' P P' hJ x1 x2 x3 x4 => ⟨V2.adv hJ.1 (Nat.le_refl _) x1 x2 x3 x4, hJ.2.adv x1 x2⟩) ⟨c2, l4⟩
        · rw [bl_upd]; exact hq.2 h0
        · rw [br_upd, hu]; exact hJ.1
        · rw [br_upd, hu, bl_upd]
          by_cases hw : v = p.var
          · rw [hw]; exact .inr c1
          · rw [upd_ne _ _ hw]; exact l3 v
      · rw [c1] at c2; cases c2
  check := fun {t nv b n A P val} h hT hP hA hc => by
    obtain ⟨l1, l2, l3, l4⟩ := h
    have full : ∀ {t2 : T2}, V2.LI t2 nv (br m b) n A P → V2.LI t2 nv (br m b) n A (fun _ => True) := fun h =>
      V2.adv h (Nat.le_refl _) (fun _ _ _ h => h) (fun _ _ _ h => h) (fun _ h => .inl h) (fun _ _ => trivial)
    obtain ⟨u1, r1, a1, a2, a3⟩ := V1.check l1 hT.1 hP hA hc
    obtain ⟨k1, k2, -⟩ := checkAll_spec C1 hA hc _ hT.1 a1
    obtain ⟨u2, r2, c1, c2, c3⟩ := V2.check l2 hT.2 hP hA hc
    obtain ⟨k3, k4, -⟩ := checkAll_spec C2 hA hc _ hT.2 c1
    have e1 := checkAll_left (O2 := O2) O1.ids hm a1
    have e2 := checkAll_right (m := m) (O1 := O1) (t := (u1, t.2)) O2.ids c1
    cases r1 with
    | some cl =>
      refine ⟨(u1, t.2), some cl, by simp only [TheoryOps.prod] at e1 ⊢; rw [checkAll_append, e1], (fun h => by cases h), fun cl' h => ?_⟩
      exact ⟨⟨(a3 cl' h).1, full l2, l3, l4⟩, (a3 cl' h).2⟩
    | none =>
      obtain ⟨g1, g2, α1, g3, g4⟩ := a2 rfl
      refine ⟨(u1, u2), r2, by simp only [TheoryOps.prod] at e1 e2 ⊢; rw [checkAll_append, e1]; exact e2, fun h => ?_, fun cl' h => ?_⟩
      · obtain ⟨f1, f2, α2, f3, f4⟩ := c2 h
        obtain ⟨α, w1, w2, w3⟩ := hj u1 u2 n A (A n) k1 k3 (fun q h => l4 0 n q (Nat.zero_le _) (Nat.le_refl _) h) α1 α2 g3 f3 g4 f4
        exact ⟨⟨g1, f1, l3, l4⟩, ⟨g2, f2⟩, α, ⟨w1, w2⟩, w3⟩
      · refine ⟨⟨V1.adv g1 (Nat.le_refl _) (fun _ _ _ h => h) (fun _ _ _ h => h) (fun _ h => .inl h) (fun _ _ => trivial), (c3 cl' h).1, l3, l4⟩, (c3 cl' h).2⟩

end Semitone
