import Verif.LRA.PropsE
import Verif.Sat.Keep

/-!
# Value listeners of the linear-arithmetic theory: C58

`lra_theory::listen`, `lra_value_listener`. A listener reads the value of the variable when `lra_value_change` is called.
-/
namespace Semitone
namespace LRA
open Lin
variable {E : LEnv} {t t' t'' : LRA}

/-- The value that listener `l` read at the last of the calls `l->lra_value_change(v)` in `N` (newest first). -/
def lastRead (l v : Nat) (N : List (Nat × Nat × IQ)) : Option IQ := (N.find? (fun e => e.1 == l && e.2.1 == v)).map (fun e => e.2.2)

theorem lastRead_append (l v : Nat) (N M : List (Nat × Nat × IQ)) : lastRead l v (N ++ M) = (lastRead l v N).or (lastRead l v M) := by
  unfold lastRead
  rw [List.find?_append]
  cases N.find? (fun e => e.1 == l && e.2.1 == v) <;> rfl

/-- Between two states: registrations are kept, only registered listeners are called, and for every listener registered on `v` before: the value it read last since then, or the
value before if it was not called, is the current value of `v`. -/
structure Tells (t t' : LRA) : Prop where
  n : t.n ≤ t'.n
  lst : ∀ l v, l ∈ t.lst v → l ∈ t'.lst v
  told : ∃ N, t'.told = N ++ t.told ∧ (∀ e ∈ N, e.1 ∈ t'.lst e.2.1) ∧ ∀ l v, v < t.n → l ∈ t.lst v → (lastRead l v N).getD (t.vals v) = t'.vals v

theorem Tells.quiet (h1 : t.n ≤ t'.n) (h2 : ∀ l v, l ∈ t.lst v → l ∈ t'.lst v) (h3 : t'.told = t.told) (h4 : ∀ v, v < t.n → t'.vals v = t.vals v) : Tells t t' :=
  ⟨h1, h2, [], h3, (fun e he => by cases he), fun l v hv _ => (h4 v hv).symm⟩

theorem Tells.refl (t : LRA) : Tells t t := .quiet (Nat.le_refl _) (fun _ _ h => h) rfl (fun _ _ => rfl)

theorem Tells.trans (h1 : Tells t t') (h2 : Tells t' t'') : Tells t t'' := by
  obtain ⟨n1, l1, N1, a1, b1, c1⟩ := h1
  obtain ⟨n2, l2, N2, a2, b2, c2⟩ := h2
  refine ⟨n1.trans n2, fun l v h => l2 l v (l1 l v h), N2 ++ N1, by rw [a2, a1, List.append_assoc], fun e he => ?_, fun l v hv hl => ?_⟩
  · rcases List.mem_append.mp he with he | he
    · exact b2 e he
    · exact l2 _ _ (b1 e he)
  · have x := c1 l v hv hl
    have y := c2 l v (hv.trans_le n1) (l1 l v hl)
    rw [lastRead_append]
    cases e : lastRead l v N2 with
    | none =>
      rw [e] at y
      rw [Option.none_or, x]
      exact y
    | some z =>
      rw [e] at y
      exact y

/-- One variable gets a new value and its listeners are told. -/
theorem tells_upd (t : LRA) (v : Nat) (a : IQ) (vals : Nat → IQ) (T : List (Nat × Nat × IQ)) :
    Tells { t with vals := vals, told := T } { t with vals := upd vals v a, told := t.tell v a T } := by
  refine ⟨Nat.le_refl _, fun _ _ h => h, (t.lst v).map (fun l => (l, v, a)), rfl, fun e he => ?_, fun l w hw hl => ?_⟩
  · obtain ⟨l, hl, rfl⟩ := List.mem_map.mp he
    exact hl
  · show (lastRead l w ((t.lst v).map (fun l => (l, v, a)))).getD (vals w) = upd vals v a w
    by_cases hwv : w = v
    · subst hwv
      rw [upd_self]
      unfold lastRead
      cases hf : ((t.lst w).map (fun l => (l, w, a))).find? (fun e => e.1 == l && e.2.1 == w) with
      | none =>
        rw [List.find?_eq_none] at hf
        have := hf (l, w, a) (List.mem_map.mpr ⟨l, hl, rfl⟩)
        simp at this
      | some e =>
        have := List.mem_of_find?_eq_some hf
        obtain ⟨k, hk, rfl⟩ := List.mem_map.mp this
        rfl
    · rw [upd_ne _ _ hwv]
      unfold lastRead
      have : ((t.lst v).map (fun l => (l, v, a))).find? (fun e => e.1 == l && e.2.1 == w) = none := by
        rw [List.find?_eq_none]
        intro e he
        obtain ⟨k, hk, rfl⟩ := List.mem_map.mp he
        have : ¬ v = w := fun e => hwv e.symm
        simp [this]
      rw [this]
      rfl

theorem updRows_tells (t : LRA) (x : Nat) (v : IQ) : ∀ (rs : List Nat) (s r : (Nat → IQ) × List (Nat × Nat × IQ)), t.updRows x v rs s = .ok r →
    Tells { t with vals := s.1, told := s.2 } { t with vals := r.1, told := r.2 }
  | [], s, r, h => by injection h with h; subst h; exact .refl _
  | q :: rs, s, r, h => by
    unfold updRows at h
    split at h
    · cases h
    · exact (tells_upd t q _ s.1 s.2).trans (updRows_tells t x v rs _ r h)

theorem update_tells {x : Nat} {v : IQ} (h : t.update E x v = .ok t') : Tells t t' := by
  unfold update at h
  split at h
  · cases h
  · split at h
    · cases h
    · next r hr =>
      injection h with h
      subst h
      exact (updRows_tells t x v _ _ r hr).trans (tells_upd t x v r.1 r.2)

theorem shiftRows_tells (t : LRA) (xi xj : Nat) (θ : IQ) : ∀ (rs : List Nat) (s r : (Nat → IQ) × List (Nat × Nat × IQ)), t.shiftRows xi xj θ rs s = .ok r →
    Tells { t with vals := s.1, told := s.2 } { t with vals := r.1, told := r.2 }
  | [], s, r, h => by injection h with h; subst h; exact .refl _
  | q :: rs, s, r, h => by
    unfold shiftRows at h
    split at h
    · exact shiftRows_tells t xi xj θ rs s r h
    · split at h
      · cases h
      · exact (tells_upd t q _ s.1 s.2).trans (shiftRows_tells t xi xj θ rs _ r h)

theorem pivot_tells {xi xj : Nat} (h : t.pivot E xi xj = .ok t') : Tells t t' := by
  unfold pivot at h
  split at h
  · cases h
  · simp only at h
    split at h
    · cases h
    · split at h
      · cases h
      · injection h with h
        subst h
        exact .quiet (Nat.le_refl _) (fun _ _ h => h) rfl (fun _ _ => rfl)

theorem pivotAndUpdate_tells {xi xj : Nat} {v : IQ} (h : t.pivotAndUpdate E xi xj v = .ok t') : Tells t t' := by
  unfold pivotAndUpdate at h
  split at h
  · cases h
  · next a _ =>
    split at h
    · cases h
    · simp only at h
      split at h
      · cases h
      · next r hr =>
        have a1 := tells_upd t xi v t.vals t.told
        have a2 := tells_upd t xj (upd t.vals xi v xj + (1 / a) • (v - t.vals xi)) (upd t.vals xi v) (t.tell xi v t.told)
        rw [upd_self] at hr
        exact ((a1.trans a2).trans (shiftRows_tells t xi xj _ _ _ r hr)).trans (pivot_tells h)

theorem checkStep_tells (h : t.checkStep E = .next t') : Tells t t' := by
  unfold checkStep at h
  split at h
  · cases h
  · split at h
    · cases h
    · split at h
      · split at h
        · cases h
        · split at h
          · split at h
            · cases h
            · next hp => injection h with h; subst h; exact pivotAndUpdate_tells hp
          · cases h
      · split at h
        · cases h
        · split at h
          · split at h
            · cases h
            · next hp => injection h with h; subst h; exact pivotAndUpdate_tells hp
          · cases h

theorem checkLoop_tells : ∀ (k : Nat) (t t' : LRA) (r), checkLoop E k t = .ok (t', r) → Tells t t'
  | 0, _, _, _, h => by cases h
  | k + 1, t, t', r, h => by
    unfold checkLoop at h
    split at h
    · injection h with h; injection h with e1 e2; subst e1; exact .refl _
    · injection h with h; injection h with e1 e2; subst e1; exact .refl _
    · cases h
    · next t1 h1 => exact (checkStep_tells h1).trans (checkLoop_tells k t1 t' r h)

theorem emit_all {P : LRA → Prop} (hp : P t) : ∀ (js : List (Lit × List Lit)) (val), (t.emit js val).All P
  | [], _ => hp
  | (q, L) :: js, val => by
    unfold emit
    split
    · exact hp
    · exact fun v => emit_all hp js v
    · exact emit_all hp js val

theorem setLo_tells (x : Nat) (v : IQ) (p : Lit) : Tells t (t.setLo x v p) := .quiet (Nat.le_refl _) (fun _ _ h => h) rfl (fun _ _ => rfl)
theorem setHi_tells (x : Nat) (v : IQ) (p : Lit) : Tells t (t.setHi x v p) := .quiet (Nat.le_refl _) (fun _ _ h => h) rfl (fun _ _ => rfl)

theorem assertLower_tells (val : Lit → Option Bool) (x : Nat) (v : IQ) (p : Lit) : (t.assertLower E val x v p).All (Tells t) := by
  unfold assertLower
  split
  · trivial
  · split
    · trivial
    · split
      · exact .refl t
      · split
        · exact .refl t
        · simp only
          split
          · trivial
          · next t1 h1 =>
            have h2 : Tells t t1 := by
              refine (setLo_tells x v p).trans ?_
              split at h1
              · exact update_tells h1
              · injection h1 with h1; subst h1; exact .refl _
            split
            · trivial
            · exact emit_all h2 _ _

theorem assertUpper_tells (val : Lit → Option Bool) (x : Nat) (v : IQ) (p : Lit) : (t.assertUpper E val x v p).All (Tells t) := by
  unfold assertUpper
  split
  · trivial
  · split
    · trivial
    · split
      · exact .refl t
      · split
        · exact .refl t
        · simp only
          split
          · trivial
          · next t1 h1 =>
            have h2 : Tells t t1 := by
              refine (setHi_tells x v p).trans ?_
              split at h1
              · exact update_tells h1
              · injection h1 with h1; subst h1; exact .refl _
            split
            · trivial
            · exact emit_all h2 _ _

theorem propagate_tells (val : Lit → Option Bool) (p : Lit) : (t.propagate E val p).All (Tells t) := by
  unfold propagate
  split
  · trivial
  · split
    · split
      · exact assertUpper_tells _ _ _ _
      · exact assertLower_tells _ _ _ _
    · split
      · exact assertLower_tells _ _ _ _
      · exact assertUpper_tells _ _ _ _
    · exact .refl t

/-- Every call that the core makes tells the listeners. -/
theorem keeps (E : LEnv) (t0 : LRA) : Keeps (ops E) (Tells t0) where
  prop := fun _ _ val p h => (propagate_tells val p).mono (fun _ h' => h.trans h')
  check := fun _ t val t' r h hc => h.trans (checkLoop_tells _ t t' r hc)
  push := fun t h => h.trans (.quiet (t := t) (t' := t.push) (Nat.le_refl _) (fun _ _ h => h) rfl (fun _ _ => rfl))
  pop := fun t t' h hp => by
    refine h.trans ?_
    obtain ⟨L, Ls, hl, e⟩ := pop_cases hp
    subst e
    exact .quiet (Nat.le_refl _) (fun _ _ h => h) rfl (fun _ _ => rfl)

theorem newVar_tells (t : LRA) : Tells t t.newVar.1 := .quiet (Nat.le_succ _) (fun _ _ h => h) rfl (fun v hv => upd_ne _ _ (by omega))

theorem newVarL_tells {root : Bool} {l : Lin} {y : Nat} (h : t.newVarL root l = .ok (t', y)) : Tells t t' := by
  unfold newVarL at h
  split at h
  · cases h
  · split at h
    · injection h with h; injection h with e1 e2; subst e1; exact .refl _
    · split at h
      · cases h
      · split at h
        · cases h
        · injection h with h; injection h with e1 e2; subst e1
          refine .quiet (Nat.le_succ _) (fun _ _ h => h) rfl (fun v hv => ?_)
          show upd (upd t.vals t.n 0) t.n (t.valL l) v = t.vals v
          rw [upd_ne _ _ (by omega), upd_ne _ _ (by omega)]

theorem listen_tells {v l : Nat} (h : t.listen v l = .ok t') : Tells t t' := by
  unfold listen at h
  split at h
  · cases h
  · injection h with h
    subst h
    split
    · refine .quiet (Nat.le_refl _) (fun k w hk => ?_) rfl (fun _ _ => rfl)
      show k ∈ upd t.lst v (ins l (t.lst v)) w
      by_cases e : w = v
      · subst e
        rw [upd_self]
        unfold ins
        split
        · exact hk
        · exact List.mem_cons_of_mem _ hk
      · rw [upd_ne _ _ e]; exact hk
    · exact .refl _

theorem newRel_tells {s s' : Sat LRA} {R : Rel4} {l r : Lin} {p : Lit} (h : newRel R s l r = .ok (s', p)) : Tells s.th s'.th := by
  unfold newRel at h
  simp only at h
  split at h
  · cases h
  · split at h
    · injection h with h; injection h with e1 e2; subst e1; exact .refl _
    · injection h with h; injection h with e1 e2; subst e1; exact .refl _
    · split at h
      · cases h
      · next t y hn =>
        have a := newVarL_tells hn
        split at h
        · injection h with h; injection h with e1 e2; subst e1; exact a
        · injection h with h; injection h with e1 e2; subst e1; exact a
        · split at h
          · injection h with h; injection h with e1 e2; subst e1; exact a
          · injection h with h; injection h with e1 e2; subst e1
            exact a.trans (.quiet (Nat.le_refl _) (fun _ _ h => h) rfl (fun _ _ => rfl))


theorem newEqL_tells {E : Env} {L : LEnv} {s s' : Sat LRA} {U : List Fact} {l r : Lin} {p : Lit} (h : SInv L Z s U) (hl : l.Canon) (hr : r.Canon) (hvl : ∀ w ∈ keys l.vars, w < s.th.n)
    (hvr : ∀ w ∈ keys r.vars, w < s.th.n) (hn : newEqL E s l r = .ok (s', p)) : Tells s.th s'.th := by
  unfold newEqL at hn
  split at hn
  · cases hn
  · next s1 p1 h1 =>
    have a1 := newRel_adds h hl hr hvl hvr h1
    split at hn
    · cases hn
    · next s2 p2 h2 =>
      have a2 := newRel_adds a1.sinv hl hr (fun w hw => (hvl w hw).trans_le a1.n) (fun w hw => (hvr w hw).trans_le a1.n) h2
      obtain ⟨hr', hv⟩ := Sat.newConj_pre hn
      obtain ⟨s3, q, a, b⟩ := Sat.newConj_spec (E := E) a2.sinv.rinv.inv hr' hv
      rw [hn] at a
      injection a with a; injection a with e1 e2
      subst e1 e2
      rw [b.defd.rstep.th]
      exact (newRel_tells h1).trans (newRel_tells h2)

theorem note_tells (s : Sat LRA) (f : Fact) : Tells s.th (note s f).th := .quiet (Nat.le_refl _) (fun _ _ h => h) rfl (fun _ _ => rfl)

theorem setLbC_tells {E : Env} {L : LEnv} {s s' : Sat LRA} {x : Nat} {v : IQ} {p : Lit} {r} (hn : setLbC E L s x v p = .ok (s', r)) : Tells s.th s'.th :=
  Sat.runAct_all ((assertLower_tells (t := (note s (.lo p x v)).th) s.value x v p).mono (fun _ h => (note_tells s (.lo p x v)).trans h)) hn
theorem setUbC_tells {E : Env} {L : LEnv} {s s' : Sat LRA} {x : Nat} {v : IQ} {p : Lit} {r} (hn : setUbC E L s x v p = .ok (s', r)) : Tells s.th s'.th :=
  Sat.runAct_all ((assertUpper_tells (t := (note s (.hi p x v)).th) s.value x v p).mono (fun _ h => (note_tells s (.hi p x v)).trans h)) hn

/-! ### Calls -/

/-- One successful call on the core or on the theory (the steps of `AReach`, see `aReach_iff_calls`). -/
inductive ACall (E : Env) (L : LEnv) : Sat LRA → List Fact → Sat LRA → List Fact → Prop
  | step {s s' : Sat LRA} {U : List Fact} {op out} : (op = .simplify → ∀ u, s.propagate E (ops L) = .ok (u, true) → u.Fix u.okQ) →
      s.step E (ops L) op = .ok (s', out) → ACall E L s U s' U
  | newVar {s : Sat LRA} {U : List Fact} : ACall E L s U { s with th := s.th.newVar.1 } U
  | newVarL {s : Sat LRA} {U : List Fact} {l t y} : l.Canon → (∀ w ∈ keys l.vars, s.th.row w = none) → l.kt = 0 → s.th.newVarL s.root l = .ok (t, y) →
      ACall E L s U { s with th := t } U
  | newRel {s s' : Sat LRA} {U : List Fact} {R l r p} : l.Canon → r.Canon → (∀ w ∈ keys l.vars, w < s.th.n) → (∀ w ∈ keys r.vars, w < s.th.n) →
      newRel R s l r = .ok (s', p) → ACall E L s U s' U
  | newEq {s s' : Sat LRA} {U : List Fact} {l r p} : l.Canon → r.Canon → (∀ w ∈ keys l.vars, w < s.th.n) → (∀ w ∈ keys r.vars, w < s.th.n) →
      newEqL E s l r = .ok (s', p) → ACall E L s U s' U
  | setLb {s s' : Sat LRA} {U : List Fact} {x v p} : s.root = true → x < s.th.n → s.value p = some true → setLbC E L s x v p = .ok (s', none) → ACall E L s U s' (.lo p x v :: U)
  | setUb {s s' : Sat LRA} {U : List Fact} {x v p} : s.root = true → x < s.th.n → s.value p = some true → setUbC E L s x v p = .ok (s', none) → ACall E L s U s' (.hi p x v :: U)
  | listen {s : Sat LRA} {U : List Fact} {v l t} : s.th.listen v l = .ok t → ACall E L s U { s with th := t } U

/-- Any number of calls. -/
inductive ACalls (E : Env) (L : LEnv) (s : Sat LRA) (U : List Fact) : Sat LRA → List Fact → Prop
  | nil : ACalls E L s U s U
  | cons {s1 s2 : Sat LRA} {U1 U2 : List Fact} : ACalls E L s U s1 U1 → ACall E L s1 U1 s2 U2 → ACalls E L s U s2 U2

theorem AReach.call {E : Env} {L : LEnv} {s s' : Sat LRA} {U U' : List Fact} (h : AReach E L s U) (hc : ACall E L s U s' U') : AReach E L s' U' := by
  cases hc with
  | step a b => exact h.step a b
  | newVar => exact h.newVar
  | newVarL a b c d => exact h.newVarL a b c d
  | newRel a b c d e => exact h.newRel a b c d e
  | newEq a b c d e => exact h.newEq a b c d e
  | setLb a b c d => exact h.setLb a b c d
  | setUb a b c d => exact h.setUb a b c d
  | listen a => exact h.listen a

theorem AReach.calls {E : Env} {L : LEnv} {s s' : Sat LRA} {U U' : List Fact} (h : AReach E L s U) (hc : ACalls E L s U s' U') : AReach E L s' U' := by
  induction hc with
  | nil => exact h
  | cons _ c ih => exact ih.call c

/-- The reachable states are those that calls from the initial state lead to. -/
theorem aReach_iff_calls {E : Env} {L : LEnv} {s : Sat LRA} {U : List Fact} : AReach E L s U ↔ ACalls E L (Sat.init LRA.init) [] s U := by
  refine ⟨fun h => ?_, fun h => AReach.init.calls h⟩
  induction h with
  | init => exact .nil
  | step _ a b ih => exact ih.cons (.step a b)
  | newVar _ ih => exact ih.cons .newVar
  | newVarL _ a b c d ih => exact ih.cons (.newVarL a b c d)
  | newRel _ a b c d e ih => exact ih.cons (.newRel a b c d e)
  | newEq _ a b c d e ih => exact ih.cons (.newEq a b c d e)
  | setLb _ a b c d ih => exact ih.cons (.setLb a b c d)
  | setUb _ a b c d ih => exact ih.cons (.setUb a b c d)
  | listen _ a ih => exact ih.cons (.listen a)

theorem ACall.tells {E : Env} {L : LEnv} {s s' : Sat LRA} {U U' : List Fact} (h : AReach E L s U) (hc : ACall E L s U s' U') : Tells s.th s'.th := by
  cases hc with
  | step a b => exact Sat.step_keeps h.sinv.rinv (keeps L s.th) (.refl _) a b
  | newVar => exact newVar_tells _
  | newVarL a b c d => exact newVarL_tells d
  | newRel a b c d e => exact newRel_tells e
  | newEq a b c d e => exact newEqL_tells h.sinv a b c d e
  | setLb a b c d => exact setLbC_tells d
  | setUb a b c d => exact setUbC_tells d
  | listen a => exact listen_tells a

theorem ACalls.tells {E : Env} {L : LEnv} {s s' : Sat LRA} {U U' : List Fact} (h : AReach E L s U) (hc : ACalls E L s U s' U') : Tells s.th s'.th := by
  induction hc with
  | nil => exact .refl _
  | cons a c ih => exact ih.trans (c.tells (h.calls a))

end LRA
end Semitone
