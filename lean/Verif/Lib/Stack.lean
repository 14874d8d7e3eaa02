import Verif.LRA.StackT
import Verif.DL.StackT
import Verif.OV.Comp

/-!
# Any number of theories in a stack of cores (C80)
-/
namespace Semitone

/-- A theory, or a family of theories, with the calls of its interface; these do not change the decision level. -/
structure Kit (T : Type) where
  ops : TheoryOps T
  /-- The number of theories. -/
  m : Nat
  api : Sat T → Sat T → Prop
  flat : ∀ s s', api s s' → s'.dl = s.dl

namespace Kit
variable {T T' T1 T2 V : Type}

/-- The calls on two families of theories: each is made on one of them, which sees the core and its own state. -/
inductive Calls (K1 : Kit T1) (K2 : Kit T2) (S : Sat (T1 × T2)) : Sat (T1 × T2) → Prop
  | left {s} : K1.api (S.left K1.m) s → Calls K1 K2 S (S.putL K1.m s)
  | right {s} : K2.api (S.right K1.m) s → Calls K1 K2 S (S.putR K1.m s)

/-- Two families on one core (`sat_core.h:167`, the vector `theories`). -/
def prod (K1 : Kit T1) (K2 : Kit T2) : Kit (T1 × T2) where
  ops := K1.ops.prod K1.m K2.ops
  m := K1.m + K2.m
  api := Calls K1 K2
  flat := fun s s' h => by
    cases h with
    | left h => exact K1.flat _ _ h
    | right h => exact K2.flat _ _ h

/-- `K` is one of the theories of `K'`. -/
inductive In {T : Type} (K : Kit T) : {T' : Type} → Kit T' → Type 1
  | here : In K K
  | left {T1 T2 : Type} {K1 : Kit T1} {K2 : Kit T2} : In K K1 → In K (K1.prod K2)
  | right {T1 T2 : Type} {K1 : Kit T1} {K2 : Kit T2} : In K K2 → In K (K1.prod K2)

/-- Its state. -/
def In.th {T : Type} {K : Kit T} : {T' : Type} → {K' : Kit T'} → In K K' → T' → T
  | _, _, .here, t => t
  | _, _, .left w, t => w.th t.1
  | _, _, .right w, t => w.th t.2

theorem final_map {f : T → T'} : ∀ {a : TAct T} {u : T'} {r}, (a.map f).Final u r → ∃ v, u = f v ∧ a.Final v r := by
  intro a
  induction a with
  | ok t => intro u r h; cases h; exact ⟨t, rfl, .ok⟩
  | confl t cl => intro u r h; cases h; exact ⟨t, rfl, .confl⟩
  | record cl k ih =>
    intro u r h
    cases h with
    | record h =>
      obtain ⟨v, e, h⟩ := ih _ h
      exact ⟨v, e, .record h⟩
  | fail e => intro u r h; cases h

theorem prod_prop {m : Nat} {O1 : TheoryOps T1} {O2 : TheoryOps T2} {i : Nat} {t u : T1 × T2} {val p r} (h : ((O1.prod m O2).propagate i t val p).Final u r) :
    ((∃ i', (O1.propagate i' t.1 val p).Final u.1 r) ∧ u.2 = t.2) ∨ ((∃ i', (O2.propagate i' t.2 val p).Final u.2 r) ∧ u.1 = t.1) := by
  simp only [TheoryOps.prod] at h
  split at h
  · obtain ⟨v, e, k⟩ := final_map h
    subst e
    exact .inl ⟨⟨_, k⟩, rfl⟩
  · obtain ⟨v, e, k⟩ := final_map h
    subst e
    exact .inr ⟨⟨_, k⟩, rfl⟩

theorem prod_check {m : Nat} {O1 : TheoryOps T1} {O2 : TheoryOps T2} {i : Nat} {t u : T1 × T2} {val r} (h : (O1.prod m O2).check i t val = .ok (u, r)) :
    ((∃ i', O1.check i' t.1 val = .ok (u.1, r)) ∧ u.2 = t.2) ∨ ((∃ i', O2.check i' t.2 val = .ok (u.2, r)) ∧ u.1 = t.1) := by
  simp only [TheoryOps.prod] at h
  split at h
  · split at h
    · cases h
    next v r' hv => injection h with h; injection h with e1 e2; subst e1; subst e2; exact .inl ⟨⟨_, hv⟩, rfl⟩
  · split at h
    · cases h
    next v r' hv => injection h with h; injection h with e1 e2; subst e1; subst e2; exact .inr ⟨⟨_, hv⟩, rfl⟩

theorem prod_pop {m : Nat} {O1 : TheoryOps T1} {O2 : TheoryOps T2} {t u : T1 × T2} (h : (O1.prod m O2).pop t = .ok u) : O1.pop t.1 = .ok u.1 ∧ O2.pop t.2 = .ok u.2 := by
  simp only [TheoryOps.prod] at h
  split at h
  · cases h
  next u1 h1 =>
  split at h
  · cases h
  next u2 h2 => injection h with h; subst h; exact ⟨h1, h2⟩

/-- A theory that undoes its levels does so among the others. -/
theorem layered {T : Type} {K : Kit T} {P : T → Prop} {views : T → List V} (hne : ∀ t, ∃ v l, views t = v :: l) (L : Sat.Layered K.ops P views) :
    {T' : Type} → {K' : Kit T'} → (w : In K K') → Sat.Layered K'.ops (fun t => P (w.th t)) (fun t => views (w.th t))
  | _, _, .here => L
  | _, _, .left (K1 := K1) (K2 := K2) w => by
    have L' := layered hne L w
    refine ⟨@fun i t val p u r hp h => ?_, fun hp h => ?_, fun hp => L'.push hp, fun hp h => L'.pop hp (prod_pop h).1⟩
    · rcases prod_prop h with ⟨⟨i, h⟩, -⟩ | ⟨-, e⟩
      · exact L'.prop hp h
      · obtain ⟨v, l, hv⟩ := hne (w.th t.1)
        show P (w.th u.1) ∧ ∃ v x l, views (w.th t.1) = v :: l ∧ views (w.th u.1) = x :: l
        rw [e]
        exact ⟨hp, v, v, l, hv, hv⟩
    · rcases prod_check h with ⟨⟨i, h⟩, -⟩ | ⟨-, e⟩
      · exact L'.check hp h
      · show P (w.th (Prod.fst _)) ∧ views (w.th (Prod.fst _)) = views (w.th (Prod.fst _))
        rw [e]
        exact ⟨hp, rfl⟩
  | _, _, .right (K1 := K1) (K2 := K2) w => by
    have L' := layered hne L w
    refine ⟨@fun i t val p u r hp h => ?_, fun hp h => ?_, fun hp => L'.push hp, fun hp h => L'.pop hp (prod_pop h).2⟩
    · rcases prod_prop h with ⟨-, e⟩ | ⟨⟨i, h⟩, -⟩
      · obtain ⟨v, l, hv⟩ := hne (w.th t.2)
        show P (w.th u.2) ∧ ∃ v x l, views (w.th t.2) = v :: l ∧ views (w.th u.2) = x :: l
        rw [e]
        exact ⟨hp, v, v, l, hv, hv⟩
      · exact L'.prop hp h
    · rcases prod_check h with ⟨-, e⟩ | ⟨⟨i, h⟩, -⟩
      · show P (w.th (Prod.snd _)) ∧ views (w.th (Prod.snd _)) = views (w.th (Prod.snd _))
        rw [e]
        exact ⟨hp, rfl⟩
      · exact L'.check hp h

theorem shallow {T : Type} {K : Kit T} {P : T → Prop} {views : T → List V} (hne : ∀ t, ∃ v l, views t = v :: l) (hX : Sat.Shallow P views K.api) :
    {T' : Type} → {K' : Kit T'} → (w : In K K') → Sat.Shallow (fun t => P (w.th t)) (fun t => views (w.th t)) K'.api
  | _, _, .here => hX
  | _, _, .left (K1 := K1) (K2 := K2) w => fun S S' hp h => by
    cases h with
    | left h => exact shallow hne hX w (S.left K1.m) _ hp h
    | right h =>
      obtain ⟨v, l, hv⟩ := hne (w.th S.th.1)
      exact ⟨hp, K2.flat _ _ h, v, v, l, hv, hv⟩
  | _, _, .right (K1 := K1) (K2 := K2) w => fun S S' hp h => by
    cases h with
    | left h =>
      obtain ⟨v, l, hv⟩ := hne (w.th S.th.2)
      exact ⟨hp, K1.flat _ _ h, v, v, l, hv, hv⟩
    | right h => exact shallow hne hX w (S.right K1.m) _ hp h

/-! ### Theories that do not undo anything -/

/-- Whatever the core and the client do, what the theory knows goes from `t` to a `u` with `R t u`. -/
structure Grows (K : Kit T) (R : T → T → Prop) : Prop where
  refl : ∀ t, R t t
  trans : ∀ {t u v}, R t u → R u v → R t v
  prop : ∀ {i t val p u r}, (K.ops.propagate i t val p).Final u r → R t u
  check : ∀ {i t val u r}, K.ops.check i t val = .ok (u, r) → R t u
  push : ∀ t, R t (K.ops.push t)
  pop : ∀ {t u}, K.ops.pop t = .ok u → R t u
  api : ∀ {s s' : Sat T}, K.api s s' → R s.th s'.th

theorem grows {T : Type} {K : Kit T} {R : T → T → Prop} (G : Grows K R) : {T' : Type} → {K' : Kit T'} → (w : In K K') → Grows K' (fun t u => R (w.th t) (w.th u))
  | _, _, .here => G
  | _, _, .left (K1 := K1) (K2 := K2) w => by
    have G' := grows G w
    refine ⟨fun t => G.refl _, fun h1 h2 => G.trans h1 h2, fun h => ?_, fun h => ?_, fun t => G'.push _, fun h => G'.pop (prod_pop h).1, fun h => ?_⟩
    · rcases prod_prop h with ⟨⟨i, h⟩, -⟩ | ⟨-, e⟩
      · exact G'.prop h
      · show R (w.th (Prod.fst _)) (w.th (Prod.fst _))
        rw [e]; exact G.refl _
    · rcases prod_check h with ⟨⟨i, h⟩, -⟩ | ⟨-, e⟩
      · exact G'.check h
      · show R (w.th (Prod.fst _)) (w.th (Prod.fst _))
        rw [e]; exact G.refl _
    · cases h with
      | left h => exact G'.api h
      | right h => exact G.refl _
  | _, _, .right (K1 := K1) (K2 := K2) w => by
    have G' := grows G w
    refine ⟨fun t => G.refl _, fun h1 h2 => G.trans h1 h2, fun h => ?_, fun h => ?_, fun t => G'.push _, fun h => G'.pop (prod_pop h).2, fun h => ?_⟩
    · rcases prod_prop h with ⟨-, e⟩ | ⟨⟨i, h⟩, -⟩
      · show R (w.th (Prod.snd _)) (w.th (Prod.snd _))
        rw [e]; exact G.refl _
      · exact G'.prop h
    · rcases prod_check h with ⟨-, e⟩ | ⟨⟨i, h⟩, -⟩
      · show R (w.th (Prod.snd _)) (w.th (Prod.snd _))
        rw [e]; exact G.refl _
      · exact G'.check h
    · cases h with
      | left h => exact G.refl _
      | right h => exact G'.api h

variable {K : Kit T} {R : T → T → Prop} {E : Env}

theorem Grows.checks (G : Grows K R) : ∀ (is : List Nat) {s s' : Sat T} {r}, Sat.runChecks K.ops is s = .ok (s', r) → R s.th s'.th
  | [], s, s', r, h => by injection h with h; injection h with h1 h2; subst h1; exact G.refl _
  | i :: is, s, s', r, h => by
    simp only [Sat.runChecks] at h
    split at h
    · cases h
    · next t cl h1 => injection h with h; injection h with h2 h3; subst h2; exact G.check h1
    · next t h1 => exact G.trans (G.check h1) (G.checks is (s := { s with th := t }) h)

theorem Grows.tcalls (G : Grows K R) {n m : Nat} {t u : T} (h : TCalls K.ops n t m u) : R t u := by
  induction h with
  | refl => exact G.refl _
  | prop _ a ih => exact G.trans ih (G.prop a)
  | check _ a ih => exact G.trans ih (G.check a)
  | push _ ih => exact G.trans ih (G.push _)
  | pop _ a ih => exact G.trans ih (G.pop a)

theorem Grows.pushed (G : Grows K R) {c d : Sat T} {rest below : List (Sat T)} (h : Sat.pushTop E K.ops (c :: rest) = .ok (d :: below)) : R c.th d.th ∧ below = c :: rest := by
  simp only [Sat.pushTop] at h
  split at h
  · cases h
  next d0 hc =>
  injection h with h; injection h with e1 e2; subst e1; subst e2
  obtain ⟨s0, s1, r, h1, h2, h3, -⟩ := Sat.copy_checks hc
  have k := G.checks _ h1
  rw [h2, ← h3] at k
  exact ⟨G.trans k (G.push _), rfl⟩

theorem Grows.popped (G : Grows K R) {u c c' : Sat T} {rest rest' : List (Sat T)} (h : Sat.popTop K.ops (u :: c :: rest) = .ok (c' :: rest')) :
    R u.th c'.th ∧ rest' = rest ∧ c' = { c with th := c'.th, notes := c'.notes } := by
  simp only [Sat.popTop] at h
  split at h
  · cases h
  next t ht =>
  injection h with h; injection h with e1 e2; subst e1; subst e2
  exact ⟨G.pop ht, rfl, rfl⟩

theorem Grows.works (G : Grows K R) {s s' : Sat T} (h : Sat.Works E K.ops K.api s s') : R s.th s'.th := by
  induction h with
  | refl => exact G.refl _
  | core _ hs ih => exact G.trans ih (G.tcalls (Sat.step_tc hs))
  | api _ hx ih => exact G.trans ih (G.api hx)
  | inner _ hpush _ _ hpop ih1 ih2 => exact G.trans ih1 (G.trans (G.pushed hpush).1 (G.trans ih2 (G.popped hpop).1))

theorem Grows.session (G : Grows K R) {c d u c' : Sat T} {rest below rest' : List (Sat T)} (hpush : Sat.pushTop E K.ops (c :: rest) = .ok (d :: below)) (hw : Sat.Works E K.ops K.api d u)
    (hpop : Sat.popTop K.ops (u :: below) = .ok (c' :: rest')) : R c.th c'.th ∧ rest' = rest ∧ c' = { c with th := c'.th, notes := c'.notes } := by
  obtain ⟨h1, e⟩ := G.pushed hpush
  subst e
  obtain ⟨h2, h3⟩ := G.popped hpop
  exact ⟨G.trans h1 (G.trans (G.works hw) h2), h3⟩

/-! ### The theories of the library -/

/-- Linear arithmetic. -/
def lra (E : Env) (L : LEnv) : Kit LRA where
  ops := LRA.ops L
  m := 1
  api := LRA.Api E L
  flat := fun s s' h => (LRA.api_shallow L 0 s s' (Nat.zero_le _) h).2.1

section
variable {W : Type} [AddCommGroup W] [LinearOrder W] [IsOrderedAddMonoid W] [Dom W]

/-- Difference logic: integers and rationals. -/
def dl (E : Env) : Kit (DL W) where
  ops := DL.ops
  m := 1
  api := DL.Api E
  flat := fun s s' h => (DL.api_shallow 0 s s' ⟨Nat.zero_le _, Nat.zero_le _⟩ h).2.1

end

end Kit

namespace OV
variable {V : Type} [DecidableEq V] {E : Env} {D : OEnv V}

theorem fresh_flat {T : Type} (i id : Nat) : ∀ (as : List V) (s : Sat T) (m : List (V × Lit)) (c : Nat → List Nat), Sat.Flat s (fresh i id as s m c).1
  | [], s, m, c => .refl s
  | a :: as, s, m, c => by
    have h : Sat.Flat s (s.newVar.1.bind s.newVar.2 i) := ⟨rfl, rfl⟩
    exact h.trans (fresh_flat i id as _ _ _)

/-- What the calls do to the core and to the theory, in any state. -/
theorem Act.grow {s s' : Sat (OV V)} {a b : Unit} (h : Act E D s a s' b) : s'.trailLim = s.trailLim ∧ Kin s.th s'.th := by
  cases h with
  | @newVar s1 o x items enf h =>
    unfold OV.newVar at h
    split at h
    · cases h
    · injection h with h; injection h with e1 h; injection h with e2 e3; subst e1; subst e2
      exact ⟨rfl, ⟨_, rfl⟩, fun _ _ h => h⟩
    · simp only at h
      split at h
      · split at h
        · cases h
        next s2 r h2 =>
        split at h
        · cases h
        · cases h
        next s3 h3 =>
        injection h with h; injection h with e1 h; injection h with e2 e3; subst e1; subst e2
        have f := ((fresh_flat 0 s.th.doms.length items s [] s.th.cont).trans (Sat.newEXO_flat h2)).trans (Sat.newClause_flat h3)
        exact ⟨f.lim, ⟨_, rfl⟩, fun _ _ h => h⟩
      · injection h with h; injection h with e1 h; injection h with e2 e3; subst e1; subst e2
        exact ⟨(fresh_flat 0 s.th.doms.length items s [] s.th.cont).lim, ⟨_, rfl⟩, fun _ _ h => h⟩
  | newVarLits _ h =>
    unfold OV.newVarLits at h
    split at h
    · cases h
    injection h with h; injection h with e1 e2; subst e1
    exact ⟨rfl, ⟨_, rfl⟩, fun _ _ h => h⟩
  | @newEq s1 o x y q h =>
    rcases newEq_ord h with ⟨e1, e2, e3, e4⟩ | ⟨l, r, -, -, -, h⟩
    · rw [e3, e2]; exact ⟨rfl, .refl _⟩
    unfold OV.newEqOrd at h
    split at h
    · injection h with h; injection h with e1 h; injection h with e2 e3; subst e1; subst e2
      exact ⟨rfl, .refl _⟩
    next hn =>
    split at h
    · injection h with h; injection h with e1 h; injection h with e2 e3; subst e1; subst e2
      exact ⟨rfl, .refl _⟩
    simp only at h
    split at h
    · cases h
    · cases h
    next s3 h3 =>
    injection h with h; injection h with e1 h; injection h with e2 e3; subst e1; subst e2
    refine ⟨(Sat.postAll_flat _ h3).lim.trans rfl, List.prefix_rfl, fun k q hk => ?_⟩
    show List.lookup k ((_, _) :: _) = _
    rw [List.lookup_cons]
    split
    · next e =>
      have e : k = (l, r) := by simpa using e
      rw [e, hn] at hk; cases hk
    · exact hk

end OV

namespace Kit

/-- Object variables. -/
def ov {V : Type} [DecidableEq V] (E : Env) (D : OEnv V) : Kit (OV V) where
  ops := OV.ops
  m := 1
  api := fun s s' => OV.Act E D s () s' ()
  flat := fun s s' h => by unfold Sat.dl; rw [h.grow.1]

theorem ov_grows {V : Type} [DecidableEq V] (E : Env) (D : OEnv V) : Grows (ov E D) OV.Kin where
  refl := .refl
  trans := .trans
  prop := fun h => by cases h; exact .refl _
  check := fun h => by injection h with h; injection h with e1 e2; subst e1; exact .refl _
  push := fun _ => .refl _
  pop := fun h => by injection h with e1; subst e1; exact .refl _
  api := fun h => h.grow.2

variable {T' : Type} {K' : Kit T'} {E : Env} {c d u c' : Sat T'} {rest below rest' : List (Sat T')}

/-- C80 for an arithmetic theory among any number of theories: after `push`, any calls of the core and of the theories on the top core (with stack sessions inside) that lead back to its root level, and the
matching `pop`, the bounds of every variable that existed before `push`, and the reasons of the bounds, are those from before `push`; so are the cores below. -/
theorem C80_arith_partial {L : LEnv} (w : In (lra E L) K') (hpush : Sat.pushTop E K'.ops (c :: rest) = .ok (d :: below)) (hw : Sat.Works E K'.ops K'.api d u) (hr : u.root = true)
    (hpop : Sat.popTop K'.ops (u :: below) = .ok (c' :: rest')) :
    (∀ v < (w.th c.th).n, (w.th c'.th).lo v = (w.th c.th).lo v ∧ (w.th c'.th).loR v = (w.th c.th).loR v ∧ (w.th c'.th).hi v = (w.th c.th).hi v ∧ (w.th c'.th).hiR v = (w.th c.th).hiR v) ∧
      rest' = rest ∧ c' = { c with th := c'.th, notes := c'.notes } := by
  have ne : ∀ t, ∃ v l, LRA.views (w.th c.th).n t = v :: l := fun t => ⟨_, _, LRA.views_ne _ t⟩
  obtain ⟨-, h1, h2, h3⟩ := (layered ne (LRA.layered L (w.th c.th).n (P := fun t => (w.th c.th).n ≤ t.n) (fun t t' e h => by
    have := congrArg LRA.Asked.n e
    exact (show t'.n = t.n from this) ▸ h)) w).restores (shallow ne (LRA.api_shallow L (w.th c.th).n) w) (Nat.le_refl _) hpush hw hr hpop
  exact ⟨fun v hv => LRA.views_bd h1 hv, h2, h3⟩

/-- C80 for a difference-logic theory among any number of theories. -/
theorem C80_diff_partial {W : Type} [AddCommGroup W] [LinearOrder W] [IsOrderedAddMonoid W] [Dom W] (w : In (dl (W := W) E) K') (hcap : (w.th c.th).nv ≤ (w.th c.th).cap)
    (hpush : Sat.pushTop E K'.ops (c :: rest) = .ok (d :: below)) (hw : Sat.Works E K'.ops K'.api d u) (hr : u.root = true) (hpop : Sat.popTop K'.ops (u :: below) = .ok (c' :: rest')) :
    (∀ i < (w.th c.th).nv, ∀ j < (w.th c.th).nv, (w.th c'.th).distance i j = (w.th c.th).distance i j) ∧ (0 < (w.th c.th).nv → ∀ v < (w.th c.th).nv, (w.th c'.th).bounds v = (w.th c.th).bounds v) ∧
      rest' = rest ∧ c' = { c with th := c'.th, notes := c'.notes } := by
  have ne : ∀ t : DL W, ∃ v l, DL.views (w.th c.th).nv t = v :: l := fun t => ⟨_, _, DL.views_ne (W := W) _ t⟩
  obtain ⟨-, h1, h2, h3⟩ := (layered ne (DL.layered (w.th c.th).nv (P := DL.Room (W := W) (w.th c.th).nv) (fun t t' e h => by
    have e1 : t'.nv = t.nv := congrArg DL.Asked.nv e
    have e2 : t'.cap = t.cap := congrArg DL.Asked.cap e
    exact ⟨e1 ▸ h.1, e2 ▸ h.2⟩)) w).restores (shallow ne (DL.api_shallow (W := W) (w.th c.th).nv) w) ⟨Nat.le_refl _, hcap⟩ hpush hw hr hpop
  refine ⟨fun i hi j hj => ?_, fun h0 v hv => ?_, h2, h3⟩
  · unfold DL.distance
    rw [DL.views_d h1 hi hj, DL.views_d h1 hj hi]
  · unfold DL.bounds
    rw [DL.views_d h1 hv h0, DL.views_d h1 h0 hv]

/-- C80 for object variables among any number of theories, whatever decisions are open in the dropped core: the object variables that existed before `push` report the values they reported before, with the same literals. -/
theorem C80_object_partial {V : Type} [DecidableEq V] {D : OEnv V} (w : In (ov E D) K') (hpush : Sat.pushTop E K'.ops (c :: rest) = .ok (d :: below)) (hw : Sat.Works E K'.ops K'.api d u)
    (hpop : Sat.popTop K'.ops (u :: below) = .ok (c' :: rest')) :
    (∀ x < (w.th c.th).doms.length, OV.value c' (w.th c'.th) x = OV.value c (w.th c.th) x ∧ ∀ a, (w.th c'.th).allows x a = (w.th c.th).allows x a) ∧
      rest' = rest ∧ c' = { c with th := c'.th, notes := c'.notes } := by
  obtain ⟨h1, h2, h3⟩ := (grows (ov_grows E D) w).session hpush hw hpop
  refine ⟨fun x hx => ⟨?_, h1.allows hx⟩, h2, h3⟩
  have e : ∀ p, c'.value p = c.value p := fun p => by rw [h3]; rfl
  unfold OV.value
  rw [h1.dom hx]
  simp only [e]

end Kit
end Semitone
