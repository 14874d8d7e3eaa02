import Verif.Sat.Keep
import Verif.DL.Witness

/-!
# Value listeners of difference logic: C59

`idl_theory::listen`, `idl_value_listener`, `rdl_theory::listen`, `rdl_value_listener`. A listener reads the bounds of the time point when `idl_value_change` is called.
-/
namespace Semitone
namespace DL
variable {W : Type} [AddCommGroup W] [LinearOrder W] [IsOrderedAddMonoid W]

/-- The bounds that listener `l` read at the last of the calls `l->idl_value_change(v)` in `N` (newest first). -/
def lastRead (l v : Nat) (N : List (Nat × Nat × WithBot W × WithTop W)) : Option (WithBot W × WithTop W) := (N.find? (fun e => e.1 == l && e.2.1 == v)).map (fun e => e.2.2)

theorem lastRead_append (l v : Nat) (N M : List (Nat × Nat × WithBot W × WithTop W)) : lastRead l v (N ++ M) = (lastRead l v N).or (lastRead l v M) := by
  unfold lastRead
  rw [List.find?_append]
  cases N.find? (fun e => e.1 == l && e.2.1 == v) <;> rfl

/-- Between two states: registrations are kept, only registered listeners are called, and for every listener registered on `v` before: the bounds it read last since then, or the
bounds before if it was not called, are related by `R` to the current bounds of `v`. -/
structure Tells (R : WithBot W × WithTop W → WithBot W × WithTop W → Prop) (t t' : DL W) : Prop where
  nv : t.nv ≤ t'.nv
  lst : ∀ l v, l ∈ t.lst v → l ∈ t'.lst v
  told : ∃ N, t'.told = N ++ t.told ∧ (∀ e ∈ N, e.1 ∈ t'.lst e.2.1) ∧ ∀ l v, v < t.nv → l ∈ t.lst v → R ((lastRead l v N).getD (t.bounds v)) (t'.bounds v)

variable {R : WithBot W × WithTop W → WithBot W × WithTop W → Prop} {t t' t'' : DL W}

theorem Tells.quiet (h1 : t.nv ≤ t'.nv) (h2 : ∀ l v, l ∈ t.lst v → l ∈ t'.lst v) (h3 : t'.told = t.told) (h4 : ∀ v, v < t.nv → R (t.bounds v) (t'.bounds v)) : Tells R t t' :=
  ⟨h1, h2, [], h3, (fun e he => by cases he), fun _ v hv _ => h4 v hv⟩

theorem Tells.refl (hR : ∀ b, R b b) (t : DL W) : Tells R t t := .quiet (Nat.le_refl _) (fun _ _ h => h) rfl (fun _ _ => hR _)

theorem Tells.trans (hR : ∀ {a b c}, R a b → R b c → R a c) (h1 : Tells R t t') (h2 : Tells R t' t'') : Tells R t t'' := by
  obtain ⟨n1, l1, N1, a1, b1, c1⟩ := h1
  obtain ⟨n2, l2, N2, a2, b2, c2⟩ := h2
  refine ⟨n1.trans n2, fun l v h => l2 l v (l1 l v h), N2 ++ N1, by rw [a2, a1, List.append_assoc], fun e he => ?_, fun l v hv hl => ?_⟩
  · rcases List.mem_append.mp he with he | he
    · exact b2 e he
    · exact l2 _ _ (b1 e he)
  · have x := c1 l v hv hl
    have y := c2 l v (hv.trans_le n1) (l1 l v hl)
    rw [lastRead_append]
    cases e : lastRead l v N2 with
    | none =>
      rw [e] at y
      rw [Option.none_or]
      exact hR x y
    | some z =>
      rw [e] at y
      exact y

theorem Tells.mono {R' : WithBot W × WithTop W → WithBot W × WithTop W → Prop} (hR : ∀ {a b}, R a b → R' a b) (h : Tells R t t') : Tells R' t t' := by
  obtain ⟨n1, l1, N1, a1, b1, c1⟩ := h
  exact ⟨n1, l1, N1, a1, b1, fun l v hv hl => hR (c1 l v hv hl)⟩

theorem Tells.same_refl (t : DL W) : Tells Eq t t := .refl (fun _ => rfl) t
theorem Tells.same_trans (h1 : Tells Eq t t') (h2 : Tells Eq t' t'') : Tells Eq t t'' := h1.trans (fun h h' => h.trans h') h2

/-- A distance changes and the listeners of the time point are told. -/
theorem setDist_tells (t : DL W) (i j : Nat) (w : WithTop W) : Tells Eq t (t.setDist i j w) := by
  have hb : ∀ v, point i j ≠ some v → (t.setDist i j w).bounds v = t.bounds v := by
    intro v hv
    unfold point at hv
    show (negTop (upd2 t.d i j w v 0), upd2 t.d i j w 0 v) = (negTop (t.d v 0), t.d 0 v)
    unfold upd2
    rw [if_neg, if_neg]
    · rintro ⟨rfl, rfl⟩
      simp at hv
    · rintro ⟨rfl, rfl⟩
      split at hv
      · next e => exact hv (by rw [e])
      · simp at hv
  have ht : (t.setDist i j w).told = t.tell (upd2 t.d i j w) i j := rfl
  unfold tell at ht
  cases hp : point i j with
  | none =>
    rw [hp] at ht
    exact .quiet (Nat.le_refl _) (fun _ _ h => h) ht (fun v _ => (hb v (by rw [hp]; simp)).symm)
  | some v =>
    rw [hp] at ht
    refine ⟨Nat.le_refl _, fun _ _ h => h, _, ht, fun e he => ?_, fun l u hu hl => ?_⟩
    · obtain ⟨l, hl, rfl⟩ := List.mem_map.mp he
      exact hl
    · by_cases huv : u = v
      · subst huv
        have hf : lastRead l u ((t.lst u).map (fun l => (l, u, negTop (upd2 t.d i j w u 0), upd2 t.d i j w 0 u))) = some ((t.setDist i j w).bounds u) := by
          unfold lastRead
          cases hf : ((t.lst u).map (fun l => (l, u, negTop (upd2 t.d i j w u 0), upd2 t.d i j w 0 u))).find? (fun e => e.1 == l && e.2.1 == u) with
          | none =>
            rw [List.find?_eq_none] at hf
            have := hf _ (List.mem_map.mpr ⟨l, hl, rfl⟩)
            simp at this
          | some e =>
            obtain ⟨k, hk, rfl⟩ := List.mem_map.mp (List.mem_of_find?_eq_some hf)
            rfl
        rw [hf]
        rfl
      · rw [hb u (by rw [hp]; exact fun e => huv (Option.some.inj e).symm)]
        have : lastRead l u ((t.lst v).map (fun l => (l, v, negTop (upd2 t.d i j w v 0), upd2 t.d i j w 0 v))) = none := by
          unfold lastRead
          rw [Option.map_eq_none_iff, List.find?_eq_none]
          intro e he
          obtain ⟨k, hk, rfl⟩ := List.mem_map.mp he
          have : ¬ v = u := fun e => huv e.symm
          simp [this]
        rw [this]
        rfl

theorem set_tells (t : DL W) (i j : Nat) (w : WithTop W) (p : Option Nat) : Tells Eq t ((t.setDist i j w).setPred i j p) :=
  (setDist_tells t i j w).same_trans (.quiet (Nat.le_refl _) (fun _ _ h => h) rfl (fun _ _ => rfl))

theorem loop1a_tells (s t : Nat) (w : W) (l : Loop W) (u : Nat) : Tells Eq l.t (loop1a s t w l u).t := by
  unfold loop1a
  split
  · exact set_tells _ _ _ _ _
  · exact .same_refl _
theorem loop1b_tells (s t : Nat) (w : W) (l : Loop W) (u : Nat) : Tells Eq l.t (loop1b s t w l u).t := by
  unfold loop1b
  split
  · exact set_tells _ _ _ _ _
  · exact .same_refl _
theorem loop2_tells (t : Nat) (l : Loop W) (q : Nat × Nat) : Tells Eq l.t (loop2 t l q).t := by
  unfold loop2
  split
  · exact set_tells _ _ _ _ _
  · exact .same_refl _
theorem foldl_tells {α : Type} {f : Loop W → α → Loop W} (hf : ∀ l a, Tells Eq l.t (f l a).t) : ∀ (as : List α) (l : Loop W), Tells Eq l.t (as.foldl f l).t
  | [], _ => .same_refl _
  | a :: as, l => (hf l a).same_trans (foldl_tells hf as (f l a))

theorem relaxEdge_tells (t : DL W) (s u : Nat) (w : W) : Tells Eq t (t.relaxEdge s u w).1 := by
  unfold relaxEdge
  simp only
  refine (set_tells t s u (w : WithTop W) (some s)).same_trans ?_
  refine Tells.same_trans ?_ (foldl_tells (loop2_tells u) _ _)
  exact foldl_tells (f := fun l x => loop1b s u w (loop1a s u w l x) x) (fun l x => (loop1a_tells _ _ _ _ _).same_trans (loop1b_tells _ _ _ _ _)) _
    (⟨(t.setDist s u (w : WithTop W)).setPred s u (some s), [], [], [(s, u), (u, s)]⟩ : Loop W)

theorem setCur_tells (t : DL W) (i j : Nat) (dd : Dist W) : Tells Eq t (t.setCur i j dd) := .quiet (Nat.le_refl _) (fun _ _ h => h) rfl (fun _ _ => rfl)

variable [Dom W]

theorem assertD_tells {dd : Dist W} {sg : Bool} {cu : List (Nat × Nat)} (h : t.assertD dd sg = .update t' cu) : Tells Eq t t' := by
  unfold assertD at h
  split at h
  · split at h
    · cases h
    · split at h
      · injection h with h1 h2
        subst h1
        exact (setCur_tells _ _ _ _).same_trans (relaxEdge_tells _ _ _ _)
      · cases h
  · split at h
    · cases h
    · split at h
      · injection h with h1 h2
        subst h1
        exact (setCur_tells _ _ _ _).same_trans (relaxEdge_tells _ _ _ _)
      · cases h

theorem listen_tells {v l : Nat} (h : t.listen v l = .ok t') : Tells Eq t t' := by
  have key : ∀ k u, k ∈ t.lst u → k ∈ (t.addListener v l).lst u := by
    intro k u hk
    show k ∈ upd t.lst v (if l ∈ t.lst v then t.lst v else l :: t.lst v) u
    by_cases e : u = v
    · subst e
      rw [upd_self]
      split
      · exact hk
      · exact List.mem_cons_of_mem _ hk
    · rw [upd_ne _ _ e]; exact hk
  unfold listen at h
  split at h
  · injection h with h
    subst h
    exact .quiet (Nat.le_refl _) key rfl (fun _ _ => rfl)
  · split at h
    · cases h
    · injection h with h
      subst h
      split
      · exact .quiet (Nat.le_refl _) key rfl (fun _ _ => rfl)
      · exact .same_refl _

/-- The bounds `b` are implied by the bounds `a`. -/
def Within2 (a b : WithBot W × WithTop W) : Prop := b.1 ≤ a.1 ∧ a.2 ≤ b.2

theorem negTop_anti {a b : WithTop W} (h : a ≤ b) : negTop b ≤ negTop a := by
  cases b with
  | top => exact bot_le
  | coe b =>
    cases a with
    | top => exact absurd (top_le_iff.mp h) (WithTop.coe_ne_top)
    | coe a =>
      have h : a ≤ b := WithTop.coe_le_coe.mp h
      exact WithBot.coe_le_coe.mpr (neg_le_neg h)

/-- Fewer constraints: larger distances. -/
theorem core_mono {F F' : List (Dist W × Bool)} (h : Core t F) (h' : Core t' F') (hn : t'.nv = t.nv) (hF : ∀ e ∈ F', e ∈ F) {i j : Nat} (hi : i < t.nv) (hj : j < t.nv) :
    t.d i j ≤ t'.d i j := by
  have key : ∀ X, Pot t.nv t.d X → ((X j - X i : W) : WithTop W) ≤ t'.d i j := fun X hX =>
    h'.sound X (fun e he => pot_satF h hX e (hF e he)) i j (by rw [hn]; exact hi) (by rw [hn]; exact hj)
  cases hd : t.d i j with
  | coe x =>
    obtain ⟨X, hX, hx⟩ := (far_pot h.closed hi hj).1 x hd
    rw [← hx]
    exact key X hX
  | top =>
    cases hd' : t'.d i j with
    | top => exact le_refl _
    | coe y =>
      obtain ⟨X, hX, hx⟩ := (far_pot h.closed hi hj).2 hd y
      have := key X hX
      rw [hd'] at this
      exact absurd (WithTop.coe_le_coe.mp this) (not_le.mpr hx)

theorem newVar_lst (t : DL W) : t.newVar.1.lst = t.lst ∧ t.newVar.1.told = t.told := by
  unfold newVar
  simp only
  split <;> exact ⟨rfl, rfl⟩

/-- Every call except `pop`: the bounds read last are the current ones. -/
theorem Call.tells_exact {x y : DL W × List (List (Dist W × Bool))} (hx : Hist x) (hc : Call x y) (hl : x.2.length ≤ y.2.length) : Tells Eq x.1 y.1 := by
  obtain ⟨hg, hr⟩ := hx.good
  cases hc with
  | newVar =>
    obtain ⟨c, _, e⟩ := newVar_eqv hg.core
    have h1 := e.nv
    have h2 := e.d
    refine .quiet (by rw [h1]; exact Nat.le_succ _) (fun l v hv => ?_) ?_ (fun v hv => ?_)
    · show l ∈ (DL.newVar _).1.lst v
      rw [(newVar_lst _).1]
      exact hv
    · exact (newVar_lst _).2
    · simp only [bounds, h2]
  | register => exact .quiet (Nat.le_refl _) (fun _ _ h => h) rfl (fun _ _ => rfl)
  | lit hv hs he =>
    rcases propagate_ends hv hs he with ⟨_, rfl⟩ | ⟨cu, h⟩
    · exact .same_refl _
    · exact assertD_tells h
  | refused he => rw [(propagate_confl he).1]; exact .same_refl _
  | push => exact .quiet (Nat.le_refl _) (fun _ _ h => h) rfl (fun _ _ => rfl)
  | pop hne hp => simp only [List.length_cons] at hl; omega
  | listen h => exact listen_tells h

/-- Every call: the bounds read last imply the current ones. -/
theorem Call.tells {x y : DL W × List (List (Dist W × Bool))} (hx : Hist x) (hc : Call x y) : Tells Within2 x.1 y.1 := by
  by_cases hl : x.2.length ≤ y.2.length
  · exact (hc.tells_exact hx hl).mono (fun h => by subst h; exact ⟨le_refl _, le_refl _⟩)
  · have hy := (hx.call hc).good.1
    have hg := hx.good.1
    cases hc with
    | pop hne hp =>
      have hcore := hy.core
      obtain ⟨L, Ls, _, rfl⟩ := pop_cases hp
      have h0 := hg.core.one
      refine .quiet (Nat.le_refl _) (fun _ _ h => h) rfl (fun v hv => ⟨?_, ?_⟩)
      · exact negTop_anti (core_mono hg.core hcore rfl (fun e he => by simp only [List.flatten_cons, List.mem_append]; exact Or.inr he) hv h0)
      · exact core_mono hg.core hcore rfl (fun e he => by simp only [List.flatten_cons, List.mem_append]; exact Or.inr he) h0 hv
    | newVar => exact absurd (Nat.le_refl _) hl
    | register => exact absurd (Nat.le_refl _) hl
    | refused => exact absurd (Nat.le_refl _) hl
    | listen => exact absurd (Nat.le_refl _) hl
    | lit => exact absurd (Nat.le_refl _) hl
    | push => exact absurd (Nat.le_succ _) hl

/-- Any number of calls. -/
abbrev Calls (x y : DL W × List (List (Dist W × Bool))) : Prop := Relation.ReflTransGen Call x y
/-- Any number of calls none of which is a `pop` (the only call that closes a level). -/
abbrev UpCalls (x y : DL W × List (List (Dist W × Bool))) : Prop := Relation.ReflTransGen (fun x y => Call x y ∧ x.2.length ≤ y.2.length) x y

theorem Hist.calls {x y : DL W × List (List (Dist W × Bool))} (hx : Hist x) (h : Calls x y) : Hist y := by
  induction h with
  | refl => exact hx
  | tail _ hc ih => exact ih.call hc

theorem UpCalls.calls {x y : DL W × List (List (Dist W × Bool))} (h : UpCalls x y) : Calls x y := by
  induction h with
  | refl => exact .refl
  | tail _ hc ih => exact ih.tail hc.1

theorem Calls.tells {x y : DL W × List (List (Dist W × Bool))} (hx : Hist x) (h : Calls x y) : Tells Within2 x.1 y.1 := by
  induction h with
  | refl => exact .refl (fun _ => ⟨le_refl _, le_refl _⟩) _
  | tail h1 hc ih => exact ih.trans (fun a b => ⟨b.1.trans a.1, a.2.trans b.2⟩) (hc.tells (hx.calls h1))

theorem UpCalls.tells {x y : DL W × List (List (Dist W × Bool))} (hx : Hist x) (h : UpCalls x y) : Tells Eq x.1 y.1 := by
  induction h with
  | refl => exact .same_refl _
  | tail h1 hc ih => exact ih.same_trans (hc.1.tells_exact (hx.calls (UpCalls.calls h1)) hc.2)

/-! ### Inside the core -/

/-- No conflict is reported after a clause has been recorded. -/
inductive Calm : TAct (DL W) → Prop
  | ok {u : DL W} : Calm (.ok u)
  | fail {e : Err} : Calm (.fail e)
  | record {cl k} : (∀ v, Calm (k v)) → Calm (.record cl k)

theorem emit_calm (t : DL W) : ∀ (ds : List (Dist W)) (val : Lit → Option Bool), Calm (t.emit ds val)
  | [], _ => .ok
  | dd :: ds, val => by
    unfold emit
    split
    · split
      · split
        · exact .fail
        · exact .record (fun v => emit_calm t ds v)
      · split
        · split
          · exact .fail
          · exact .record (fun v => emit_calm t ds v)
        · exact emit_calm t ds val
    · exact emit_calm t ds val

theorem Calm.all {P : DL W → Prop} {a : TAct (DL W)} (h : Calm a) (hP : ∀ t', a.Ends t' → P t') : a.All P := by
  induction h with
  | ok => exact hP _ .ok
  | fail => trivial
  | record _ ih => exact fun v => ih v (fun t' ht => hP t' (.record ht))

theorem propagate_shape (t : DL W) (val : Lit → Option Bool) (p : Lit) : Calm (t.propagate val p) ∨ ∃ cl, t.propagate val p = .confl t cl := by
  unfold propagate
  split
  · exact Or.inl .fail
  · split
    · exact Or.inl .ok
    · split
      · split
        · split
          · exact Or.inl .fail
          · exact Or.inr ⟨_, rfl⟩
        · exact Or.inl .ok
        · split
          · exact Or.inl .fail
          · exact Or.inl (emit_calm _ _ _)
      · exact Or.inl .fail

theorem propagate_all {P : DL W → Prop} (val : Lit → Option Bool) (p : Lit) (h0 : P t) (h1 : ∀ dd sg t', t.vd p.var = some dd → val ⟨dd.b, true⟩ = some sg → (t.propagate val p).Ends t' → P t') :
    (t.propagate val p).All P := by
  rcases propagate_shape t val p with h | ⟨cl, h⟩
  · refine h.all (fun t' he => ?_)
    cases hv : t.vd p.var with
    | none => unfold propagate at he; rw [hv] at he; cases he
    | some dd =>
      cases hs : val ⟨dd.b, true⟩ with
      | none => unfold propagate at he; rw [hv] at he; simp only at he; rw [hs] at he; cases he; exact h0
      | some sg => exact h1 dd sg t' hv hs he
  · rw [h]
    exact h0

/-- Every call that the core makes is a call of the histories. -/
theorem keeps {x : DL W × List (List (Dist W × Bool))} (hx : Hist x) : Keeps (safeOps (W := W)) (fun t => ∃ A, Calls x (t, A)) where
  prop := fun i t val p ⟨A, h⟩ => by
    show TAct.All _ (if t.safe val p then t.propagate val p else .fail .excluded)
    split
    · refine propagate_all val p ⟨A, h⟩ (fun dd sg t' hv hs he => ?_)
      obtain ⟨a, B, rfl⟩ := (hx.calls h).good.1.ne
      exact ⟨_, h.tail (.lit hv hs he)⟩
    · trivial
  check := fun i t val t' r ⟨A, h⟩ hc => by
    have hc : (if t.checkOk val then Except.ok (t, none) else Except.error Err.assert) = .ok (t', r) := hc
    split at hc
    · injection hc with hc; injection hc with e1 e2; subst e1; exact ⟨A, h⟩
    · cases hc
  push := fun t ⟨A, h⟩ => ⟨_, h.tail .push⟩
  pop := fun t t' ⟨A, h⟩ hp => by
    have hp : t.pop = .ok t' := hp
    have hg := (hx.calls h).good.1
    obtain ⟨a, B, rfl⟩ := hg.ne
    refine ⟨_, h.tail (.pop ?_ hp)⟩
    cases hg with
    | base _ hl => unfold pop at hp; rw [hl] at hp; cases hp
    | level _ _ _ h4 =>
      obtain ⟨b, C, e⟩ := h4.ne
      rw [e]
      simp

theorem newDistance_call {s s' : Sat (DL W)} {i j : Nat} {w : W} {p : Lit} {Z : Asg → Prop} (h : SInv Z s) (hi : i < s.th.nv) (hj : j < s.th.nv) (hn : newDistance s i j w = .ok (s', p))
    (A : List (List (Dist W × Bool))) : s'.th = s.th ∨ Call (s.th, A) (s'.th, A) := by
  unfold newDistance at hn
  split at hn
  · split at hn
    · injection hn with hn; injection hn with e1 e2; subst e1; exact Or.inl rfl
    · split at hn
      · injection hn with hn; injection hn with e1 e2; subst e1; exact Or.inl rfl
      · next h1 h2 =>
        simp only at hn
        injection hn with hn; injection hn with e1 e2
        have hw := h.rinv.inv.wf
        have hv2 : s.newVar.2 = s.nvars := by rw [Sat.newVar_eq hw]
        have hth : (s.newVar.1.bind s.newVar.2 0).th = s.th := by rw [Sat.newVar_eq hw]; rfl
        have hf : s.th.vd s.nvars = none := by
          cases hx : s.th.vd s.nvars with
          | none => rfl
          | some dd => exact absurd (h.fresh _ _ hx) (Nat.lt_irrefl _)
        subst e1
        rw [hth, hv2]
        exact Or.inr (.register (dd := ⟨s.nvars, i, j, w⟩) hi hj h1 h2 hf)
  · cases hn

/-- One successful call on the core or on the theory (the steps of `DReach`). -/
inductive DCall (E : Env) : Sat (DL W) → Sat (DL W) → Prop
  | step {s s' : Sat (DL W)} {op out} : (op = .simplify → ∀ u, s.propagate E safeOps = .ok (u, true) → u.Fix u.okQ) → s.step E safeOps op = .ok (s', out) → DCall E s s'
  | newPoint {s : Sat (DL W)} : DCall E s { s with th := s.th.newVar.1 }
  | newDistance {s s' : Sat (DL W)} {i j w p} : i < s.th.nv → j < s.th.nv → newDistance s i j w = .ok (s', p) → DCall E s s'
  | listen {s : Sat (DL W)} {v l t} : s.th.listen v l = .ok t → DCall E s { s with th := t }

theorem DReach.next {E : Env} {s s' : Sat (DL W)} (h : DReach E s) (hc : DCall E s s') : DReach E s' := by
  cases hc with
  | step a b => exact h.step a b
  | newPoint => exact h.newPoint
  | newDistance a b c => exact h.newDistance a b c
  | listen a => exact h.listen a

/-- What a call does to the theory is a sequence of calls of the theory. -/
theorem DCall.theory {E : Env} {s s' : Sat (DL W)} (h : DReach E s) (hc : DCall E s s') {A : List (List (Dist W × Bool))} (hA : Hist (s.th, A)) : ∃ A', Calls (s.th, A) (s'.th, A') := by
  cases hc with
  | step a b => exact Sat.step_keeps h.sinv.rinv (keeps hA) ⟨A, .refl⟩ a b
  | newPoint => exact ⟨A, .single .newVar⟩
  | newDistance a b c =>
    rcases newDistance_call h.sinv a b c A with e | e
    · rw [e]; exact ⟨A, .refl⟩
    · exact ⟨A, .single e⟩
  | listen a => exact ⟨A, .single (.listen a)⟩

/-- The theory of a reachable solver is in a state of a history of the theory. -/
theorem DReach.hist {E : Env} {s : Sat (DL W)} (h : DReach E s) : ∃ A, Hist (s.th, A) := by
  have next : ∀ {s s' : Sat (DL W)}, DReach E s → DCall E s s' → (∃ A, Hist (s.th, A)) → ∃ A, Hist (s'.th, A) := by
    rintro s s' h hc ⟨A, hA⟩
    obtain ⟨A', hA'⟩ := hc.theory h hA
    exact ⟨A', hA.calls hA'⟩
  induction h with
  | init h => exact ⟨_, .init h⟩
  | step h a b ih => exact next h (.step a b) ih
  | newPoint h ih => exact next h .newPoint ih
  | newDistance h a b c ih => exact next h (.newDistance a b c) ih
  | listen h a ih => exact next h (.listen a) ih

theorem dcalls_theory {E : Env} {s s' : Sat (DL W)} (h : DReach E s) (hc : Relation.ReflTransGen (DCall E) s s') {A : List (List (Dist W × Bool))} (hA : Hist (s.th, A)) :
    DReach E s' ∧ ∃ A', Calls (s.th, A) (s'.th, A') := by
  induction hc with
  | refl => exact ⟨h, A, .refl⟩
  | tail _ c ih =>
    obtain ⟨a, B, hB⟩ := ih
    obtain ⟨C, hC⟩ := c.theory a (hA.calls hB)
    exact ⟨a.next c, C, hB.trans hC⟩

/-! ### C59 -/

/-- C59 (partial): let `l` be registered for `v`. After any sequence of calls, the bounds that `l` read at its last notification about `v` since then (the bounds at the start if
it was not notified) are at least as tight as the current ones: no listener is unaware of a tighter bound. Only registered listeners are notified, and only about time points that
they are registered for. Missing: `pop` relaxes the bounds without notifying (`C59_witness_pop`). -/
theorem C59_told_partial {x y : DL W × List (List (Dist W × Bool))} (hx : Hist x) (h : Calls x y) :
    ∃ N, y.1.told = N ++ x.1.told ∧ (∀ e ∈ N, e.1 ∈ y.1.lst e.2.1) ∧
      ∀ l v, v < x.1.nv → l ∈ x.1.lst v → ∀ a b, (lastRead l v N).getD (x.1.bounds v) = (a, b) → y.1.lb v ≤ a ∧ b ≤ y.1.ub v := by
  obtain ⟨-, -, N, a, b, c⟩ := h.tells hx
  refine ⟨N, a, b, fun l v hv hl p q e => ?_⟩
  have := c l v hv hl
  rw [e] at this
  exact this

/-- C59 (partial): as long as no level is closed, the bounds read last are the current ones; if the listener was not notified, they have not changed. -/
theorem C59_exact_partial {x y : DL W × List (List (Dist W × Bool))} (hx : Hist x) (h : UpCalls x y) :
    ∃ N, y.1.told = N ++ x.1.told ∧
      ∀ l v, v < x.1.nv → l ∈ x.1.lst v → (∀ b, lastRead l v N = some b → y.1.bounds v = b) ∧ (lastRead l v N = none → y.1.bounds v = x.1.bounds v) := by
  obtain ⟨-, -, N, a, -, c⟩ := h.tells hx
  refine ⟨N, a, fun l v hv hl => ⟨fun b e => ?_, fun e => ?_⟩⟩
  · have := c l v hv hl
    rw [e] at this
    exact this.symm
  · have := c l v hv hl
    rw [e] at this
    exact this.symm

/-- C59 (partial): the same in a solver, whatever the core does between two calls of the user (safe histories). -/
theorem C59_solver_partial {E : Env} {s s' : Sat (DL W)} (h : DReach E s) (hc : Relation.ReflTransGen (DCall E) s s') :
    ∃ N, s'.th.told = N ++ s.th.told ∧ (∀ e ∈ N, e.1 ∈ s'.th.lst e.2.1) ∧
      ∀ l v, v < s.th.nv → l ∈ s.th.lst v → ∀ a b, (lastRead l v N).getD (s.th.bounds v) = (a, b) → s'.th.lb v ≤ a ∧ b ≤ s'.th.ub v := by
  obtain ⟨A, hA⟩ := h.hist
  obtain ⟨_, A', hA'⟩ := dcalls_theory h hc hA
  exact C59_told_partial hA hA'

/-- C59: registrations are permanent. -/
theorem C59_permanent {x y : DL W × List (List (Dist W × Bool))} (hx : Hist x) (h : Calls x y) {l v : Nat} (hl : l ∈ x.1.lst v) : l ∈ y.1.lst v := (h.tells hx).lst l v hl

/-- C59: `listen` registers the listener, in the rational theory if the bounds of the time point do not coincide; it changes nothing else. -/
theorem C59_listen {t : DL W} {A : List (List (Dist W × Bool))} (h : Hist (t, A)) {v l : Nat} (hv : v < t.nv) :
    ∃ t', t.listen v l = .ok t' ∧ ((Dom.listenAll W = true ∨ ∃ a : W, t.lb v ≤ (a : WithBot W) ∧ (a : WithTop W) < t.ub v) → l ∈ t'.lst v) ∧
      (∀ k u, k ∈ t'.lst u → k ∈ t.lst u ∨ (k = l ∧ u = v)) ∧ t' = { t with lst := t'.lst } := by
  have h1 : l ∈ (t.addListener v l).lst v := by
    show l ∈ upd t.lst v (if l ∈ t.lst v then t.lst v else l :: t.lst v) v
    rw [upd_self]
    split
    · assumption
    · exact List.mem_cons_self
  have h2 : ∀ k u, k ∈ (t.addListener v l).lst u → k ∈ t.lst u ∨ (k = l ∧ u = v) := by
    intro k u hk
    have hk : k ∈ upd t.lst v (if l ∈ t.lst v then t.lst v else l :: t.lst v) u := hk
    by_cases e : u = v
    · subst e
      rw [upd_self] at hk
      split at hk
      · exact Or.inl hk
      · rcases List.mem_cons.mp hk with e | hk
        · exact Or.inr ⟨e, rfl⟩
        · exact Or.inl hk
    · rw [upd_ne _ _ e] at hk
      exact Or.inl hk
  unfold listen
  by_cases ha : Dom.listenAll W = true
  · rw [if_pos ha]
    exact ⟨_, rfl, fun _ => h1, h2, rfl⟩
  · rw [if_neg ha, if_neg (not_not.mpr (hv.trans_le h.good.1.core.cap))]
    by_cases hl : t.loose v = true
    · rw [if_pos hl]
      exact ⟨_, rfl, fun _ => h1, h2, rfl⟩
    · rw [if_neg hl]
      refine ⟨_, rfl, ?_, fun _ _ hk => Or.inl hk, rfl⟩
      rintro (e | ⟨a, e1, e2⟩)
      · exact absurd e ha
      · exfalso
        apply hl
        unfold lb at e1
        unfold ub at e2
        unfold loose
        cases h3 : t.d v 0 with
        | top => rfl
        | coe x =>
          cases h4 : t.d 0 v with
          | top => rfl
          | coe y =>
            rw [h3] at e1
            rw [h4] at e2
            exact decide_eq_true ((WithBot.coe_le_coe.mp e1).trans_lt (WithTop.coe_lt_coe.mp e2))

/-- Three time points, six constraints (`DL/Witness.lean`), listener 7 on time points 1 and 2. -/
def netL : DL ℤ := (net0.addListener 1 7).addListener 2 7

theorem netL_hist : Hist (netL, [[]]) := (net0_hist.call (Call.listen (v := 1) (l := 7) rfl)).call (Call.listen (v := 2) (l := 7) rfl)

/-- Asserting `tp1 - tp0 <= 1` and then, at a new level, `tp2 - tp1 <= 1`: the listener is told about both. -/
def netL2 : DL ℤ := ((netL.go (valOn [1]) ⟨1, true⟩).push).go (valOn [1, 2, 5]) ⟨2, true⟩

theorem netL2_hist : Hist (netL2, [[(e2, true)], [(e1, true)]]) :=
  go_hist (Hist.call (go_hist netL_hist (valOn [1]) ⟨1, true⟩ e1 true (by decide) (by decide) (by decide)) Call.push) (valOn [1, 2, 5]) ⟨2, true⟩ e2 true (by decide) (by decide) (by decide)

example : netL2.told.map (fun e => (e.1, e.2.1, e.2.2.2)) = [(7, 2, ((2 : ℤ) : WithTop ℤ)), (7, 1, ((1 : ℤ) : WithTop ℤ))] ∧ netL2.ub 2 = ((2 : ℤ) : WithTop ℤ) := by decide

/-- The full claim (the bounds read last are the current ones) fails: closing the level relaxes the upper bound of time point 2 to infinity, and the listener, which read 2, is
not told. -/
theorem C59_witness_pop : Hist (netL2, [[(e2, true)], [(e1, true)]]) ∧ 7 ∈ netL2.lst 2 ∧ lastRead 7 2 netL2.told = some (netL2.bounds 2) ∧
    ∃ t', netL2.pop = .ok t' ∧ t'.told = netL2.told ∧ t'.ub 2 = ⊤ ∧ netL2.ub 2 = ((2 : ℤ) : WithTop ℤ) ∧ Hist (t', [[(e1, true)]]) := by
  refine ⟨netL2_hist, by decide, by decide, _, rfl, rfl, by decide, by decide, netL2_hist.call (Call.pop (by simp) rfl)⟩

/-- The rational theory: `b1: tp1 - tp0 <= 1`, `b2: tp0 - tp1 <= -1`, `b3: tp1 - tp0 <= 0`; at a new level, the first two are asserted. -/
def netQ0 : DL (ℚ ×ₗ ℤ) := ((((init 2).newVar.1).register ⟨1, 0, 1, toLex (1, 0)⟩).register ⟨2, 1, 0, toLex (-1, 0)⟩).register ⟨3, 0, 1, toLex (0, 0)⟩
def netQ : DL (ℚ ×ₗ ℤ) := (netQ0.push.go (valOn [1]) ⟨1, true⟩).go (valOn [1, 2]) ⟨2, true⟩
/-- The level is closed after `listen(tp1, 7)`, and the third constraint is asserted. -/
def netQ' : DL (ℚ ×ₗ ℤ) := match netQ.listen 1 7 with
  | .ok t => match t.pop with
    | .ok t => t.go (valOn [3]) ⟨3, true⟩
    | .error _ => t
  | .error _ => netQ

theorem netQ_hist : Hist (netQ', [[(⟨3, 0, 1, toLex (0, 0)⟩, true)]]) := by
  have h0 : Hist (netQ0, [[]]) :=
    ((((Hist.init (size := 2) (by decide)).call Call.newVar).call (Call.register (dd := ⟨1, 0, 1, toLex (1, 0)⟩) (by decide) (by decide) (by decide +kernel) (by decide +kernel) rfl)).call
      (Call.register (dd := ⟨2, 1, 0, toLex (-1, 0)⟩) (by decide) (by decide) (by decide +kernel) (by decide +kernel) (by decide +kernel))).call
      (Call.register (dd := ⟨3, 0, 1, toLex (0, 0)⟩) (by decide) (by decide) (by decide +kernel) (by decide +kernel) (by decide +kernel))
  have h1 := go_hist (h0.call Call.push) (valOn [1]) ⟨1, true⟩ ⟨1, 0, 1, toLex (1, 0)⟩ true (by decide +kernel) (by decide) (by decide +kernel)
  have h2 : Hist (netQ, _) := go_hist h1 (valOn [1, 2]) ⟨2, true⟩ ⟨2, 1, 0, toLex (-1, 0)⟩ true (by decide +kernel) (by decide) (by decide +kernel)
  cases e1 : netQ.listen 1 7 with
  | error e =>
    have : (netQ.listen 1 7).toOption.isSome = true := by decide +kernel
    rw [e1] at this
    cases this
  | ok t1 =>
    have h3 := h2.call (Call.listen e1)
    cases e2 : t1.pop with
    | error e =>
      have : ((netQ.listen 1 7).toOption.bind (fun t => t.pop.toOption)).isSome = true := by decide +kernel
      rw [e1] at this
      have e3 : (t1.pop).toOption.isSome = true := this
      rw [e2] at e3
      cases e3
    | ok t2 =>
      have h4 := h3.call (Call.pop (by simp) e2)
      have e : netQ' = t2.go (valOn [3]) ⟨3, true⟩ := by
        unfold netQ'
        rw [e1]
        simp only
        rw [e2]
      have k : ((netQ.listen 1 7).toOption.bind (fun t => t.pop.toOption)) = some t2 := by
        rw [e1]
        show t1.pop.toOption = some t2
        rw [e2]
        rfl
      have h5 : (some t2).map (fun t => t.vd 3) = some (some ⟨3, 0, 1, toLex (0, 0)⟩) := by rw [← k]; decide +kernel
      have h6 : (some t2).map (fun t => ((t.propagate (valOn [3]) ⟨3, true⟩).final (valOn [3])).isSome) = some true := by rw [← k]; decide +kernel
      rw [e]
      exact go_hist h4 (valOn [3]) ⟨3, true⟩ ⟨3, 0, 1, toLex (0, 0)⟩ true (Option.some.inj h5) (by decide) (Option.some.inj h6)

/-- In the rational theory the registration has to be made when the bounds do not coincide: made while a level fixes the time point, it does nothing, and after the level is closed
the listener is not told about the new upper bound. -/
theorem C59_witness_late : Hist (netQ', [[(⟨3, 0, 1, toLex (0, 0)⟩, true)]]) ∧ netQ'.lst 1 = [] ∧ netQ'.told.length = 0 ∧ netQ'.ub 1 = ((toLex (0, 0) : ℚ ×ₗ ℤ) : WithTop (ℚ ×ₗ ℤ)) :=
  ⟨netQ_hist, by decide +kernel, by decide +kernel, by decide +kernel⟩

end DL
end Semitone
