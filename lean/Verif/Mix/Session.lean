import Verif.Mix.Model

/-!
# Linear arithmetic and difference logic on the same core: sessions

The calls a client may make, and what holds after them.
-/
namespace Semitone

namespace LRA
open Lin
variable {E : Env} {L : LEnv} {Z : Asg → Prop} {s s' : Sat LRA} {U : List Fact} {d : Bool}

/-- New assertions have new literals. -/
structure Fresh (s s' : Sat LRA) : Prop where
  nv : s.nvars ≤ s'.nvars
  vas : ∀ v, s'.th.vas v ≠ none → s.th.vas v ≠ none ∨ s.nvars ≤ v

theorem Fresh.trans {s1 s2 s3 : Sat LRA} (h1 : Fresh s1 s2) (h2 : Fresh s2 s3) : Fresh s1 s3 := by
  refine ⟨h1.nv.trans h2.nv, fun v hv => ?_⟩
  rcases h2.vas v hv with h | h
  · exact h1.vas v h
  · exact .inr (h1.nv.trans h)

theorem newVarL_fresh (h : SInv L Z s U) {l : Lin} {t : LRA} {y : Nat} (hn : s.th.newVarL s.root l = .ok (t, y)) : Fresh s { s with th := t } := by
  obtain ⟨Fs, hg⟩ := h.ti.good
  rcases newVarL_cases hg hn with ⟨e, -⟩ | ⟨-, -, -, -, e, -⟩
  · subst e; exact ⟨Nat.le_refl _, fun _ => .inl⟩
  · subst e
    exact ⟨Nat.le_refl _, fun _ h => .inl h⟩

theorem newRel_fresh (h : SInv L Z s U) {R : Rel4} {l r : Lin} {p : Lit} (hn : newRel R s l r = .ok (s', p)) : Fresh s s' := by
  unfold newRel at hn
  simp only at hn
  split at hn
  · cases hn
  · split at hn
    · injection hn with hn; injection hn with e1 e2; subst e1; exact ⟨Nat.le_refl _, fun _ => .inl⟩
    · injection hn with hn; injection hn with e1 e2; subst e1; exact ⟨Nat.le_refl _, fun _ => .inl⟩
    · split at hn
      · cases hn
      · next t y hnv =>
        have ha := newVarL_fresh h hnv
        split at hn
        · injection hn with hn; injection hn with e1 e2; subst e1; exact ha
        · injection hn with hn; injection hn with e1 e2; subst e1; exact ha
        · split at hn
          · injection hn with hn; injection hn with e1 e2; subst e1; exact ha
          · injection hn with hn; injection hn with e1 e2; subst e1
            rw [Sat.newVar_eq h.rinv.inv.wf]
            refine ⟨Nat.le_succ _, fun v hv => ?_⟩
            by_cases e : v = s.nvars
            · exact .inr (Nat.le_of_eq e.symm)
            · refine ha.vas v (fun hx => hv ?_)
              simp only [LRA.addAsrt]
              rw [upd_ne _ _ e]
              exact hx

theorem newEqL_fresh (h : SInv L Z s U) {l r : Lin} {p : Lit} (hl : l.Canon) (hr : r.Canon) (hvl : ∀ w ∈ keys l.vars, w < s.th.n)
    (hvr : ∀ w ∈ keys r.vars, w < s.th.n) (hn : newEqL E s l r = .ok (s', p)) : Fresh s s' := by
  unfold newEqL at hn
  split at hn
  · cases hn
  · next s1 p1 h1 =>
    have a1 := newRel_adds h hl hr hvl hvr h1
    split at hn
    · cases hn
    · next s2 p2 h2 =>
      have hvl1 : ∀ w ∈ keys l.vars, w < s1.th.n := fun w hw => (hvl w hw).trans_le a1.n
      have hvr1 : ∀ w ∈ keys r.vars, w < s1.th.n := fun w hw => (hvr w hw).trans_le a1.n
      have a2 := newRel_adds a1.sinv hl hr hvl1 hvr1 h2
      obtain ⟨hroot, hv⟩ := Sat.newConj_pre hn
      obtain ⟨s3, q, a, b⟩ := Sat.newConj_spec (E := E) a2.sinv.rinv.inv hroot hv
      rw [hn] at a
      injection a with a; injection a with e1 e2
      subst e1 e2
      have hF := (newRel_fresh h h1).trans (newRel_fresh a1.sinv h2)
      refine ⟨hF.nv.trans b.defd.rstep.nv, ?_⟩
      rw [b.defd.rstep.th]; exact hF.vas

end LRA

namespace DL
variable {W : Type} [AddCommGroup W] [LinearOrder W] [IsOrderedAddMonoid W] [Dom W]
variable {E : Env} {Z : Asg → Prop} {s s' : Sat (DL W)}

/-- New constraints have new literals. -/
structure Fresh (s s' : Sat (DL W)) : Prop where
  nv : s.nvars ≤ s'.nvars
  vd : ∀ v, s'.th.vd v ≠ none → s.th.vd v ≠ none ∨ s.nvars ≤ v

theorem Fresh.refl (s : Sat (DL W)) : Fresh s s := ⟨Nat.le_refl _, fun _ => .inl⟩

theorem Fresh.trans {s1 s2 s3 : Sat (DL W)} (h1 : Fresh s1 s2) (h2 : Fresh s2 s3) : Fresh s1 s3 := by
  refine ⟨h1.nv.trans h2.nv, fun v hv => ?_⟩
  rcases h2.vd v hv with h | h
  · exact h1.vd v h
  · exact .inr (h1.nv.trans h)

theorem newDistance_fresh {i j : Nat} {w : W} {p : Lit} (h : SInv Z s) (hn : newDistance s i j w = .ok (s', p)) : Fresh s s' := by
  unfold newDistance at hn
  split at hn
  swap
  · cases hn
  split at hn
  · injection hn with hn; injection hn with e1 e2; exact e1 ▸ .refl s
  split at hn
  · injection hn with hn; injection hn with e1 e2; exact e1 ▸ .refl s
  simp only at hn
  injection hn with hn; injection hn with e1 e2
  rw [Sat.newVar_eq h.rinv.inv.wf] at e1
  subst e1
  refine ⟨Nat.le_succ _, fun v hv => ?_⟩
  by_cases e : v = s.nvars
  · exact .inr (Nat.le_of_eq e.symm)
  · refine .inl (fun hx => hv ?_)
    simp only [DL.register, Sat.bind]
    rw [upd_ne _ _ e]
    exact hx

theorem newRel_fresh {R : Rel} {l r : Lin} {p : Lit} (h : SInv Z s) (hl : l.Canon) (hr : r.Canon)
    (hlv : ∀ t ∈ l.vars, t.1 < s.th.nv) (hrv : ∀ t ∈ r.vars, t.1 < s.th.nv) (hn : newRel E R s l r = .ok (s', p)) : Fresh s s' := by
  refine newRel_ind (P := fun u => Fresh s u) h (.refl s) (fun hu hP _ _ hn => hP.trans (newDistance_fresh hu hn)) (fun {u u' _ _ _} hu hP hn => hP.trans ?_) hl hr hlv hrv hn
  obtain ⟨hr, hv⟩ := Sat.newConj_pre hn
  obtain ⟨s1, r, a, b⟩ := Sat.newConj_spec (E := E) hu.rinv.inv hr hv
  rw [hn] at a
  injection a with a; injection a with e1 e2
  subst e1 e2
  refine ⟨b.defd.rstep.nv, fun v hv => .inl ?_⟩
  rw [b.defd.rstep.th] at hv
  exact hv

/-- The relational constructors keep the network and retract nothing. -/
theorem newRel_mild {R : Rel} {l r : Lin} {p : Lit} (h : SInv Z s) (hl : l.Canon) (hr : r.Canon)
    (hlv : ∀ t ∈ l.vars, t.1 < s.th.nv) (hrv : ∀ t ∈ r.vars, t.1 < s.th.nv) (hn : newRel E R s l r = .ok (s', p)) :
    SInv Z s' ∧ s.Mild s' ∧ ∀ α X, Model s' α X → Model s α X := by
  refine newRel_ind (P := fun u => SInv Z u ∧ s.Mild u ∧ ∀ α X, Model u α X → Model s α X) h ⟨h, .refl s, fun _ _ h => h⟩ (fun hu hP hi hj hn => ?_) (fun {u u' l1 l2 p} hu hP hn => ?_) hl hr hlv hrv hn
  · have a := newDistance_adds hu hi hj hn
    exact ⟨a.sinv, hP.2.1.trans a.mild, fun α X hm => hP.2.2 α X (a.keeps α X hm)⟩
  · obtain ⟨hr, hv⟩ := Sat.newConj_pre hn
    obtain ⟨s1, r, a, b⟩ := Sat.newConj_spec (E := E) hu.rinv.inv hr hv
    rw [hn] at a
    injection a with a; injection a with e1 e2
    subst e1 e2
    have hth := b.defd.rstep.th
    refine ⟨⟨by rw [hth]; exact b.defd.rinv hu.rinv, fun v dd hv' => ?_, fun α β hab => hu.zloc α β (fun v hv => hab v (hv.trans_le b.defd.rstep.nv))⟩,
      hP.2.1.trans (b.defd.rstep.mild (Sat.newConj_quiet hn) hu.rinv.inv.wf hr), fun α X hm => hP.2.2 α X ?_⟩
    · rw [hth] at hv'
      exact (hu.fresh v dd hv').trans_le b.defd.rstep.nv
    · exact ⟨hm.1, fun D hD => hm.2.1 D (b.defd.rstep.posted D hD), fun v dd hv => hm.2.2 v dd (by rw [hth]; exact hv)⟩

end DL

namespace Mix
open Lin
variable {W : Type} [AddCommGroup W] [LinearOrder W] [IsOrderedAddMonoid W] [Dom W]
variable {E : Env} {L : LEnv} {S S' : Sat (LRA × DL W)} {U : List Fact} {d : Bool}

/-- The states of a core with the two theories that sequences of successful calls lead to: calls of the core, calls of the arithmetic theory (on its view of the core, `Sat.left`, as in `LRA.AReach`),
calls of the difference-logic theory (on its view, `Sat.right`, as in `DL.DReach`). Histories with an unsafe propagation of difference logic (`DL.safe`) are excluded. -/
inductive Reach (E : Env) (L : LEnv) : Sat (LRA × DL W) → List Fact → Prop
  | init {size : Nat} : 1 ≤ size → Reach E L (new size) []
  | step {S S' : Sat (LRA × DL W)} {U op out} : Reach E L S U → (op = .simplify → ∀ u, S.propagate E (safeOps L) = .ok (u, true) → u.Fix u.okQ) →
      S.step E (safeOps L) op = .ok (S', out) → Reach E L S' U
  | newVar {S : Sat (LRA × DL W)} {U} : Reach E L S U → Reach E L (S.putL 1 { S.left 1 with th := S.th.1.newVar.1 }) U
  | newVarL {S : Sat (LRA × DL W)} {U l t y} : Reach E L S U → l.Canon → (∀ w ∈ keys l.vars, S.th.1.row w = none) → l.kt = 0 → S.th.1.newVarL S.root l = .ok (t, y) →
      Reach E L (S.putL 1 { S.left 1 with th := t }) U
  | newRel {S : Sat (LRA × DL W)} {U R l r s p} : Reach E L S U → l.Canon → r.Canon → (∀ w ∈ keys l.vars, w < S.th.1.n) → (∀ w ∈ keys r.vars, w < S.th.1.n) →
      LRA.newRel R (S.left 1) l r = .ok (s, p) → Reach E L (S.putL 1 s) U
  | newEq {S : Sat (LRA × DL W)} {U l r s p} : Reach E L S U → l.Canon → r.Canon → (∀ w ∈ keys l.vars, w < S.th.1.n) → (∀ w ∈ keys r.vars, w < S.th.1.n) →
      LRA.newEqL E (S.left 1) l r = .ok (s, p) → Reach E L (S.putL 1 s) U
  | setLb {S : Sat (LRA × DL W)} {U x v p s} : Reach E L S U → S.root = true → x < S.th.1.n → S.value p = some true → LRA.setLbC E L (S.left 1) x v p = .ok (s, none) →
      Reach E L (S.putL 1 s) (.lo p x v :: U)
  | setUb {S : Sat (LRA × DL W)} {U x v p s} : Reach E L S U → S.root = true → x < S.th.1.n → S.value p = some true → LRA.setUbC E L (S.left 1) x v p = .ok (s, none) →
      Reach E L (S.putL 1 s) (.hi p x v :: U)
  | listen {S : Sat (LRA × DL W)} {U v l t} : Reach E L S U → S.th.1.listen v l = .ok t → Reach E L (S.putL 1 { S.left 1 with th := t }) U
  | newPoint {S : Sat (LRA × DL W)} {U} : Reach E L S U → Reach E L (S.putR 1 { S.right 1 with th := S.th.2.newVar.1 }) U
  | newDistance {S : Sat (LRA × DL W)} {U i j w s p} : Reach E L S U → i < S.th.2.nv → j < S.th.2.nv → DL.newDistance (S.right 1) i j w = .ok (s, p) → Reach E L (S.putR 1 s) U
  | newDiff {S : Sat (LRA × DL W)} {U R l r s p} : Reach E L S U → l.Canon → r.Canon → (∀ t ∈ l.vars, t.1 < S.th.2.nv) → (∀ t ∈ r.vars, t.1 < S.th.2.nv) →
      DL.newRel E R (S.right 1) l r = .ok (s, p) → Reach E L (S.putR 1 s) U
  | listenDl {S : Sat (LRA × DL W)} {U v l t} : Reach E L S U → S.th.2.listen v l = .ok t → Reach E L (S.putR 1 { S.right 1 with th := t }) U

theorem newPoint_model {s : Sat (DL W)} {α : Asg} {X : Nat → W} (h : DL.Model { s with th := s.th.newVar.1 } α X) : DL.Model s α X := by
  have hvd : s.th.newVar.1.vd = s.th.vd := by unfold DL.newVar; simp only; split <;> rfl
  exact ⟨h.1, h.2.1, fun v dd hv => h.2.2 v dd (by show s.th.newVar.1.vd v = some dd; rw [hvd]; exact hv)⟩

theorem listen_model {s : Sat (DL W)} {α : Asg} {X : Nat → W} {v l : Nat} {t : DL W} (hn : s.th.listen v l = .ok t) (h : DL.Model { s with th := t } α X) : DL.Model s α X := by
  obtain ⟨f, rfl⟩ := DL.listen_same hn
  exact h

theorem Reach.base (h : Reach E L S U) : Base L S U := by
  induction h with
  | init h => exact init_base h
  | step _ hsf hs ih => exact (ih.step hsf hs).1
  | newVar _ ih => exact ih.putL (LRA.newVar_grows ih.lra).sinv (LRA.newVar_grows ih.lra).mild
  | newVarL _ hc hb hk hn ih =>
    have a := (LRA.newVarL_grows ih.lra hc hb hk hn).1
    exact ih.putL a.sinv a.mild
  | newRel _ hl hr hvl hvr hn ih =>
    have a := LRA.newRel_adds ih.lra hl hr hvl hvr hn
    exact ih.putL a.sinv a.mild
  | newEq _ hl hr hvl hvr hn ih =>
    have a := LRA.newEqL_adds ih.lra hl hr hvl hvr hn
    exact ih.putL a.sinv a.mild
  | setLb _ hr hx hp hn ih =>
    have a := LRA.setLbC_sinv ih.lra hr hx hp hn
    exact ih.putL a.1 a.2.1
  | setUb _ hr hx hp hn ih =>
    have a := LRA.setUbC_sinv ih.lra hr hx hp hn
    exact ih.putL a.1 a.2.1
  | listen _ hn ih => exact ih.putL (LRA.listen_sinv ih.lra hn) (.of_eq rfl (Nat.le_refl _) rfl rfl rfl)
  | newPoint _ ih => exact ih.putR (DL.newPoint_sinv ih.dl) (.of_eq rfl (Nat.le_refl _) rfl rfl rfl) (fun _ _ => newPoint_model)
  | newDistance _ hi hj hn ih =>
    have a := DL.newDistance_adds ih.dl hi hj hn
    exact ih.putR a.sinv a.mild a.keeps
  | newDiff _ hl hr hlv hrv hn ih =>
    obtain ⟨a, b, c⟩ := DL.newRel_mild ih.dl hl hr hlv hrv hn
    exact ih.putR a b c
  | listenDl _ hn ih => exact ih.putR (DL.listen_sinv ih.dl hn) (.of_eq rfl (Nat.le_refl _) rfl rfl rfl) (fun _ _ => listen_model hn)

/-! ### The two theories speak about different variables -/

/-- The variables of the distance constraints are not those of arithmetic assertions. -/
structure Disj (sg : LRA.Sig) (V : Nat → Option (Dist W)) : Prop where
  zero : V 0 = none
  vas : ∀ v, V v ≠ none → sg.vas v = none

theorem Disj.joins {sg : LRA.Sig} {V : Nat → Option (Dist W)} (h : Disj sg V) : Joins (LRA.lraContract L sg) (DL.dlContract V) := by
  intro t1 t2 n A B h1 h2 h0 α1 α2 ⟨x, hx⟩ ⟨X, hX⟩ g1 g2
  have e1 : LRA.sig t1 = sg := LRA.TI.sig h1
  have e2 : t2.vd = V := h2.1.1
  have hvas : t1.vas = sg.vas := congrArg LRA.Sig.vas e1
  let α : Asg := fun v => if V v = none then α1 v else α2 v
  have k1 : ∀ v, V v = none → α v = α1 v := fun v hv => if_pos hv
  have k2 : ∀ v, V v ≠ none → α v = α2 v := fun v hv => if_neg hv
  refine ⟨α, ⟨x, ?_, fun b a hb => ?_, hx.defs, fun f hf' => ?_⟩, ⟨X, fun v dd hv => ?_⟩, fun q hq => ?_⟩
  · rw [k1 0 h.zero]; exact hx.zero
  · have : V b = none := by
      by_contra hne
      have := h.vas b hne
      rw [← hvas, hb] at this
      cases this
    rw [k1 b this]; exact hx.asrt b a hb
  · have hs := g1 _ (h0 _ (h1.fl f hf'))
    have := hx.fact f hf'
    cases f with
    | lo p y v => exact fun _ => this hs
    | hi p y v => exact fun _ => this hs
  · rw [k2 v (by rw [← e2, hv]; simp)]; exact hX v dd hv
  · unfold Asg.sat
    by_cases hv : V q.var = none
    · rw [k1 _ hv]; exact g1 q hq
    · rw [k2 _ hv]; exact g2 q hq

theorem Disj.left {t : DL W} (h : Disj (LRA.sig S.th.1) t.vd) (hfr : ∀ v dd, t.vd v = some dd → v < S.nvars) {s : Sat LRA} (hF : LRA.Fresh (S.left 1) s) : Disj (LRA.sig s.th) t.vd := by
  refine ⟨h.zero, fun v hv => ?_⟩
  by_contra hne
  rcases hF.vas v hne with h' | h'
  · exact h' (h.vas v hv)
  · obtain ⟨dd, hd⟩ := Option.ne_none_iff_exists'.mp hv
    exact absurd (hfr v dd hd) (Nat.not_lt.mpr h')

theorem Disj.right (h : Disj (LRA.sig S.th.1) S.th.2.vd) (hb : Base L S U) {s : Sat (DL W)} (hF : DL.Fresh (S.right 1) s) : Disj (LRA.sig S.th.1) s.th.vd := by
  refine ⟨?_, fun v hv => ?_⟩
  · by_contra hne
    rcases hF.vd 0 hne with h' | h'
    · exact h' h.zero
    · exact absurd hb.dl.nvars_pos (Nat.not_lt.mpr h')
  · by_contra hne
    rcases hF.vd v hv with h' | h'
    · exact hne (h.vas v h')
    · obtain ⟨a, ha⟩ := Option.ne_none_iff_exists'.mp hne
      exact absurd (hb.lra.fresh v a ha) (Nat.not_lt.mpr h')

/-! ### Sessions -/

/-- The core cannot fail, for either theory. -/
structure CLive (L : LEnv) (S : Sat (LRA × DL W)) (d : Bool) : Prop where
  lra : LRA.ALive L (S.left 1) d
  dl : DL.DLiveD (S.right 1) d

theorem CLive.apart (h : CLive L S d) (hd : Disj (LRA.sig S.th.1) S.th.2.vd) : S.Apart 1 := by
  intro v
  by_cases hv : S.th.2.vd v = none
  · exact .inr (h.dl.live.li.free v hv)
  · obtain ⟨Fs, -, -, g, -⟩ := h.lra.li.fs
    exact .inl (g.no v (hd.vas v hv))

theorem live_ids (L : LEnv) : ∀ i ∈ (LRA.ops L).ids, i < 1 := by
  intro i hi
  have hi : i ∈ [0] := hi
  simp at hi
  omega

/-- Liveness of the two theories together. -/
abbrev live (L : LEnv) {sg : LRA.Sig} {V : Nat → Option (Dist W)} (h : Disj sg V) : Live (contract L sg V) := (LRA.live L sg).prod 1 (DL.live V) (live_ids L) h.joins

theorem CLive.join (h : CLive L S d) (hb : Base L S U) (hd : Disj (LRA.sig S.th.1) S.th.2.vd) : S.LiveD (live L hd) d :=
  Sat.LiveD.join ⟨hb.lra.rinv.inv.ti, hb.dl.rinv.inv.ti⟩ h.lra h.dl (h.apart hd)

/-- Sessions: the states of a core with the two theories that sequences of legal calls lead to; `U`: the bounds imposed with `set_lb` and `set_ub`; `d`: whether some were imposed since the last
`propagate()` or `simplify_db()`. The calls are those of the sessions of each theory alone (`LRA.ZReach`, `DL.DSess`), interleaved in any way. -/
inductive Sess (E : Env) (L : LEnv) : Sat (LRA × DL W) → List Fact → Bool → Prop
  | init {size : Nat} : 1 ≤ size → Sess E L (new size) [] false
  | step {S S' : Sat (LRA × DL W)} {U d op out} : Sess E L S U d → S.Legal op → LRA.MayCall op d → S.step E (safeOps L) op ≠ .error .excluded → S.step E (ops L) op = .ok (S', out) →
      Sess E L S' U (LRA.pendingAfter op d)
  | newVar {S : Sat (LRA × DL W)} {U d} : Sess E L S U d → S.dead = false → Sess E L (S.putL 1 { S.left 1 with th := S.th.1.newVar.1 }) U d
  | newVarL {S : Sat (LRA × DL W)} {U d l t y} : Sess E L S U d → S.dead = false → l.Canon → (∀ w ∈ keys l.vars, S.th.1.row w = none) → l.kt = 0 → S.th.1.newVarL S.root l = .ok (t, y) →
      Sess E L (S.putL 1 { S.left 1 with th := t }) U d
  | newRel {S : Sat (LRA × DL W)} {U d R l r s p} : Sess E L S U d → S.dead = false → l.Canon → r.Canon → (∀ w ∈ keys l.vars, w < S.th.1.n) → (∀ w ∈ keys r.vars, w < S.th.1.n) →
      LRA.newRel R (S.left 1) l r = .ok (s, p) → Sess E L (S.putL 1 s) U d
  | newEq {S : Sat (LRA × DL W)} {U d l r s p} : Sess E L S U d → S.dead = false → l.Canon → r.Canon → (∀ w ∈ keys l.vars, w < S.th.1.n) → (∀ w ∈ keys r.vars, w < S.th.1.n) →
      LRA.newEqL E (S.left 1) l r = .ok (s, p) → Sess E L (S.putL 1 s) U d
  | setLb {S : Sat (LRA × DL W)} {U d x v p s} : Sess E L S U d → S.dead = false → S.root = true → x < S.th.1.n → S.value p = some true → 0 ≤ (ofLex v).2 →
      LRA.setLbC E L (S.left 1) x v p = .ok (s, none) → Sess E L (S.putL 1 s) (.lo p x v :: U) true
  | setUb {S : Sat (LRA × DL W)} {U d x v p s} : Sess E L S U d → S.dead = false → S.root = true → x < S.th.1.n → S.value p = some true → (ofLex v).2 ≤ 0 →
      LRA.setUbC E L (S.left 1) x v p = .ok (s, none) → Sess E L (S.putL 1 s) (.hi p x v :: U) true
  | listen {S : Sat (LRA × DL W)} {U d v l t} : Sess E L S U d → S.dead = false → S.th.1.listen v l = .ok t → Sess E L (S.putL 1 { S.left 1 with th := t }) U d
  | newPoint {S : Sat (LRA × DL W)} {U d} : Sess E L S U d → S.dead = false → Sess E L (S.putR 1 { S.right 1 with th := S.th.2.newVar.1 }) U d
  | newDistance {S : Sat (LRA × DL W)} {U d i j w s p} : Sess E L S U d → S.dead = false → i < S.th.2.nv → j < S.th.2.nv → DL.newDistance (S.right 1) i j w = .ok (s, p) →
      Sess E L (S.putR 1 s) U d
  | newDiff {S : Sat (LRA × DL W)} {U d R l r s p} : Sess E L S U d → S.dead = false → l.Canon → r.Canon → (∀ t ∈ l.vars, t.1 < S.th.2.nv) → (∀ t ∈ r.vars, t.1 < S.th.2.nv) →
      DL.newRel E R (S.right 1) l r = .ok (s, p) → Sess E L (S.putR 1 s) U d
  | listenDl {S : Sat (LRA × DL W)} {U d v l t} : Sess E L S U d → S.dead = false → S.th.2.listen v l = .ok t → Sess E L (S.putR 1 { S.right 1 with th := t }) U d

/-- Invariant of the sessions. -/
structure CInv (E : Env) (L : LEnv) (S : Sat (LRA × DL W)) (U : List Fact) (d : Bool) : Prop where
  reach : Reach E L S U
  disj : Disj (LRA.sig S.th.1) S.th.2.vd
  live : S.dead = true ∨ CLive L S d
  user : ∀ f ∈ U, f ∈ S.th.1.facts

theorem CInv.alive (h : CInv E L S U d) (hd : S.dead = false) : CLive L S d := h.live.resolve_left (by rw [hd]; simp)

theorem CInv.liveD (h : CInv E L S U d) (hd : S.dead = false) : S.LiveD (Mix.live L h.disj) d := (h.alive hd).join h.reach.base h.disj

theorem bl_idem (b : Nat → List Nat) : bl 1 (bl 1 b) = bl 1 b := by
  funext v
  simp [bl, List.filter_filter]

/-- The theory listens to no variable of the core beyond its own identifier. -/
theorem alive_bl {s : Sat LRA} (h : LRA.ALive L s d) : bl 1 s.bounds = s.bounds := by
  obtain ⟨Fs, -, -, g, -⟩ := h.li.fs
  funext v
  cases hv : s.th.vas v with
  | none => simp [bl, g.no v hv]
  | some a =>
    rcases g.yes v a hv with e | ⟨e, -⟩
    · simp [bl, e]
    · simp [bl, e]

/-- The arithmetic theory has acted on its view of a live core. -/
theorem CLive.putL {d' : Bool} (h : CLive L S d) {s : Sat LRA} (hs : LRA.ALive L s d') (hm : (S.left 1).Mild s) (hd : d' = false → d = false) : CLive L (S.putL 1 s) d' := by
  refine ⟨?_, ?_⟩
  · have e : (S.putL 1 s).left 1 = s := by
      unfold Sat.left Sat.putL
      simp only [Sat.retheory]
      rw [bl_bj, alive_bl hs]
    unfold LRA.ALive
    rw [e]; exact hs
  · have e : (S.putL 1 s).right 1 = s.retheory (S.right 1).th (S.right 1).bounds := by
      unfold Sat.right Sat.putL
      simp only [Sat.retheory]
      rw [br_bj]
    unfold DL.DLiveD
    rw [e]
    have := Sat.LiveD.mild (d := d) h.dl (s' := s) hs.live.fix ⟨hm.dl, hm.nv, hm.up, hm.low, hm.new, hm.pen⟩
    exact ⟨this.live, fun x => this.con (hd x)⟩

/-- The difference-logic theory has acted on its view of a live core. -/
theorem CLive.putR (h : CLive L S d) {s : Sat (DL W)} (hs : DL.DLiveD s d) (hm : (S.right 1).Mild s) : CLive L (S.putR 1 s) d := by
  refine ⟨?_, ?_⟩
  · have e : (S.putR 1 s).left 1 = s.retheory (S.left 1).th (S.left 1).bounds := by
      unfold Sat.left Sat.putR
      simp only [Sat.retheory]
      rw [bl_bj, bl_idem]
    unfold LRA.ALive
    rw [e]
    exact Sat.LiveD.mild (d := d) h.lra (s' := s) hs.live.fix ⟨hm.dl, hm.nv, hm.up, hm.low, hm.new, hm.pen⟩
  · have e : (S.putR 1 s).right 1 = s := by
      unfold Sat.right Sat.putR
      simp only [Sat.retheory]
      rw [br_bj]
    unfold DL.DLiveD
    rw [e]; exact hs

theorem init_clive {size : Nat} : CLive L (new (W := W) size) false := by
  have h1 : LRA.ALive L (Sat.init LRA.init) false := LRA.init_alive
  have h2 : DL.DLiveD (Sat.init (DL.init (W := W) size)) false := DL.init_live
  have e1 : (new (W := W) size).left 1 = Sat.init LRA.init := by
    unfold Sat.left
    simp only [Sat.retheory, new, Sat.init, Sat.newVar]
    congr 1
  have e2 : (new (W := W) size).right 1 = Sat.init (DL.init size) := by
    unfold Sat.right
    simp only [Sat.retheory, new, Sat.init, Sat.newVar]
    congr 1
  exact ⟨by rw [e1]; exact h1, by rw [e2]; exact h2⟩

/-- A legal call either is excluded or succeeds. -/
theorem CInv.total (h : CInv E L S U d) {op : Sat.Op} (hl : S.Legal op) (hm : LRA.MayCall op d) :
    S.step E (safeOps L) op = .error .excluded ∨ ∃ S' out, S.step E (safeOps L) op = .ok (S', out) := by
  rcases Sat.step_live (E := E) (op := op) h.reach.base.rinv.inv (h.liveD hl.1) hl (by cases op <;> exact hm) with ⟨e, he, hs⟩ | ⟨s1, o1, h1, -⟩
  · rcases he with he | he
    · exact he.elim
    · have he : e = .excluded := he
      subst he
      exact .inl hs
  · exact .inr ⟨s1, o1, h1⟩

theorem CInv.fix (h : CInv E L S U d) (hd : S.dead = false) {u : Sat (LRA × DL W)} (hu : S.propagate E (safeOps L) = .ok (u, true)) : u.Fix u.okQ := by
  rcases Sat.propagate_live (E := E) h.reach.base.rinv.inv (h.liveD hd).live with ⟨e, -, h1⟩ | ⟨u', b, h1, h2, -⟩
  · rw [hu] at h1; cases h1
  · rw [hu] at h1
    injection h1 with h1; injection h1 with e1 e2
    subst e1 e2
    exact (h2 rfl).1.live.fix

/-- A step keeps the invariant. -/
theorem CInv.step (h : CInv E L S U d) {op : Sat.Op} {out : Sat.Out} (hl : S.Legal op) (hm : LRA.MayCall op d) (hs : S.step E (safeOps L) op = .ok (S', out)) :
    CInv E L S' U (LRA.pendingAfter op d) ∧ (match op with
      | .propagate | .assume _ | .next | .simplify => out = .bool true → ∀ v, LRA.InB (S'.th.1.lo v) (S'.th.1.hi v) (S'.th.1.vals v)
      | _ => True) := by
  have hsf : op = .simplify → ∀ u, S.propagate E (safeOps L) = .ok (u, true) → u.Fix u.okQ := fun _ u hu => h.fix hl.1 hu
  obtain ⟨hb, -, hsig, hvd, -⟩ := h.reach.base.step hsf hs
  rcases Sat.step_live (E := E) (op := op) h.reach.base.rinv.inv (h.liveD hl.1) hl (by cases op <;> exact hm) with ⟨e, -, h1⟩ | ⟨s1, o1, h1, h2, h3⟩
  · rw [hs] at h1; cases h1
  · rw [hs] at h1
    injection h1 with h1; injection h1 with e1 e2
    subst e1 e2
    refine ⟨⟨.step h.reach hsf hs, by rw [hsig, hvd]; exact h.disj, h3.imp_right (fun h3 => ?_), ?_⟩, ?_⟩
    · have h3 : S'.LiveD (Mix.live L h.disj) (LRA.pendingAfter op d) := by cases op <;> exact h3
      refine ⟨?_, ?_⟩
      · have := h3.left
        unfold LRA.ALive
        have e : LRA.sig (S'.left 1).th = LRA.sig S.th.1 := hsig
        rw [e]; exact this
      · have := h3.right
        unfold DL.DLiveD
        have e : (S'.right 1).th.vd = S.th.2.vd := hvd
        rw [e]; exact this
    · rw [show S'.th.1.facts = S.th.1.facts from congrArg LRA.Sig.facts hsig]; exact h.user
    · cases op <;> first | exact fun hx => (h2 hx).1 | trivial

theorem safe_eq {op : Sat.Op} (h : S.step E (safeOps L) op ≠ .error .excluded) : S.step E (safeOps L) op = S.step E (ops L) op :=
  (Sat.guards_step (E := E) (safe_guards L) S op).resolve_left h

theorem Sess.inv (h : Sess E L S U d) : CInv E L S U d := by
  induction h with
  | init h => exact ⟨.init h, ⟨rfl, fun _ h => absurd rfl h⟩, .inr init_clive, fun f hf => by cases hf⟩
  | step _ hl hm ha hs ih => exact (ih.step hl hm ((safe_eq ha).trans hs)).1
  | newVar _ hd ih =>
    have g := LRA.newVar_grows ih.reach.base.lra
    exact ⟨.newVar ih.reach, ⟨ih.disj.zero, ih.disj.vas⟩,
      .inr ((ih.alive hd).putL (LRA.newVar_alive ih.reach.base.lra (ih.alive hd).lra) g.mild id), ih.user⟩
  | newVarL _ hd hc hb hk hn ih =>
    have g := (LRA.newVarL_grows ih.reach.base.lra hc hb hk hn).1
    exact ⟨.newVarL ih.reach hc hb hk hn, ih.disj.left ih.reach.base.dl.fresh (LRA.newVarL_fresh ih.reach.base.lra hn),
      .inr ((ih.alive hd).putL (LRA.newVarL_alive ih.reach.base.lra (ih.alive hd).lra hc hb hk hn) g.mild id), fun f hf => LRA.newVarL_facts ih.reach.base.lra hn f (ih.user f hf)⟩
  | newRel _ hd hl hr hvl hvr hn ih =>
    have g := LRA.newRel_adds ih.reach.base.lra hl hr hvl hvr hn
    exact ⟨.newRel ih.reach hl hr hvl hvr hn, ih.disj.left ih.reach.base.dl.fresh (LRA.newRel_fresh ih.reach.base.lra hn),
      .inr ((ih.alive hd).putL (LRA.newRel_alive ih.reach.base.lra (ih.alive hd).lra hl hr hvl hvr hn) g.mild id), fun f hf => LRA.newRel_facts ih.reach.base.lra hn f (ih.user f hf)⟩
  | newEq _ hd hl hr hvl hvr hn ih =>
    have g := LRA.newEqL_adds ih.reach.base.lra hl hr hvl hvr hn
    exact ⟨.newEq ih.reach hl hr hvl hvr hn, ih.disj.left ih.reach.base.dl.fresh (LRA.newEqL_fresh ih.reach.base.lra hl hr hvl hvr hn),
      .inr ((ih.alive hd).putL (LRA.newEqL_alive ih.reach.base.lra (ih.alive hd).lra hl hr hvl hvr hn) g.mild id), fun f hf => LRA.newEqL_facts ih.reach.base.lra hl hr hvl hvr hn f (ih.user f hf)⟩
  | setLb _ hd hr hx hp hv hn ih =>
    have a := LRA.setLbC_sinv ih.reach.base.lra hr hx hp hn
    obtain ⟨s1, r, h1, h2⟩ := LRA.setLbC_alive (E := E) ih.reach.base.lra (ih.alive hd).lra hr hx hp hv
    rw [hn] at h1
    injection h1 with h1; injection h1 with e1 e2
    subst e1 e2
    refine ⟨.setLb ih.reach hr hx hp hn, ⟨ih.disj.zero, fun v hv => ?_⟩, .inr ((ih.alive hd).putL (h2 rfl) a.2.1 (fun h => by cases h)), fun f hf => ?_⟩
    · exact (congrFun a.2.2.2.2.2 v).trans (ih.disj.vas v hv)
    · have e := congrArg (fun l => f ∈ l) a.2.2.2.2.1
      exact e.mpr (List.mem_cons.mpr ((List.mem_cons.mp hf).imp_right (ih.user f)))
  | setUb _ hd hr hx hp hv hn ih =>
    have a := LRA.setUbC_sinv ih.reach.base.lra hr hx hp hn
    obtain ⟨s1, r, h1, h2⟩ := LRA.setUbC_alive (E := E) ih.reach.base.lra (ih.alive hd).lra hr hx hp hv
    rw [hn] at h1
    injection h1 with h1; injection h1 with e1 e2
    subst e1 e2
    refine ⟨.setUb ih.reach hr hx hp hn, ⟨ih.disj.zero, fun v hv => ?_⟩, .inr ((ih.alive hd).putL (h2 rfl) a.2.1 (fun h => by cases h)), fun f hf => ?_⟩
    · exact (congrFun a.2.2.2.2.2 v).trans (ih.disj.vas v hv)
    · have e := congrArg (fun l => f ∈ l) a.2.2.2.2.1
      exact e.mpr (List.mem_cons.mpr ((List.mem_cons.mp hf).imp_right (ih.user f)))
  | listen _ hd hn ih =>
    refine ⟨.listen ih.reach hn, ?_, .inr ((ih.alive hd).putL (LRA.listen_alive (ih.alive hd).lra hn) (.of_eq rfl (Nat.le_refl _) rfl rfl rfl) id), ?_⟩
    · obtain ⟨f, e⟩ := LRA.listen_eq hn
      subst e
      exact ih.disj
    · obtain ⟨f, e⟩ := LRA.listen_eq hn
      subst e
      exact ih.user
  | newPoint _ hd ih =>
    have hvd : ∀ t : DL W, t.newVar.1.vd = t.vd := by intro t; unfold DL.newVar; simp only; split <;> rfl
    refine ⟨.newPoint ih.reach, by show Disj _ (DL.newVar _).1.vd; rw [hvd]; exact ih.disj,
      .inr ((ih.alive hd).putR (DL.newPoint_live ih.reach.base.dl (ih.alive hd).dl) (.of_eq rfl (Nat.le_refl _) rfl rfl rfl)), ih.user⟩
  | newDistance _ hd hi hj hn ih =>
    have a := DL.newDistance_adds ih.reach.base.dl hi hj hn
    exact ⟨.newDistance ih.reach hi hj hn, ih.disj.right ih.reach.base (DL.newDistance_fresh ih.reach.base.dl hn),
      .inr ((ih.alive hd).putR (DL.newDistance_live ih.reach.base.dl (ih.alive hd).dl hi hj hn) a.mild), ih.user⟩
  | newDiff _ hd hl hr hlv hrv hn ih =>
    obtain ⟨-, b, -⟩ := DL.newRel_mild ih.reach.base.dl hl hr hlv hrv hn
    exact ⟨.newDiff ih.reach hl hr hlv hrv hn, ih.disj.right ih.reach.base (DL.newRel_fresh ih.reach.base.dl hl hr hlv hrv hn),
      .inr ((ih.alive hd).putR (DL.newRel_live ih.reach.base.dl (ih.alive hd).dl hl hr hlv hrv hn) b), ih.user⟩
  | listenDl _ hd hn ih =>
    refine ⟨.listenDl ih.reach hn, ?_, .inr ((ih.alive hd).putR (DL.listen_live (ih.alive hd).dl hn) (.of_eq rfl (Nat.le_refl _) rfl rfl rfl)), ih.user⟩
    obtain ⟨f, rfl⟩ := DL.listen_same hn
    exact ih.disj

end Mix
end Semitone
