import Verif.LRA.Firm
import Verif.DL.Play
import Verif.Mix.Props

/-!
# Linear arithmetic and difference logic on the same core, every session: C68

The sessions of `Mix/Session.lean` exclude the calls that tell the difference-logic theory a literal in an unsafe situation, and those made before the imposed bounds were propagated. None is
excluded here.
-/
namespace Semitone
namespace DL
variable {W : Type} [AddCommGroup W] [LinearOrder W] [IsOrderedAddMonoid W] [Dom W]
variable {E : Env} {s s' : Sat (DL W)}

/-- What a call that retracts nothing keeps. -/
structure Kept (s s' : Sat (DL W)) : Prop where
  calm : s'.Calm firm
  mild : s.Mild s'
  bnd : ∀ v, v < s.nvars → s'.bounds v = s.bounds v

theorem Kept.refl (h : s.Calm firm) : Kept s s := ⟨h, .refl s, fun _ _ => rfl⟩

theorem Kept.trans {s1 s2 s3 : Sat (DL W)} (h1 : Kept s1 s2) (h2 : Kept s2 s3) : Kept s1 s3 :=
  ⟨h2.calm, h1.mild.trans h2.mild, fun v hv => (h2.bnd v (hv.trans_le h1.mild.nv)).trans (h1.bnd v hv)⟩

theorem kept_th {t : DL W} (h : ({ s with th := t } : Sat (DL W)).Calm firm) : Kept s { s with th := t } := ⟨h, .of_eq rfl (Nat.le_refl _) rfl rfl rfl, fun _ _ => rfl⟩

theorem newDistance_kept {i j : Nat} {w : W} {p : Lit} (h : s.Calm firm) (hi : i < s.th.nv) (hj : j < s.th.nv) (hn : newDistance s i j w = .ok (s', p)) : Kept s s' := by
  refine ⟨newDistance_calm h hi hj hn, ?_, ?_⟩
  all_goals
    unfold newDistance at hn
    split at hn
    swap
    · cases hn
    split at hn
    · injection hn with hn; injection hn with e1 e2; subst e1; first | exact .refl _ | exact fun _ _ => rfl
    split at hn
    · injection hn with hn; injection hn with e1 e2; subst e1; first | exact .refl _ | exact fun _ _ => rfl
    simp only at hn
    injection hn with hn; injection hn with e1 e2
    subst e1
  · exact (h.tw.newVar_mild).trans (.of_eq rfl (Nat.le_refl _) rfl rfl rfl)
  · intro v hv
    show (s.newVar.1.bind s.newVar.2 0).bounds v = _
    have e : (s.newVar.1.bind s.newVar.2 0).bounds = upd s.bounds s.nvars (0 :: (s.bounds s.nvars).erase 0) := rfl
    rw [e, upd_ne _ _ (Nat.ne_of_lt hv)]

theorem newRel_kept {R : Rel} {l r : Lin} {p : Lit} (h : s.Calm firm) (hl : l.Canon) (hr : r.Canon) (hlv : ∀ t ∈ l.vars, t.1 < s.th.nv) (hrv : ∀ t ∈ r.vars, t.1 < s.th.nv)
    (hn : newRel E R s l r = .ok (s', p)) : s'.dead = true ∨ Kept s s' := by
  obtain ⟨As, hg, -⟩ := (calm_fi h).held
  refine newRel_keeps (P := fun u => u.dead = true ∨ Kept s u) hg.core.one (.inr (.refl h)) (fun hu hi hj hn => ?_) (fun hu hn => ?_) hl hr hlv hrv hn
  · rcases hu with hu | hu
    · exact .inl (by rw [(newDistance_nv hn).2]; exact hu)
    · exact .inr (hu.trans (newDistance_kept hu.calm hi hj hn))
  · rcases hu with hu | hu
    · exact .inl ((Sat.newConj_adds (K := firm) hn).dead hu)
    · have ad := Sat.newConj_adds (K := firm) hn
      have hr := (Sat.newConj_pre hn).1
      rcases ad.ok hr hu.calm.toSteady with hd | ⟨-, hM⟩
      · exact .inl hd
      · exact (ad.calm hr hu.calm).imp_right (fun hC => hu.trans ⟨hC, hM, fun v _ => by rw [ad.bnd]⟩)

/-- Nothing listens to a variable that does not exist. -/
theorem calm_fresh (h : s.Calm firm) : ∀ v, s.nvars ≤ v → s.bounds v = [] := by
  intro v hv
  refine (calm_fi h).li.free v ?_
  cases hx : s.th.vd v with
  | none => rfl
  | some dd => have := (calm_fi h).li.rng v dd hx; omega

theorem init_calm {size : Nat} (h : 1 ≤ size) : (Sat.init (DL.init (W := W) size)).Calm firm :=
  (Play.calm (E := stdEnv) (.init h)).resolve_left (by rw [show (Sat.init (DL.init (W := W) size)).dead = false from rfl]; simp)

end DL

namespace Mix
open Lin
variable {W : Type} [AddCommGroup W] [LinearOrder W] [IsOrderedAddMonoid W] [Dom W]
variable {E : Env} {L : LEnv} {S S' : Sat (LRA × DL W)} {U : List Fact} {d : Bool}

/-- Sessions: the states of a core with the two theories that sequences of legal calls lead to, as long as no call fails; `U`: the bounds imposed with `set_lb` and `set_ub`. Compare `Sess`: no
call is excluded. -/
inductive Play (E : Env) (L : LEnv) : Sat (LRA × DL W) → List Fact → Prop
  | init {size : Nat} : 1 ≤ size → Play E L (new size) []
  | step {S S' : Sat (LRA × DL W)} {U op out} : Play E L S U → S.Legal op → DL.MayCall op → S.step E (ops L) op = .ok (S', out) → Play E L S' U
  | newVar {S : Sat (LRA × DL W)} {U} : Play E L S U → S.dead = false → Play E L (S.putL 1 { S.left 1 with th := S.th.1.newVar.1 }) U
  | newVarL {S : Sat (LRA × DL W)} {U l t y} : Play E L S U → S.dead = false → l.Canon → (∀ w ∈ keys l.vars, S.th.1.row w = none) → l.kt = 0 → S.th.1.newVarL S.root l = .ok (t, y) →
      Play E L (S.putL 1 { S.left 1 with th := t }) U
  | newRel {S : Sat (LRA × DL W)} {U R l r s p} : Play E L S U → S.dead = false → l.Canon → r.Canon → (∀ w ∈ keys l.vars, w < S.th.1.n) → (∀ w ∈ keys r.vars, w < S.th.1.n) →
      LRA.newRel R (S.left 1) l r = .ok (s, p) → Play E L (S.putL 1 s) U
  | newEq {S : Sat (LRA × DL W)} {U l r s p} : Play E L S U → S.dead = false → l.Canon → r.Canon → (∀ w ∈ keys l.vars, w < S.th.1.n) → (∀ w ∈ keys r.vars, w < S.th.1.n) →
      LRA.newEqL E (S.left 1) l r = .ok (s, p) → Play E L (S.putL 1 s) U
  | setLb {S : Sat (LRA × DL W)} {U x v p s} : Play E L S U → S.dead = false → S.root = true → x < S.th.1.n → S.value p = some true → 0 ≤ (ofLex v).2 →
      LRA.setLbC E L (S.left 1) x v p = .ok (s, none) → Play E L (S.putL 1 s) (.lo p x v :: U)
  | setUb {S : Sat (LRA × DL W)} {U x v p s} : Play E L S U → S.dead = false → S.root = true → x < S.th.1.n → S.value p = some true → (ofLex v).2 ≤ 0 →
      LRA.setUbC E L (S.left 1) x v p = .ok (s, none) → Play E L (S.putL 1 s) (.hi p x v :: U)
  | listen {S : Sat (LRA × DL W)} {U v l t} : Play E L S U → S.dead = false → S.th.1.listen v l = .ok t → Play E L (S.putL 1 { S.left 1 with th := t }) U
  | newPoint {S : Sat (LRA × DL W)} {U} : Play E L S U → S.dead = false → Play E L (S.putR 1 { S.right 1 with th := S.th.2.newVar.1 }) U
  | newDistance {S : Sat (LRA × DL W)} {U i j w s p} : Play E L S U → S.dead = false → i < S.th.2.nv → j < S.th.2.nv → DL.newDistance (S.right 1) i j w = .ok (s, p) → Play E L (S.putR 1 s) U
  | newDiff {S : Sat (LRA × DL W)} {U R l r s p} : Play E L S U → S.dead = false → l.Canon → r.Canon → (∀ t ∈ l.vars, t.1 < S.th.2.nv) → (∀ t ∈ r.vars, t.1 < S.th.2.nv) →
      DL.newRel E R (S.right 1) l r = .ok (s, p) → Play E L (S.putR 1 s) U
  | listenDl {S : Sat (LRA × DL W)} {U v l t} : Play E L S U → S.dead = false → S.th.2.listen v l = .ok t → Play E L (S.putR 1 { S.right 1 with th := t }) U

/-- The sessions of `Mix/Session.lean` are among these. -/
theorem Sess.play (h : Sess E L S U d) : Play E L S U := by
  induction h with
  | init h => exact .init h
  | @step S S' U d op out _ hl hm _ hs ih => exact .step ih hl (by cases op <;> first | trivial | exact hm) hs
  | newVar _ hd ih => exact .newVar ih hd
  | newVarL _ hd h1 h2 h3 h4 ih => exact .newVarL ih hd h1 h2 h3 h4
  | newRel _ hd h1 h2 h3 h4 h5 ih => exact .newRel ih hd h1 h2 h3 h4 h5
  | newEq _ hd h1 h2 h3 h4 h5 ih => exact .newEq ih hd h1 h2 h3 h4 h5
  | setLb _ hd h1 h2 h3 h4 h5 ih => exact .setLb ih hd h1 h2 h3 h4 h5
  | setUb _ hd h1 h2 h3 h4 h5 ih => exact .setUb ih hd h1 h2 h3 h4 h5
  | listen _ hd h1 ih => exact .listen ih hd h1
  | newPoint _ hd ih => exact .newPoint ih hd
  | newDistance _ hd h1 h2 h3 ih => exact .newDistance ih hd h1 h2 h3
  | newDiff _ hd h1 h2 h3 h4 h5 ih => exact .newDiff ih hd h1 h2 h3 h4 h5
  | listenDl _ hd h1 ih => exact .listenDl ih hd h1

/-- The two theories together. -/
abbrev firm (L : LEnv) (U : List Fact) : Firm (ops (W := W) L) := (LRA.firm L U).prod 1 DL.firm (live_ids L)

theorem calm_putL {U' : List Fact} (h : S.Calm (firm L U)) {s : Sat LRA} (hs : s.Calm (LRA.firm L U')) (hM : (S.left 1).Mild s) (hb : ∀ v, v < S.nvars → s.bounds v = (S.left 1).bounds v) :
    (S.putL 1 s).Calm (firm L U') := h.putL hs hM hb (LRA.calm_bounds hs).1 (DL.calm_fresh h.right)

theorem calm_putR (h : S.Calm (firm L U)) {s : Sat (DL W)} (hs : DL.Kept (S.right 1) s) : (S.putR 1 s).Calm (firm L U) := h.putR hs.calm hs.mild hs.bnd (LRA.calm_bounds h.left).2

/-- Invariant of the sessions. -/
theorem Play.calm (h : Play E L S U) : S.dead = true ∨ S.Calm (firm L U) := by
  induction h with
  | @init size h =>
    refine .inr (Sat.init_calm ⟨?_, ?_, fun v => .inl rfl, Sat.tru_rising _ _⟩)
    · have hc := (LRA.init_calm (L := L)).li
      exact (LRA.firm L []).adv hc (Nat.le_refl _) (fun _ _ _ h => h) (fun _ _ _ h => h) (fun _ h => .inl h) (fun q hq => (by cases hq))
    · have hc := (DL.init_calm (W := W) h).li
      exact DL.firm.adv hc (Nat.le_refl _) (fun _ _ _ h => h) (fun _ _ _ h => h) (fun _ h => .inl h) (fun q hq => (by cases hq))
  | @step S S' U op out _ hl hm hs ih =>
    exact (Sat.step_calm (ih.resolve_left (by rw [hl.1]; simp)) hl (fun v i e => by rw [e] at hm; exact hm) hs).1
  | newVar _ hd ih =>
    have h := ih.resolve_left (by rw [hd]; simp)
    have k := LRA.newVar_kept h.left
    exact .inr (calm_putL h k.calm k.mild k.bnd)
  | newVarL _ hd h1 h2 h3 h4 ih =>
    have h := ih.resolve_left (by rw [hd]; simp)
    have k := (LRA.newVarL_kept h.left h1 h2 h3 h4).1
    exact .inr (calm_putL h k.calm k.mild k.bnd)
  | newRel _ hd h1 h2 h3 h4 h5 ih =>
    have h := ih.resolve_left (by rw [hd]; simp)
    have k := LRA.newRel_kept h.left h1 h2 h3 h4 h5
    exact .inr (calm_putL h k.calm k.mild k.bnd)
  | newEq _ hd h1 h2 h3 h4 h5 ih =>
    have h := ih.resolve_left (by rw [hd]; simp)
    rcases LRA.newEqL_kept h.left h1 h2 h3 h4 h5 with k | ⟨k1, k2, k3⟩
    · exact .inl k
    · exact .inr (calm_putL h k1 k2 k3)
  | setLb _ hd h1 h2 h3 h4 h5 ih =>
    have h := ih.resolve_left (by rw [hd]; simp)
    have k := LRA.setLbC_kept h.left h1 h2 h3 h4 h5
    exact .inr (calm_putL h k.calm k.mild k.bnd)
  | setUb _ hd h1 h2 h3 h4 h5 ih =>
    have h := ih.resolve_left (by rw [hd]; simp)
    have k := LRA.setUbC_kept h.left h1 h2 h3 h4 h5
    exact .inr (calm_putL h k.calm k.mild k.bnd)
  | listen _ hd h1 ih =>
    have h := ih.resolve_left (by rw [hd]; simp)
    have k := LRA.listen_kept h.left h1
    exact .inr (calm_putL h k.calm k.mild k.bnd)
  | newPoint _ hd ih =>
    have h := ih.resolve_left (by rw [hd]; simp)
    exact .inr (calm_putR h (DL.kept_th (DL.newPoint_calm h.right)))
  | newDistance _ hd h1 h2 h3 ih =>
    have h := ih.resolve_left (by rw [hd]; simp)
    exact .inr (calm_putR h (DL.newDistance_kept h.right h1 h2 h3))
  | newDiff _ hd h1 h2 h3 h4 h5 ih =>
    have h := ih.resolve_left (by rw [hd]; simp)
    exact (DL.newRel_kept h.right h1 h2 h3 h4 h5).imp_right (fun k => calm_putR h k)
  | listenDl _ hd h1 ih =>
    have h := ih.resolve_left (by rw [hd]; simp)
    exact .inr (calm_putR h (DL.kept_th (DL.listen_calm h.right h1)))

theorem Play.quiet (h : Play E L S U) {op : Sat.Op} (hl : S.Legal op) (hop : LRA.Propagates op) (hs : S.step E (ops L) op = .ok (S', .bool true)) :
    S'.Calm (firm L U) ∧ S'.propQ = [] ∧ ∀ v, LRA.InB (S'.th.1.lo v) (S'.th.1.hi v) (S'.th.1.vals v) := by
  have := (Sat.step_calm (h.calm.resolve_left (by rw [hl.1]; simp)) hl (fun v i e => by rw [e] at hop; exact hop) hs).2 (by cases op <;> exact hop) rfl
  exact ⟨this.1, this.2.1, this.2.2.1⟩

/-- C68: in every session, when a call that propagates (`propagate`, `assume`, `next`, `simplify_db`) returns true, the values the arithmetic theory reports are within the bounds it reports
and, giving the infinitesimal any small enough value, satisfy the definitions, the imposed bounds and what every decided arithmetic literal says; there are positions of the time points that
satisfy what every decided distance literal says, and the distances reported are exactly the bounds these positions have: the literals decided are consistent with both theories. -/
theorem C68_backed (h : Play E L S U) {op : Sat.Op} (hl : S.Legal op) (hop : LRA.Propagates op) (hs : S.step E (ops L) op = .ok (S', .bool true)) :
    (∀ v, S'.th.1.lo v ≤ ((S'.th.1.vals v : IQ) : WithBot IQ) ∧ ((S'.th.1.vals v : IQ) : WithTop IQ) ≤ S'.th.1.hi v) ∧
    (∀ d ∈ S'.th.1.defs, S'.th.1.vals d.1 = d.2.eval IQ.one S'.th.1.vals) ∧
    (∃ δ0 : ℚ, 0 < δ0 ∧ ∀ δ, 0 < δ → δ ≤ δ0 → LRA.Agrees (S'.left 1) U (LRA.withEps δ S'.th.1.vals)) ∧
    (∃ X, DL.Fits (S'.right 1) X) ∧
    (∀ i j, i < S'.th.2.nv → j < S'.th.2.nv →
      (∀ X, DL.Fits (S'.right 1) X → ((X j - X i : W) : WithTop W) ≤ (S'.th.2.distance i j).2) ∧
      (∀ a : W, (S'.th.2.distance i j).2 = (a : WithTop W) → ∃ X, DL.Fits (S'.right 1) X ∧ X j - X i = a) ∧
      ((S'.th.2.distance i j).2 = ⊤ → ∀ M : W, ∃ X, DL.Fits (S'.right 1) X ∧ M < X j - X i)) := by
  obtain ⟨hc, hq, hin⟩ := h.quiet hl hop hs
  obtain ⟨b1, b2⟩ := LRA.calm_backed hc.left hq hin
  obtain ⟨p1, p2, -⟩ := DL.positions hc.right hq
  exact ⟨hin, b1, b2, p1, p2⟩

/-- C68: and every posted clause is satisfied or has two unassigned literals. -/
theorem C68_clauses (h : Play E L S U) {op : Sat.Op} (hl : S.Legal op) (hop : LRA.Propagates op) (hs : S.step E (ops L) op = .ok (S', .bool true)) :
    ∀ D ∈ S'.posted, (∃ l ∈ D, S'.value l = some true) ∨ ∃ x ∈ D, ∃ y ∈ D, x ≠ y ∧ S'.value x = none ∧ S'.value y = none := by
  obtain ⟨hc, hq, -⟩ := h.quiet hl hop hs
  exact hc.clauses hq

/-- C68: with every variable of the core assigned, the assignment, the reported values (with any small enough infinitesimal) and any positions that satisfy the decided distance literals (there
are some) are a solution of the network. -/
theorem C68_solution (h : Play E L S U) {op : Sat.Op} (hl : S.Legal op) (hop : LRA.Propagates op) (hs : S.step E (ops L) op = .ok (S', .bool true))
    (hall : ∀ v, v < S'.nvars → S'.assigns v ≠ none) :
    ∃ δ0 : ℚ, 0 < δ0 ∧ (∃ X, DL.Fits (S'.right 1) X) ∧ ∀ δ, 0 < δ → δ ≤ δ0 → ∀ X, DL.Fits (S'.right 1) X → Model S' U (fun v => S'.assigns v = some true) (LRA.withEps δ S'.th.1.vals) X := by
  obtain ⟨hc, hq, -⟩ := h.quiet hl hop hs
  obtain ⟨-, -, ⟨δ0, h0, f⟩, p1, -⟩ := C68_backed h hl hop hs
  refine ⟨δ0, h0, p1, fun δ h1 h2 X hX => ?_⟩
  have hx := f δ h1 h2
  obtain ⟨Fs, -, -, g, -⟩ := (LRA.calm_li hc.left).fs
  refine ⟨by simp [hc.tw.fv], hc.sat hq hall, fun b a hb' => ?_, hx.defs, fun g hg => hx.user g hg _, fun v dd hv => ?_⟩
  · obtain ⟨sg, hsg⟩ : ∃ sg, S'.assigns b = some sg := Option.ne_none_iff_exists'.mp (hall b (g.lt b a hb'))
    rw [← hx.lits b a sg hb' hsg]; simp only [hsg]
    cases sg <;> simp
  · obtain ⟨sg, hsg⟩ : ∃ sg, S'.assigns v = some sg := Option.ne_none_iff_exists'.mp (hall v ((DL.calm_fi hc.right).li.rng v dd hv))
    rw [← hX v dd sg hv hsg]; simp only [hsg]
    cases sg <;> simp

end Mix
end Semitone
