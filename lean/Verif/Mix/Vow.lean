import Verif.LRA.Vow
import Verif.DL.Vow

/-!
# What the literals mean, in every session of the core with both theories: C74
-/
namespace Semitone
namespace Sat
variable {T T' : Type} {s : Sat T} {t : T'} {b : Nat → List Nat}

theorem Rt.ofView {α : Asg} (h : (s.retheory t b).Rt α) : s.Rt α := ⟨h.fls, h.cls, h.lit⟩

theorem Rt.view {α : Asg} (h : s.Rt α) : (s.retheory t b).Rt α := ⟨h.fls, h.cls, h.lit⟩

theorem Vow.view (h : s.Vow) : (s.retheory t b).Vow := fun k ls r hm α hα => h k ls r hm α hα.ofView

end Sat

namespace Mix
open Lin
variable {W : Type} [AddCommGroup W] [LinearOrder W] [IsOrderedAddMonoid W] [Dom W]
variable {E : Env} {L : LEnv} {S S' : Sat (LRA × DL W)} {U U' : List Fact}

/-- One call of a session. -/
inductive Turn (E : Env) (L : LEnv) (S : Sat (LRA × DL W)) (U : List Fact) : Sat (LRA × DL W) → List Fact → Prop
  | step {S' op out} : S.Legal op → DL.MayCall op → S.step E (ops L) op = .ok (S', out) → Turn E L S U S' U
  | newVar : S.dead = false → Turn E L S U (S.putL 1 { S.left 1 with th := S.th.1.newVar.1 }) U
  | newVarL {l t y} : S.dead = false → l.Canon → (∀ w ∈ keys l.vars, S.th.1.row w = none) → l.kt = 0 → S.th.1.newVarL S.root l = .ok (t, y) →
      Turn E L S U (S.putL 1 { S.left 1 with th := t }) U
  | newRel {R l r s p} : S.dead = false → l.Canon → r.Canon → (∀ w ∈ keys l.vars, w < S.th.1.n) → (∀ w ∈ keys r.vars, w < S.th.1.n) →
      LRA.newRel R (S.left 1) l r = .ok (s, p) → Turn E L S U (S.putL 1 s) U
  | newEq {l r s p} : S.dead = false → l.Canon → r.Canon → (∀ w ∈ keys l.vars, w < S.th.1.n) → (∀ w ∈ keys r.vars, w < S.th.1.n) →
      LRA.newEqL E (S.left 1) l r = .ok (s, p) → Turn E L S U (S.putL 1 s) U
  | setLb {x v p s} : S.dead = false → S.root = true → x < S.th.1.n → S.value p = some true → 0 ≤ (ofLex v).2 →
      LRA.setLbC E L (S.left 1) x v p = .ok (s, none) → Turn E L S U (S.putL 1 s) (.lo p x v :: U)
  | setUb {x v p s} : S.dead = false → S.root = true → x < S.th.1.n → S.value p = some true → (ofLex v).2 ≤ 0 →
      LRA.setUbC E L (S.left 1) x v p = .ok (s, none) → Turn E L S U (S.putL 1 s) (.hi p x v :: U)
  | listen {v l t} : S.dead = false → S.th.1.listen v l = .ok t → Turn E L S U (S.putL 1 { S.left 1 with th := t }) U
  | newPoint : S.dead = false → Turn E L S U (S.putR 1 { S.right 1 with th := S.th.2.newVar.1 }) U
  | newDistance {i j w s p} : S.dead = false → i < S.th.2.nv → j < S.th.2.nv → DL.newDistance (S.right 1) i j w = .ok (s, p) → Turn E L S U (S.putR 1 s) U
  | newDiff {R l r s p} : S.dead = false → l.Canon → r.Canon → (∀ t ∈ l.vars, t.1 < S.th.2.nv) → (∀ t ∈ r.vars, t.1 < S.th.2.nv) →
      DL.newRel E R (S.right 1) l r = .ok (s, p) → Turn E L S U (S.putR 1 s) U
  | listenDl {v l t} : S.dead = false → S.th.2.listen v l = .ok t → Turn E L S U (S.putR 1 { S.right 1 with th := t }) U

/-- Any number of calls. -/
inductive Later (E : Env) (L : LEnv) (S : Sat (LRA × DL W)) (U : List Fact) : Sat (LRA × DL W) → List Fact → Prop
  | refl : Later E L S U S U
  | call {S1 U1 S2 U2} : Later E L S U S1 U1 → Turn E L S1 U1 S2 U2 → Later E L S U S2 U2

theorem Turn.dead (h : Turn E L S U S' U') : S.dead = false := by
  cases h with
  | step hl _ _ => exact hl.1
  | _ => assumption

/-- The sessions of C68 are the sequences of these calls. -/
theorem Play.call (h : Play E L S U) (hc : Turn E L S U S' U') : Play E L S' U' := by
  cases hc with
  | step a b c => exact .step h a b c
  | newVar a => exact .newVar h a
  | newVarL a b c d e => exact .newVarL h a b c d e
  | newRel a b c d e f => exact .newRel h a b c d e f
  | newEq a b c d e f => exact .newEq h a b c d e f
  | setLb a b c d e f => exact .setLb h a b c d e f
  | setUb a b c d e f => exact .setUb h a b c d e f
  | listen a b => exact .listen h a b
  | newPoint a => exact .newPoint h a
  | newDistance a b c d => exact .newDistance h a b c d
  | newDiff a b c d e f => exact .newDiff h a b c d e f
  | listenDl a b => exact .listenDl h a b

theorem play_iff : Play E L S U ↔ ∃ size, 1 ≤ size ∧ Later E L (new size) [] S U := by
  constructor
  · intro h
    have key : ∀ {S S' : Sat (LRA × DL W)} {U U'}, (∃ size, 1 ≤ size ∧ Later E L (new size) [] S U) → Turn E L S U S' U' → ∃ size, 1 ≤ size ∧ Later E L (new size) [] S' U' :=
      fun ⟨z, hz, l⟩ t => ⟨z, hz, .call l t⟩
    induction h with
    | init h => exact ⟨_, h, .refl⟩
    | step _ a b c ih => exact key ih (.step a b c)
    | newVar _ a ih => exact key ih (.newVar a)
    | newVarL _ a b c d e ih => exact key ih (.newVarL a b c d e)
    | newRel _ a b c d e f ih => exact key ih (.newRel a b c d e f)
    | newEq _ a b c d e f ih => exact key ih (.newEq a b c d e f)
    | setLb _ a b c d e f ih => exact key ih (.setLb a b c d e f)
    | setUb _ a b c d e f ih => exact key ih (.setUb a b c d e f)
    | listen _ a b ih => exact key ih (.listen a b)
    | newPoint _ a ih => exact key ih (.newPoint a)
    | newDistance _ a b c d ih => exact key ih (.newDistance a b c d)
    | newDiff _ a b c d e f ih => exact key ih (.newDiff a b c d e f)
    | listenDl _ a b ih => exact key ih (.listenDl a b)
  · rintro ⟨z, hz, h⟩
    induction h with
    | refl => exact .init hz
    | call _ hc ih => exact ih.call hc

theorem play_later (h : Play E L S U) (hl : Later E L S U S' U') : Play E L S' U' := by
  induction hl with
  | refl => exact h
  | call _ hc ih => exact ih.call hc

theorem Later.alive (hl : Later E L S U S' U') (h : S'.dead = false) : S.dead = false := by
  induction hl with
  | refl => exact h
  | call _ hc ih => exact ih hc.dead

/-! ### Nothing is forgotten -/

/-- Neither by the core nor by the theories. -/
structure Onw (S S' : Sat (LRA × DL W)) : Prop extends Sat.Onw S S' where
  ext : LRA.Kin S.th.1 S'.th.1
  vd : ∀ v dd, S.th.2.vd v = some dd → S'.th.2.vd v = some dd

theorem Onw.refl (S : Sat (LRA × DL W)) : Onw S S := ⟨.refl S, .refl _, fun _ _ h => h⟩

theorem Onw.trans {S1 S2 S3 : Sat (LRA × DL W)} (h1 : Onw S1 S2) (h2 : Onw S2 S3) : Onw S1 S3 :=
  ⟨h1.toOnw.trans h2.toOnw, h1.ext.trans h2.ext, fun v dd h => h2.vd v dd (h1.vd v dd h)⟩

/-- The assignments, valuations and positions to consider. -/
structure World (S : Sat (LRA × DL W)) (α : Asg) (x : Nat → ℚ) (X : Nat → W) : Prop where
  rt : S.Rt α
  mod : LRA.Mod S.th.1 α (LRA.rat x)
  vd : ∀ v dd, S.th.2.vd v = some dd → (α v = true ↔ X dd.tgt - X dd.src ≤ dd.w)

theorem Onw.world {α : Asg} {x : Nat → ℚ} {X : Nat → W} (h : Onw S S') (hw : World S' α x X) : World S α x X :=
  ⟨h.rt hw.rt, h.ext.mod hw.mod, fun v dd hv => hw.vd v dd (h.vd v dd hv)⟩

theorem World.arith {α : Asg} {x : Nat → ℚ} {X : Nat → W} {s : Sat LRA} (h : World (S.putL 1 s) α x X) : LRA.World s α x := ⟨Sat.Rt.ofView (s := s) h.rt, h.mod⟩

theorem World.diff {α : Asg} {x : Nat → ℚ} {X : Nat → W} {s : Sat (DL W)} (h : World (S.putR 1 s) α x X) : DL.World s α X := ⟨Sat.Rt.ofView (s := s) h.rt, h.vd⟩

/-- Calm and faithful. -/
structure Faith (L : LEnv) (U : List Fact) (S : Sat (LRA × DL W)) : Prop where
  calm : S.Calm (firm L U)
  vow : S.Vow

theorem Faith.left (h : Faith L U S) : LRA.Faith L U (S.left 1) := ⟨h.calm.left, h.vow.view⟩

theorem Faith.right (h : Faith L U S) : DL.Faith (S.right 1) := ⟨h.calm.right, h.vow.view⟩

/-- The arithmetic theory has acted. -/
theorem Faith.putL (h : Faith L U S) {s : Sat LRA} (hs : LRA.Faith L U' s) (ho : LRA.Onw (S.left 1) s) (hM : (S.left 1).Mild s) (hb : ∀ v, v < S.nvars → s.bounds v = (S.left 1).bounds v) :
    Faith L U' (S.putL 1 s) ∧ Onw S (S.putL 1 s) :=
  ⟨⟨calm_putL h.calm hs.calm hM hb, hs.vow.view⟩, ⟨ho.nv, ho.post, ho.lit⟩, ho.ext, fun _ _ h => h⟩

/-- The difference-logic theory has acted. -/
theorem Faith.putR (h : Faith L U S) {s : Sat (DL W)} (hs : DL.Faith s) (ho : DL.Onw (S.right 1) s) (hk : DL.Kept (S.right 1) s) : Faith L U (S.putR 1 s) ∧ Onw S (S.putR 1 s) :=
  ⟨⟨calm_putR h.calm hk, hs.vow.view⟩, ⟨ho.nv, ho.post, ho.lit⟩, .refl _, ho.vd⟩

/-- The theories with their registrations in the invariant. -/
abbrev firmS (L : LEnv) (sg : LRA.Sig) (V : Nat → Option (Dist W)) : Firm (ops (W := W) L) := (LRA.firmS L sg).prod 1 (DL.firm.with (DL.keeps_vd V)) (live_ids L)

theorem calm_sig (h : S.Calm (firm L U)) : S.Calm (firmS L (LRA.sig S.th.1) S.th.2.vd) :=
  h.sound.calm ⟨(LRA.calm_sig h.left).li, (h.right.with (DL.keeps_vd S.th.2.vd) rfl).li, h.li.2.2⟩

theorem firmS_onw {sg : LRA.Sig} {V : Nat → Option (Dist W)} (h : S.Calm (firmS L sg V)) : LRA.sig S.th.1 = sg ∧ S.th.2.vd = V := ⟨LRA.sig_of h.li.1, h.li.2.1.2⟩

theorem step_onw {op : Sat.Op} {out} (h : Faith L U S) (hl : S.Legal op) (hm : DL.MayCall op) (hs : S.step E (ops L) op = .ok (S', out)) : S'.dead = true ∨ (Faith L U S' ∧ Onw S S') := by
  have hb : ∀ v i, op ≠ .bind v i := fun v i e => by rw [e] at hm; exact hm
  rcases Sat.step_onw h.calm h.vow hl hb hs with hd | ⟨a, b, c⟩
  · exact .inl hd
  by_cases hd : S'.dead = true
  · exact .inl hd
  obtain ⟨e1, e2⟩ := firmS_onw ((Sat.step_calm (calm_sig h.calm) hl hb hs).1.resolve_left hd)
  exact .inr ⟨⟨a, c⟩, b, .of_sig e1, fun v dd hv => by rw [e2]; exact hv⟩

theorem Turn.onw (h : Faith L U S) (hc : Turn E L S U S' U') : S'.dead = true ∨ (Faith L U' S' ∧ Onw S S') := by
  cases hc with
  | step a b c => exact step_onw h a b c
  | newVar a =>
    have k := LRA.newVar_kept h.calm.left
    have o := LRA.newVar_onw h.left
    exact .inr (h.putL o.1 o.2 k.mild k.bnd)
  | newVarL a b c d e =>
    have k := (LRA.newVarL_kept h.calm.left b c d e).1
    have o := (LRA.newVarL_onw h.left b c d e).1
    exact .inr (h.putL o.1 o.2 k.mild k.bnd)
  | newRel a b c d e f =>
    have k := LRA.newRel_kept h.calm.left b c d e f
    have o := (LRA.newRel_onw h.left b c d e f).1
    exact .inr (h.putL o.1 o.2 k.mild k.bnd)
  | newEq a b c d e f =>
    rcases LRA.newEqL_kept h.calm.left b c d e f with k | ⟨_, k2, k3⟩
    · exact .inl k
    · rcases LRA.newEqL_onw h.left b c d e f with k | ⟨o, _⟩
      · exact .inl k
      · exact .inr (h.putL o.1 o.2 k2 k3)
  | setLb a b c d e f =>
    have k := LRA.setLbC_kept h.calm.left b c d e f
    have o := LRA.setLbC_onw h.left b c d e f
    exact .inr (h.putL o.1 o.2 k.mild k.bnd)
  | setUb a b c d e f =>
    have k := LRA.setUbC_kept h.calm.left b c d e f
    have o := LRA.setUbC_onw h.left b c d e f
    exact .inr (h.putL o.1 o.2 k.mild k.bnd)
  | listen a b =>
    have k := LRA.listen_kept h.calm.left b
    have o := LRA.listen_onw h.left b
    exact .inr (h.putL o.1 o.2 k.mild k.bnd)
  | newPoint a =>
    have o := (DL.Turn.onw (E := E) h.right (.newPoint a)).resolve_left (by rw [show ({ S.right 1 with th := S.th.2.newVar.1 } : Sat (DL W)).dead = S.dead from rfl, a]; simp)
    exact .inr (h.putR o.1 o.2 (DL.kept_th (DL.newPoint_calm h.calm.right)))
  | newDistance a b c d =>
    have o := DL.newDistance_onw h.right b c d
    exact .inr (h.putR o.1 o.2.1 (DL.newDistance_kept h.calm.right b c d))
  | newDiff a b c d e f =>
    rcases DL.newRel_kept h.calm.right b c d e f with k | k
    · exact .inl k
    · exact (DL.newRel_onw h.right b c d e f).imp_right (fun o => h.putR o.1 o.2 k)
  | @listenDl v l t a b =>
    have o := (DL.Turn.onw (E := E) h.right (.listen a b)).resolve_left (by rw [show ({ S.right 1 with th := t } : Sat (DL W)).dead = S.dead from rfl, a]; simp)
    exact .inr (h.putR o.1 o.2 (DL.kept_th (DL.listen_calm h.calm.right b)))

theorem Later.onw (h : Faith L U S) (hl : Later E L S U S' U') : S'.dead = true ∨ (Faith L U' S' ∧ Onw S S') := by
  induction hl with
  | refl => exact .inr ⟨h, .refl _⟩
  | call _ hc ih =>
    obtain ⟨a, b⟩ := ih.resolve_left (by rw [hc.dead]; simp)
    exact (hc.onw a).imp_right (fun x => ⟨x.1, b.trans x.2⟩)

theorem Play.faith (h : Play E L S U) : S.dead = true ∨ Faith L U S := by
  obtain ⟨z, hz, l⟩ := play_iff.1 h
  have hc : (new (W := W) z).Calm (firm L []) := (Play.calm (E := E) (.init hz)).resolve_left (by rw [show (new (W := W) z).dead = false from rfl]; simp)
  exact (l.onw ⟨hc, Sat.init_vow⟩).imp_right (·.1)

/-! ### The end of a session -/

/-- The end of a session that started with `S`: the values reported with any small enough infinitesimal, any positions that satisfy the decided literals. -/
theorem Later.final (hF : Faith L U S) {V V' : Sat (LRA × DL W)} {Y : List Fact} (hu : Later E L S U V Y) {op : Sat.Op} (hl : V.Legal op) (hop : LRA.Propagates op)
    (hs : V.step E (ops L) op = .ok (V', .bool true)) (hall : ∀ v, v < V'.nvars → V'.assigns v ≠ none) :
    V'.Rt (fun v => V'.assigns v = some true) ∧ Onw S V' ∧
    ∃ δ0 : ℚ, 0 < δ0 ∧ ∀ δ, 0 < δ → δ ≤ δ0 → ∀ X, DL.Fits (V'.right 1) X → World S (fun v => V'.assigns v = some true) (LRA.withEps δ V'.th.1.vals) X := by
  obtain ⟨a, b⟩ := (hu.onw hF).resolve_left (by rw [hl.1]; simp)
  have hp : Sat.Propagating op := by cases op <;> exact hop
  obtain ⟨c1, c2, c3, c4, -⟩ := Sat.quiet_onw a.calm a.vow hl hp hs
  obtain ⟨e1, e2⟩ := firmS_onw ((Sat.step_calm (calm_sig a.calm) hl (fun v i e => by rw [e] at hop; exact hop) hs).2 hp rfl).1
  have o : Onw S V' := b.trans ⟨c4, .of_sig e1, fun v dd hv => by rw [e2]; exact hv⟩
  obtain ⟨δ0, h0, f⟩ := LRA.final_world c1.left c2 c3.1 hall
  refine ⟨c1.rt c2 hall, o, δ0, h0, fun δ h1 h2 X hX => o.world ⟨c1.rt c2 hall, (f δ h1 h2).mod, (DL.final_world c1.right c2 hall hX).vd⟩⟩

/-! ### C74 -/

/-- C74, core: as `DL.C74_core`. -/
theorem C74_core (h : Play E L S U) {op : Sat.Op} {out : Sat.Out} (hl : S.Legal op) (hop : DL.MayCall op) (hs : S.step E (ops L) op = .ok (S', out)) {V V' : Sat (LRA × DL W)} {Y : List Fact} (hu : Later E L S' U V Y)
    {op' : Sat.Op} (hl' : V.Legal op') (hop' : LRA.Propagates op') (hs' : V.step E (ops L) op' = .ok (V', .bool true)) (hall : ∀ v, v < V'.nvars → V'.assigns v ≠ none) :
    S.Promise op out (fun v => V'.assigns v = some true) := by
  have ff := h.faith.resolve_left (by rw [hl.1]; simp)
  have alive : ¬ S'.dead = true := by rw [hu.alive hl'.1]; simp
  have m := (Sat.step_promise ff.calm ff.vow hl hs).resolve_left alive
  have f1 := ((step_onw ff hl hop hs).resolve_left alive).1
  obtain ⟨a, b, -⟩ := hu.final f1 hl' hop' hs' hall
  exact m _ (b.rt a)

/-- C74, arithmetic: let `new_lt`, `new_leq`, `new_geq`, `new_gt` return `p`, at root level. After any further calls, if a call that propagates returns true and every variable is assigned, `p` is true exactly when the relation
holds of the values reported, whatever small value is given to the infinitesimal. -/
theorem C74_arith (h : Play E L S U) (hd : S.dead = false) (hr : S.root = true) {R : LRA.Rel4} {l r : Lin} {s : Sat LRA} {p : Lit} (hlc : l.Canon) (hrc : r.Canon) (hlv : ∀ w ∈ keys l.vars, w < S.th.1.n)
    (hrv : ∀ w ∈ keys r.vars, w < S.th.1.n) (hn : LRA.newRel R (S.left 1) l r = .ok (s, p)) {V V' : Sat (LRA × DL W)} {Y : List Fact} (hu : Later E L (S.putL 1 s) U V Y) {op : Sat.Op} (hl : V.Legal op)
    (hop : LRA.Propagates op) (hs : V.step E (ops L) op = .ok (V', .bool true)) (hall : ∀ v, v < V'.nvars → V'.assigns v ≠ none) :
    ∃ δ0 : ℚ, 0 < δ0 ∧ ∀ δ, 0 < δ → δ ≤ δ0 →
      (Asg.sat (fun v => V'.assigns v = some true) p ↔ R.holds (l.eval 1 (LRA.withEps δ V'.th.1.vals)) (r.eval 1 (LRA.withEps δ V'.th.1.vals))) := by
  have ff := h.faith.resolve_left (by rw [hd]; simp)
  have alive : ¬ (S.putL 1 s).dead = true := by rw [hu.alive hl.1]; simp
  have f1 := ((Turn.newRel (E := E) (U := U) hd hlc hrc hlv hrv hn).onw ff).resolve_left alive
  obtain ⟨a, b, δ0, h0, f⟩ := hu.final f1.1 hl hop hs hall
  obtain ⟨X, hX⟩ := (C68_backed ((play_later (h.call (.newRel hd hlc hrc hlv hrv hn)) hu)) hl hop hs).2.2.2.1
  exact ⟨δ0, h0, fun δ h1 h2 => (LRA.newRel_onw ff.left hlc hrc hlv hrv hn).2.2 hr _ _ (f δ h1 h2 X hX).arith⟩

/-- C74, arithmetic: the same of `new_eq`. -/
theorem C74_arith_eq (h : Play E L S U) (hd : S.dead = false) {l r : Lin} {s : Sat LRA} {p : Lit} (hlc : l.Canon) (hrc : r.Canon) (hlv : ∀ w ∈ keys l.vars, w < S.th.1.n)
    (hrv : ∀ w ∈ keys r.vars, w < S.th.1.n) (hn : LRA.newEqL E (S.left 1) l r = .ok (s, p)) {V V' : Sat (LRA × DL W)} {Y : List Fact} (hu : Later E L (S.putL 1 s) U V Y) {op : Sat.Op} (hl : V.Legal op)
    (hop : LRA.Propagates op) (hs : V.step E (ops L) op = .ok (V', .bool true)) (hall : ∀ v, v < V'.nvars → V'.assigns v ≠ none) :
    ∃ δ0 : ℚ, 0 < δ0 ∧ ∀ δ, 0 < δ → δ ≤ δ0 →
      (Asg.sat (fun v => V'.assigns v = some true) p ↔ l.eval 1 (LRA.withEps δ V'.th.1.vals) = r.eval 1 (LRA.withEps δ V'.th.1.vals)) := by
  have ff := h.faith.resolve_left (by rw [hd]; simp)
  have alive : ¬ (S.putL 1 s).dead = true := by rw [hu.alive hl.1]; simp
  have f1 := ((Turn.newEq (E := E) (U := U) hd hlc hrc hlv hrv hn).onw ff).resolve_left alive
  obtain ⟨a, b, δ0, h0, f⟩ := hu.final f1.1 hl hop hs hall
  obtain ⟨X, hX⟩ := (C68_backed ((play_later (h.call (.newEq hd hlc hrc hlv hrv hn)) hu)) hl hop hs).2.2.2.1
  exact ⟨δ0, h0, fun δ h1 h2 => ((LRA.newEqL_onw ff.left hlc hrc hlv hrv hn).resolve_left alive).2 _ _ (f δ h1 h2 X hX).arith⟩

/-- C74, arithmetic: let `new_var(l)` return `y`. After any further calls, whenever a call that propagates returns true, the value reported for `y` is that of `l`. -/
theorem C74_arith_var (h : Play E L S U) (hd : S.dead = false) {l : Lin} {t : LRA} {y : Nat} (hlc : l.Canon) (hb : ∀ w ∈ keys l.vars, S.th.1.row w = none) (hk : l.kt = 0)
    (hn : S.th.1.newVarL S.root l = .ok (t, y)) {V V' : Sat (LRA × DL W)} {Y : List Fact} (hu : Later E L (S.putL 1 { S.left 1 with th := t }) U V Y) {op : Sat.Op} (hl : V.Legal op)
    (hop : LRA.Propagates op) (hs : V.step E (ops L) op = .ok (V', .bool true)) : V'.th.1.vals y = l.eval IQ.one V'.th.1.vals := by
  have ff := h.faith.resolve_left (by rw [hd]; simp)
  have alive : ¬ (S.putL 1 { S.left 1 with th := t }).dead = true := by rw [hu.alive hl.1]; simp
  have f1 := ((Turn.newVarL (E := E) (U := U) hd hlc hb hk hn).onw ff).resolve_left alive
  obtain ⟨a, b⟩ := (hu.onw f1.1).resolve_left (by rw [hl.1]; simp)
  have hp : Sat.Propagating op := by cases op <;> exact hop
  obtain ⟨e1, -⟩ := firmS_onw ((Sat.step_calm (calm_sig a.calm) hl (fun v i e => by rw [e] at hop; exact hop) hs).2 hp rfl).1
  have df := (C68_backed ((play_later (h.call (.newVarL hd hlc hb hk hn)) hu)) hl hop hs).2.1
  exact (LRA.newVarL_onw ff.left hlc hb hk hn).2.2 _ (fun d hd => df d ((LRA.Kin.of_sig e1).defs d (b.ext.defs d hd)))

/-- C74, difference logic: as `DL.C74_distance`. -/
theorem C74_distance (h : Play E L S U) (hd : S.dead = false) (hr : S.root = true) {i j : Nat} {w : W} {s : Sat (DL W)} {p : Lit} (hi : i < S.th.2.nv) (hj : j < S.th.2.nv) (hn : DL.newDistance (S.right 1) i j w = .ok (s, p))
    {V V' : Sat (LRA × DL W)} {Y : List Fact} (hu : Later E L (S.putR 1 s) U V Y) {op : Sat.Op} (hl : V.Legal op) (hop : LRA.Propagates op) (hs : V.step E (ops L) op = .ok (V', .bool true))
    (hall : ∀ v, v < V'.nvars → V'.assigns v ≠ none) {X : Nat → W} (hX : DL.Fits (V'.right 1) X) : Asg.sat (fun v => V'.assigns v = some true) p ↔ X j - X i ≤ w := by
  have ff := h.faith.resolve_left (by rw [hd]; simp)
  have alive : ¬ (S.putR 1 s).dead = true := by rw [hu.alive hl.1]; simp
  have f1 := ((Turn.newDistance (E := E) (U := U) hd hi hj hn).onw ff).resolve_left alive
  obtain ⟨a, b, δ0, h0, f⟩ := hu.final f1.1 hl hop hs hall
  exact DL.newDistance_means ff.right hr hi hj hn (f δ0 h0 (le_refl _) X hX).diff

/-- C74, difference logic: as `DL.C74_relation`. -/
theorem C74_diff {T : Type} (I : DL.Interp T W) (h : Play E L S U) (hd : S.dead = false) (hr : S.root = true) {R : DL.Rel} {l r : Lin} {s : Sat (DL W)} {p : Lit} (hlc : l.Canon) (hrc : r.Canon)
    (hlv : ∀ t ∈ l.vars, t.1 < S.th.2.nv) (hrv : ∀ t ∈ r.vars, t.1 < S.th.2.nv) (hb : ¬ DL.GtBug W R l r) (hn : DL.newRel E R (S.right 1) l r = .ok (s, p)) {V V' : Sat (LRA × DL W)} {Y : List Fact}
    (hu : Later E L (S.putR 1 s) U V Y) {op : Sat.Op} (hl : V.Legal op) (hop : LRA.Propagates op) (hs : V.step E (ops L) op = .ok (V', .bool true)) (hall : ∀ v, v < V'.nvars → V'.assigns v ≠ none)
    {x : Nat → T} (hx : I.q (x 0) = 0) (hX : DL.Fits (V'.right 1) (fun i => I.emb (x i))) :
    Asg.sat (fun v => V'.assigns v = some true) p ↔ R.holds (l.eval 1 (fun i => I.q (x i))) (r.eval 1 (fun i => I.q (x i))) := by
  have ff := h.faith.resolve_left (by rw [hd]; simp)
  have alive : ¬ (S.putR 1 s).dead = true := by rw [hu.alive hl.1]; simp
  obtain ⟨As, hg, -⟩ := (DL.calm_fi ff.calm.right).held
  obtain ⟨Q, sh, hQ⟩ := DL.newRel_shape I (E := E) hg.core.one hlc hrc hlv hrv hb hn
  have f1 := ((Turn.newDiff (E := E) (U := U) hd hlc hrc hlv hrv hn).onw ff).resolve_left alive
  obtain ⟨a, b, δ0, h0, f⟩ := hu.final f1.1 hl hop hs hall
  rw [(sh.means ff.right hr).resolve_left alive _ _ (f δ0 h0 (le_refl _) _ hX).diff, hQ x hx]

end Mix
end Semitone
