import Verif.Sat.View
import Verif.LRA.Session
import Verif.DL.Session

/-!
# Linear arithmetic and difference logic on the same core

A core to which a linear-arithmetic theory and a difference-logic theory are attached (`sat_core.h:167`: the vector of theories; the arithmetic theory has the identifier 0, the
difference-logic theory the identifier 1). The core tells each theory the literals it listens to, checks the theories one after the other, and pushes and pops both.
-/
namespace Semitone
namespace Mix
open Lin
variable {W : Type} [AddCommGroup W] [LinearOrder W] [IsOrderedAddMonoid W] [Dom W]

/-- The two theories (`lra_theory.cpp`, `dl_theory.h`) attached to one core. -/
abbrev ops (L : LEnv) : TheoryOps (LRA × DL W) := (LRA.ops L).prod 1 DL.ops

/-- The same, with the unsafe propagations of difference logic excluded (`DL.safe`). -/
abbrev safeOps (L : LEnv) : TheoryOps (LRA × DL W) := (LRA.ops L).prod 1 DL.safeOps

theorem safe_guards (L : LEnv) : Guards (safeOps (W := W) L) (ops L) .excluded := Guards.prod DL.safe_guards

/-- A new core with the two theories. -/
abbrev new (size : Nat) : Sat (LRA × DL W) := Sat.init (LRA.init, DL.init size)

/-- The truth assignment `α`, the rational valuation `x` of the arithmetic variables and the positions `X` of the time points are a solution of the network: every posted clause holds, every
arithmetic literal is true exactly when its relation holds, every derived variable has the value of its expression, the bounds `U` imposed with `set_lb` and `set_ub` hold, every distance
literal is true exactly when its constraint holds. -/
structure Model (S : Sat (LRA × DL W)) (U : List Fact) (α : Asg) (x : Nat → ℚ) (X : Nat → W) : Prop where
  zero : α 0 = false
  posted : ∀ C ∈ S.posted, α.clause C
  lits : ∀ b a, S.th.1.vas b = some a → (α b = true ↔ a.says x)
  defs : ∀ d ∈ S.th.1.defs, x d.1 = d.2.eval 1 x
  user : ∀ f ∈ U, f.holds α (LRA.rat x)
  dist : ∀ v dd, S.th.2.vd v = some dd → (α v = true ↔ X dd.tgt - X dd.src ≤ dd.w)

variable {E : Env} {L : LEnv} {S S' : Sat (LRA × DL W)} {U : List Fact} {α : Asg} {x : Nat → ℚ} {X : Nat → W} {d : Bool}

theorem Model.arith (h : Model S U α x X) : LRA.ModelZ (DL.Th S.th.2) (S.left 1) U α x := ⟨h.zero, h.posted, h.lits, h.defs, h.user, X, h.dist⟩

theorem Model.diff (h : Model S U α x X) : DL.Model (S.right 1) α X := ⟨h.zero, h.posted, h.dist⟩

theorem Model.of (h1 : LRA.ModelZ (DL.Th S.th.2) (S.left 1) U α x) (h2 : DL.Model (S.right 1) α X) : Model S U α x X := ⟨h1.zero, h1.posted, h1.lits, h1.defs, h1.user, h2.2.2⟩

/-- What holds in every state reached by successful calls: each theory is right about the solutions the other one allows. -/
structure Base (L : LEnv) (S : Sat (LRA × DL W)) (U : List Fact) : Prop where
  lra : LRA.SInv L (DL.Th S.th.2) (S.left 1) U
  dl : DL.SInv (LRA.Th S.th.1) (S.right 1)

/-- The contract of the two theories together. -/
abbrev contract (L : LEnv) (sg : LRA.Sig) (V : Nat → Option (Dist W)) : Contract (safeOps (W := W) L) := Contract.prod 1 (LRA.lraContract L sg) (DL.dlContract V)

theorem Base.rinv (h : Base L S U) : S.RInv (contract L (LRA.sig S.th.1) S.th.2.vd) := by
  have := h.lra.rinv.retheory (C' := contract L (LRA.sig S.th.1) S.th.2.vd) (t := S.th) S.bounds (fun α hα => hα) ⟨h.lra.rinv.inv.ti, h.dl.rinv.inv.ti⟩
  exact this

/-- What the arithmetic theory says concerns existing variables of the core. -/
theorem lra_loc {t : LRA} {n : Nat} (hn : 0 < n) (hf : ∀ b a, t.vas b = some a → b < n) (hl : ∀ f ∈ t.facts, f.lit.var < n) : ∀ α β : Asg, Asg.agree n α β → LRA.Th t α → LRA.Th t β := by
  rintro α β hab ⟨x, hx⟩
  refine ⟨x, ?_, fun b a hb => ?_, hx.defs, fun f hf' => (LRA.fact_agree hab (hl f hf') _).mp (hx.fact f hf')⟩
  · rw [← hab 0 hn]; exact hx.zero
  · rw [← hab b (hf b a hb)]; exact hx.asrt b a hb

theorem dl_loc {t : DL W} {n : Nat} (hf : ∀ v dd, t.vd v = some dd → v < n) : ∀ α β : Asg, Asg.agree n α β → DL.Th t α → DL.Th t β := by
  rintro α β hab ⟨X, hX⟩
  exact ⟨X, fun v dd hv => by rw [← hab v (hf v dd hv)]; exact hX v dd hv⟩

/-- The bounds of a view do not matter. -/
theorem sinv_bounds {Z : Asg → Prop} {s : Sat LRA} (h : LRA.SInv L Z s U) (b : Nat → List Nat) : LRA.SInv L Z (s.retheory s.th b) U :=
  ⟨h.rinv.retheory b (fun _ h => h) h.rinv.inv.ti, h.fresh, h.pos, h.eps, h.flit, h.dvar, h.uvar, h.zloc, fun α x hm => h.imp α x ⟨hm.zero, hm.posted, hm.lits, hm.defs, hm.user, hm.rest⟩⟩

/-- The arithmetic theory has acted on its view of the core. -/
theorem Base.putL (h : Base L S U) {s : Sat LRA} {U' : List Fact} (hs : LRA.SInv L (DL.Th S.th.2) s U') (hm : (S.left 1).Mild s) : Base L (S.putL 1 s) U' := by
  have hr : (S.putL 1 s).RInv (contract L (LRA.sig s.th) S.th.2.vd) := h.rinv.putL (C1' := LRA.lraContract L (LRA.sig s.th)) hs.rinv hm
  have hb : LRA.SInv L (DL.Th S.th.2) ((S.putL 1 s).left 1) U' := sinv_bounds hs _
  exact ⟨hb, hr.right, fun v dd hv => (h.dl.fresh v dd hv).trans_le hm.nv, lra_loc hs.nvars_pos hs.fresh hs.flit⟩

/-- The difference-logic theory has acted on its view of the core. -/
theorem Base.putR (h : Base L S U) {s : Sat (DL W)} (hs : DL.SInv (LRA.Th S.th.1) s) (hm : (S.right 1).Mild s) (hk : ∀ α X, DL.Model s α X → DL.Model (S.right 1) α X) :
    Base L (S.putR 1 s) U := by
  have hr : (S.putR 1 s).RInv (contract L (LRA.sig S.th.1) s.th.vd) := h.rinv.putR (C2' := DL.dlContract s.th.vd) hs.rinv hm
  have hn : S.nvars ≤ s.nvars := hm.nv
  refine ⟨⟨hr.left, fun b a hb => (h.lra.fresh b a hb).trans_le hn, h.lra.pos, h.lra.eps, fun f hf => (h.lra.flit f hf).trans_le hn, h.lra.dvar, fun f hf => ?_, dl_loc hs.fresh, fun α x hm => ?_⟩,
    ⟨hr.right, hs.fresh, hs.zloc⟩⟩
  · exact ⟨(h.lra.uvar f hf).1.trans_le hn, (h.lra.uvar f hf).2⟩
  · obtain ⟨X, hX⟩ := hm.rest
    obtain ⟨h1, h2, h3⟩ := hk α X ⟨hm.zero, hm.posted, hX⟩
    exact h.lra.imp α x ⟨hm.zero, h2, hm.lits, hm.defs, hm.user, X, h3⟩

theorem th_vd {t t' : DL W} (h : t'.vd = t.vd) (α : Asg) : DL.Th t' α ↔ DL.Th t α := by unfold DL.Th; rw [h]

/-- A call of the core. -/
theorem Base.step (h : Base L S U) {op : Sat.Op} {out : Sat.Out} (hsf : op = .simplify → ∀ u, S.propagate E (safeOps L) = .ok (u, true) → u.Fix u.okQ) (hs : S.step E (safeOps L) op = .ok (S', out)) :
    Base L S' U ∧ (∀ α x X, Model S' U α x X → Model S U α x X) ∧ LRA.sig S'.th.1 = LRA.sig S.th.1 ∧ S'.th.2.vd = S.th.2.vd ∧ S.nvars ≤ S'.nvars := by
  have a := Sat.step_rinv h.rinv hsf hs
  have g := Sat.step_grows h.rinv hsf hs
  have hsig : LRA.sig S'.th.1 = LRA.sig S.th.1 := LRA.TI.sig a.inv.ti.1
  have hvd : S'.th.2.vd = S.th.2.vd := a.inv.ti.2.1.1
  have hvas : S'.th.1.vas = S.th.1.vas := congrArg LRA.Sig.vas hsig
  have hdefs : S'.th.1.defs = S.th.1.defs := congrArg LRA.Sig.defs hsig
  have hfacts : S'.th.1.facts = S.th.1.facts := congrArg LRA.Sig.facts hsig
  have hnn : S'.th.1.n = S.th.1.n := congrArg LRA.Sig.n hsig
  have hk : ∀ α x X, Model S' U α x X → Model S U α x X := fun α x X hm =>
    ⟨hm.zero, fun D hD => hm.posted D (g.posted D hD), by rw [← hvas]; exact hm.lits, by rw [← hdefs]; exact hm.defs, hm.user, by rw [← hvd]; exact hm.dist⟩
  have a' : S'.RInv (contract L (LRA.sig S'.th.1) S'.th.2.vd) := by rw [hsig, hvd]; exact a
  have hfl : ∀ f ∈ S'.th.1.facts, f.lit.var < S'.nvars := fun f hf => (h.lra.flit f (by rw [hfacts] at hf; exact hf)).trans_le g.nv
  have hfr : ∀ b a, S'.th.1.vas b = some a → b < S'.nvars := fun b a hb => (h.lra.fresh b a (by rw [hvas] at hb; exact hb)).trans_le g.nv
  have hfd : ∀ v dd, S'.th.2.vd v = some dd → v < S'.nvars := fun v dd hv => (h.dl.fresh v dd (by rw [hvd] at hv; exact hv)).trans_le g.nv
  refine ⟨⟨⟨a'.left, hfr, ?_, ?_, hfl, ?_, fun f hf => ⟨(h.lra.uvar f hf).1.trans_le g.nv, ?_⟩, dl_loc hfd, fun α x hm => ?_⟩, ⟨a'.right, hfd, lra_loc a'.inv.wf.nv hfr hfl⟩⟩, hk, hsig, hvd, g.nv⟩
  · show ∀ b a, S'.th.1.vas b = some a → 0 < b
    rw [hvas]; exact h.lra.pos
  · show ∀ b a, S'.th.1.vas b = some a → a.Ok
    rw [hvas]; exact h.lra.eps
  · show ∀ d ∈ S'.th.1.defs, d.1 < S'.th.1.n ∧ ∀ w ∈ keys d.2.vars, w < S'.th.1.n
    rw [hdefs, hnn]; exact h.lra.dvar
  · show f.var < S'.th.1.n
    rw [hnn]; exact (h.lra.uvar f hf).2
  · show ∀ f ∈ S'.th.1.facts, f.holds α (LRA.rat x)
    rw [hfacts]
    obtain ⟨X, hX⟩ := hm.rest
    exact h.lra.imp α x (hk α x X ⟨hm.zero, hm.posted, hm.lits, hm.defs, hm.user, hX⟩).arith

theorem init_base {size : Nat} (h : 1 ≤ size) : Base L (new (W := W) size) [] := by
  have h1 : LRA.SInv L anyAsg (Sat.init LRA.init) [] := LRA.init_sinv
  have h2 : DL.SInv anyAsg (Sat.init (DL.init (W := W) size)) := DL.init_sinv h
  have hr : (new (W := W) size).RInv (contract L (LRA.sig LRA.init) (DL.init (W := W) size).vd) :=
    h1.rinv.retheory (C' := contract L (LRA.sig LRA.init) (DL.init (W := W) size).vd) (t := (LRA.init, DL.init size)) _ (fun α hα => ⟨hα.1, trivial⟩) ⟨h1.rinv.inv.ti, h2.rinv.inv.ti⟩
  exact ⟨⟨hr.left, h1.fresh, h1.pos, h1.eps, h1.flit, h1.dvar, h1.uvar, dl_loc h2.fresh, fun α x _ f hf => by cases hf⟩, ⟨hr.right, h2.fresh, lra_loc h1.nvars_pos h1.fresh h1.flit⟩⟩

end Mix
end Semitone
