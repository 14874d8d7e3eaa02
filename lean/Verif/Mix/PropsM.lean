import Verif.Sat.PropsM
import Verif.LRA.PropsD
import Verif.DL.Demo
import Verif.Mix.Props

/-!
# C71: clause objects, with theories attached
-/
namespace Semitone
open Sat
variable {E : Env} {L : LEnv}

/-- C71: every session with linear arithmetic. -/
theorem LRA.C71_lra {s : Sat LRA} {U : List Fact} {d : Bool} (h : LRA.ZReach E L s U d) : s.Tidy ∧ s.DestroySafe :=
  ⟨h.zinv.reach.rinv.inv.wf.tidy, h.zinv.reach.rinv.inv.wf.destroySafe⟩

variable {W : Type} [AddCommGroup W] [LinearOrder W] [IsOrderedAddMonoid W] [Dom W]

/-- C71: every session with difference logic without unsafe propagations. -/
theorem DL.C71_dl {s : Sat (DL W)} (h : DL.DSess E s) : s.Tidy ∧ s.DestroySafe :=
  ⟨h.inv.reach.sinv.rinv.inv.wf.tidy, h.inv.reach.sinv.rinv.inv.wf.destroySafe⟩

/-- C71: every session with both theories without unsafe propagations. -/
theorem Mix.C71_mix {S : Sat (LRA × DL W)} {U : List Fact} {d : Bool} (h : Mix.Sess E L S U d) : S.Tidy ∧ S.DestroySafe :=
  ⟨h.inv.reach.base.rinv.inv.wf.tidy, h.inv.reach.base.rinv.inv.wf.destroySafe⟩

/-- After an invalid lemma of difference logic (see C61) the core cannot even be destroyed: the destructor of a clause with one literal reads the second one. -/
theorem DL.C71_witness : (DL.runs true DL.hist61 (Sat.init (DL.init 4))).isSome = true ∧ ((DL.made DL.hist61).1.destroy).map (fun _ => ()) = .error .ub := by decide +kernel

end Semitone
