import Verif.Lib.Family

/-!
# One theory among the others: what its calls do to the network of the whole family
-/
namespace Semitone
namespace Family
open Lin
variable {E : Env} {L : LEnv} {T T' : Type} {C : Comp T} {C' : Comp T'} {f : Family E C} {g : Family E C'} {S S' : Sat T} {U : C.Dat} {d : Bool}

/-- What holds in the sessions. -/
abbrev Held (f : Family E C) (S : Sat T) (U : C.Dat) (d : Bool) : Prop := Duty.Held E f.duty S U d

theorem put_posted {B : Type} {K : Comp B} (W : K.Within C) (S : Sat T) (s : Sat B) : (W.put S s).posted = s.posted := by
  obtain ⟨t, b, e, -⟩ := W.put_eq S s
  rw [e]; rfl

theorem Has.setVal_val {B : Type} {K : Comp B} {k : Family E K} : {T : Type} → {C : Comp T} → {f : Family E C} → (W : k.Has f) → (x : C.Val) → W.setVal x (W.val x) = x
  | _, _, _, .here, _ => rfl
  | _, _, _, .left w, x => Prod.ext (w.setVal_val x.1) rfl
  | _, _, _, .right w, x => Prod.ext rfl (w.setVal_val x.2)

theorem Has.val_setVal {B : Type} {K : Comp B} {k : Family E K} : {T : Type} → {C : Comp T} → {f : Family E C} → (W : k.Has f) → (x : C.Val) → (y : K.Val) → W.val (W.setVal x y) = y
  | _, _, _, .here, _, _ => rfl
  | _, _, _, .left w, x, y => w.val_setVal x.1 y
  | _, _, _, .right w, x, y => w.val_setVal x.2 y

/-! ### Linear arithmetic -/

section
variable {W : (Family.arith L).Has f} {Z : Asg → Prop} {s : Sat LRA} {u : List Fact} {α : Asg} {x : C.Val}

theorem Has.Seen.arithOld (h : W.Seen anyAsg Z S U) (hm : f.Model S U α x) : LRA.ModelZ Z (W.within.view S) (W.within.dat U) α (W.val x) := by
  obtain ⟨a, b⟩ := h.old α x trivial (by rw [duty_net]; exact hm.net)
  refine LRA.Net.model ?_ hm.zero (by rw [(W.within.sees S).posted]; exact hm.posted) a
  rw [(W.within.sees S).th]; exact b

theorem Has.Seen.arithNew (h : W.Seen anyAsg Z S U) (hm : f.Model (W.within.put S s) (W.within.setDat U u) α x) : LRA.ModelZ Z s u α (W.val x) := by
  obtain ⟨a, b⟩ := h.get s u α x trivial (by rw [duty_net]; exact hm.net)
  exact LRA.Net.model b hm.zero (by have := hm.posted; rw [put_posted] at this; exact this) a

theorem Has.Seen.arithBack (h : W.Seen anyAsg Z S U) (hm : f.Model (W.within.put S s) (W.within.setDat U u) α x) (hk : LRA.ModelZ Z (W.within.view S) (W.within.dat U) α (W.val x)) : f.Model S U α x := by
  refine ⟨hm.zero, by have := hk.posted; rw [(W.within.sees S).posted] at this; exact this, ?_⟩
  rw [← duty_net]
  refine h.same s u α x (by rw [duty_net]; exact hm.net) ?_
  have := hk.net
  rw [(W.within.sees S).th] at this
  exact this

theorem Has.Seen.arithPut (h : W.Seen anyAsg Z S U) {β : Asg} {y : Nat → ℚ} (hab : Asg.agree S.nvars α β) (hm : f.Model S U α x) (hk : LRA.ModelZ Z s u β y) :
    f.Model (W.within.put S s) (W.within.setDat U u) β (W.setVal x y) := by
  refine ⟨hk.zero, by rw [put_posted]; exact hk.posted, ?_⟩
  rw [← duty_net]
  exact h.put s u α β x y hab (by rw [duty_net]; exact hm.net) hk.net

theorem Has.Seen.arithSI (h : W.Seen anyAsg Z S U) : LRA.SInv L Z (W.within.view S) (W.within.dat U) := (show LRA.DSI L Z _ _ from h.si).sinv

/-- A call of a theory of linear arithmetic that extends its network loses no solution and gains none. -/
theorem Has.Seen.arithGrows (h : W.Seen anyAsg Z S U) (hg : LRA.Grows L Z (W.within.dat U) (W.within.view S) s) :
    (∀ α x, f.Model (W.within.put S s) U α x → f.Model S U α x) ∧
    (∀ α x, f.Model S U α x → ∃ (β : Asg) (y : Nat → ℚ), Asg.agree S.nvars α β ∧ (∀ v, v < (W.within.th S.th).n → y v = (W.val x : Nat → ℚ) v) ∧ f.Model (W.within.put S s) U β (W.setVal x y)) := by
  refine ⟨fun α x hm => ?_, fun α x hm => ?_⟩
  · rw [← W.within.setDat_dat U] at hm
    exact h.arithBack hm (hg.keeps α _ (h.arithNew hm))
  · obtain ⟨β, y, a, b, c⟩ := hg.ext α _ (h.arithOld hm)
    rw [(W.within.sees S).nvars] at a
    rw [(W.within.sees S).th] at b
    have := h.arithPut a hm c
    rw [W.within.setDat_dat] at this
    exact ⟨β, y, a, b, this⟩

end

/-! ### Difference logic -/

section
variable {R : Type} [AddCommGroup R] [LinearOrder R] [IsOrderedAddMonoid R] [Dom R]
variable {W : (Family.diff R).Has f} {Z : Asg → Prop} {s : Sat (DL R)} {α : Asg} {x : C.Val}

theorem Has.Seen.diffSI (h : W.Seen anyAsg Z S U) : DL.SInv Z (W.within.view S) := (show DL.DSI Z _ from h.si).sinv

theorem Has.Seen.diffOld (h : W.Seen anyAsg Z S U) (hm : f.Model S U α x) : DL.Model (W.within.view S) α (W.val x) ∧ Z α := by
  obtain ⟨a, b⟩ := h.old α x trivial (by rw [duty_net]; exact hm.net)
  refine ⟨⟨hm.zero, by rw [(W.within.sees S).posted]; exact hm.posted, ?_⟩, a⟩
  rw [(W.within.sees S).th]; exact b

/-- A call of a theory of difference logic that extends its network loses no solution and gains none. -/
theorem Has.Seen.diffAdds (h : W.Seen anyAsg Z S U) {p : Lit} {Q : (Nat → R) → Prop} (hg : DL.Adds Z (W.within.view S) s p Q) :
    (∀ α x, f.Model (W.within.put S s) U α x → α.all S.decisions → (α.sat p ↔ Q (W.val x))) ∧
    (∀ α x, f.Model (W.within.put S s) U α x → f.Model S U α x) ∧
    (∀ α x, f.Model S U α x → ∃ β, Asg.agree S.nvars α β ∧ f.Model (W.within.put S s) U β x) := by
  have new : ∀ α x, f.Model (W.within.put S s) U α x → Z α ∧ DL.Model s α (W.val x) := fun α x hm => by
    have hn := hm.net
    rw [← W.within.setDat_dat U] at hn
    obtain ⟨a, b⟩ := h.get s _ α x trivial (by rw [duty_net]; exact hn)
    exact ⟨a, hm.zero, by have := hm.posted; rw [put_posted] at this; exact this, b⟩
  refine ⟨fun α x hm hd => ?_, fun α x hm => ?_, fun α x hm => ?_⟩
  · have e : (W.within.view S).decisions = S.decisions := by
      obtain ⟨b, e⟩ := W.within.view_eq S
      rw [e]; rfl
    exact hg.means α _ (new α x hm).2 (new α x hm).1 (by rw [e]; exact hd)
  · have k := hg.keeps α _ (new α x hm).2
    refine ⟨hm.zero, by have := k.2.1; rw [(W.within.sees S).posted] at this; exact this, ?_⟩
    have hn := hm.net
    rw [← W.within.setDat_dat U] at hn
    rw [← duty_net]
    refine h.same s _ α x (by rw [duty_net]; exact hn) ?_
    have := k.2.2
    rw [(W.within.sees S).th] at this
    exact this
  · obtain ⟨o1, o2⟩ := h.diffOld hm
    obtain ⟨β, a, b⟩ := hg.ext α _ o1 o2
    rw [(W.within.sees S).nvars] at a
    refine ⟨β, a, b.1, by rw [put_posted]; exact b.2.1, ?_⟩
    have := h.put s (W.within.dat U) α β x (W.val x) a (by rw [duty_net]; exact hm.net) b.2.2
    rw [duty_net, W.within.setDat_dat, W.setVal_val] at this
    exact this

end

/-! ### Object variables -/

section
variable {A : Type} [DecidableEq A] {D : OEnv A}
variable {W : (Family.object (E := E) D).Has f} {Z : Asg → Prop} {s : Sat (OV A)} {o : OV A} {α : Asg} {x : C.Val}

theorem Has.Seen.objectSI (h : W.Seen anyAsg Z S U) : OV.OInv ((OV.ovCon (W.within.view S).th).restrict Z) (W.within.view S) (W.within.view S).th := (show OV.DSI Z _ from h.si).oinv

theorem Has.Seen.objectZ (h : W.Seen anyAsg Z S U) : ∀ α β : Asg, Asg.agree S.nvars α β → Z α → Z β := by
  have := (show OV.DSI Z _ from h.si).zloc
  rw [(W.within.sees S).nvars] at this
  exact this

theorem Has.Seen.objectLocal (h : W.Seen anyAsg Z S U) : (W.within.view S).Local ((OV.ovCon (W.within.view S).th).restrict Z).Th :=
  fun α β hab hz => ⟨trivial, (show OV.DSI Z _ from h.si).zloc α β hab hz.2⟩

theorem Has.Seen.objectOld (h : W.Seen anyAsg Z S U) (hm : f.Model S U α x) : (W.within.view S).Sol ((OV.ovCon (W.within.view S).th).restrict Z).Th α ∧ OV.Holds (W.within.th S.th) α (W.val x) := by
  obtain ⟨a, b⟩ := h.old α x trivial (by rw [duty_net]; exact hm.net)
  exact ⟨⟨hm.zero, by rw [(W.within.sees S).posted]; exact hm.posted, trivial, a⟩, b⟩

theorem Has.Seen.objectNew (h : W.Seen anyAsg Z S U) {t : OV A} (hm : f.Model (W.within.put S { s with th := o }) U α x) : s.Sol ((OV.ovCon t).restrict Z).Th α ∧ OV.Holds o α (W.val x) := by
  have hn := hm.net
  rw [← W.within.setDat_dat U] at hn
  obtain ⟨a, b⟩ := h.get { s with th := o } (W.within.dat U) α x trivial (by rw [duty_net]; exact hn)
  exact ⟨⟨hm.zero, by have := hm.posted; rw [put_posted] at this; exact this, trivial, a⟩, b⟩

theorem Has.Seen.objectBack (h : W.Seen anyAsg Z S U) {K : Contract (OV.ops (V := A))} (hg : OV.OGrows K (W.within.view S) (W.within.view S).th s o) (hm : f.Model (W.within.put S { s with th := o }) U α x) : f.Model S U α x := by
  obtain ⟨a, b⟩ := h.objectNew (t := o) hm
  refine ⟨hm.zero, fun D hD => a.2.1 D (hg.grows.posted D (by rw [(W.within.sees S).posted]; exact hD)), ?_⟩
  have hn := hm.net
  rw [← W.within.setDat_dat U] at hn
  rw [← duty_net]
  refine h.same { s with th := o } (W.within.dat U) α x (by rw [duty_net]; exact hn) ?_
  rw [← (W.within.sees S).th]
  exact (OV.comp stdEnv (⟨id, fun _ => .refl _⟩ : OEnv A)).holds_ext ⟨hg.doms, hg.exprs⟩ b

theorem Has.Seen.objectPut (h : W.Seen anyAsg Z S U) {β : Asg} {y : Nat → List A} {t : OV A} (hab : Asg.agree S.nvars α β) (hm : f.Model S U α x) (hs : s.Sol ((OV.ovCon t).restrict Z).Th β) (hy : OV.Holds o β y) :
    f.Model (W.within.put S { s with th := o }) U β (W.setVal x y) := by
  refine ⟨hs.1, by rw [put_posted]; exact hs.2.1, ?_⟩
  have := h.put { s with th := o } (W.within.dat U) α β x y hab (by rw [duty_net]; exact hm.net) hy
  rw [duty_net, W.within.setDat_dat] at this
  exact this

end

end Family
end Semitone
