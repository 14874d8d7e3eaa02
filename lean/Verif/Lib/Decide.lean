import Verif.Lib.FamilyUse

/-!
# Any number of theories on one core: C77, C78, C79

`f : Family E C` describes the theories attached to the core; `f.Plain`: no theory of difference logic among them (bug C35: difference logic may learn wrong clauses). Sessions: `Comp.Session E C` (`Lib/Family.lean`); for families
with difference logic, `f.Sess`: the same, as long as no literal is told to a theory of difference logic in an unsafe situation. Solutions of the whole network: `f.Model`. `W : (Family.arith L).Has f` picks a theory of linear
arithmetic of the family, `W.within.view S` is what it sees of the core, `W.within.th S.th` its state, `W.within.put S s` the state after it has acted, `W.val x` its values.
-/
namespace Semitone
namespace Family
open Lin
variable {E : Env} {L : LEnv} {T : Type} {C : Comp T} {f : Family E C} {S S' : Sat T} {U : C.Dat} {d : Bool}

theorem _root_.Semitone.Comp.Session.held (hf : f.Plain) (h : Comp.Session E C S U d) : f.Held S U d := Duty.held (h.sess hf)

theorem view_decisions {B : Type} {K : Comp B} (W : K.Within C) (S : Sat T) : (W.view S).decisions = S.decisions := by
  obtain ⟨b, e⟩ := W.view_eq S
  rw [e]; rfl

/-! ### C77: what the theories do is right -/

/-- C77: in every session of a core with any number of theories of linear arithmetic and object variables, every clause stored follows from the posted clauses and the networks of the theories; every value assigned follows from the
decisions of its level; a definitive inconsistency means that there is no solution. -/
theorem C77_sound (hf : f.Plain) (h : Comp.Session E C S U d) :
    (∀ c ∈ S.constrs, ∀ α x, f.Model S U α x → α.clause (S.db c)) ∧
    (∀ q, S.value q = some true → ∀ α x, f.Model S U α x → α.all (S.decUpTo (S.level q.var)) → α.sat q) ∧
    (S.dead = true → ∀ α x, ¬ f.Model S U α x) := by
  obtain ⟨a, b, c, -⟩ := (h.held hf).sound
  exact ⟨fun i hi α x hm => a i hi α x (model_iff.mpr hm), fun q hq α x hm => b q hq α x (model_iff.mpr hm), fun hd α x hm => c hd α x (model_iff.mpr hm)⟩

/-- C77 with difference logic (partial). Missing: the calls that tell a theory of difference logic a literal in an unsafe situation (`Mix.C66_witness`). -/
theorem C77_sound_partial (h : f.Sess S U d) :
    (∀ c ∈ S.constrs, ∀ α x, f.Model S U α x → α.clause (S.db c)) ∧
    (∀ q, S.value q = some true → ∀ α x, f.Model S U α x → α.all (S.decUpTo (S.level q.var)) → α.sat q) ∧
    (S.dead = true → ∀ α x, ¬ f.Model S U α x) := by
  obtain ⟨a, b, c, -⟩ := (Duty.held h).sound
  exact ⟨fun i hi α x hm => a i hi α x (model_iff.mpr hm), fun q hq α x hm => b q hq α x (model_iff.mpr hm), fun hd α x hm => c hd α x (model_iff.mpr hm)⟩

/-- C77: `propagate()` returning false is definitive; `assume` returning false means that no solution is compatible with the decisions. -/
theorem C77_definitive (hf : f.Plain) (h : Comp.Session E C S U d) :
    (S.propagate E C.ops = .ok (S', false) → S'.root = true ∧ ∀ α x, ¬ f.Model S U α x) ∧
    (∀ p, S.assume E C.ops p = .ok (S', false) → ∀ α x, f.Model S U α x → ¬ α.all (p :: S.decisions)) := by
  obtain ⟨a, b⟩ := (h.held hf).definitive (S' := S')
  rw [show f.duty.sops = C.ops from hf.safe] at a b
  refine ⟨fun hs => ?_, fun p hs α x hm => b p (by simp only [Sat.step, hs]; exact fun e => by cases e) hs α x (model_iff.mpr hm)⟩
  obtain ⟨k1, k2⟩ := a (by simp only [Sat.step, hs]; exact fun e => by cases e) hs
  exact ⟨k1, fun α x hm => k2 α x (model_iff.mpr hm)⟩

/-- C77 with difference logic (partial). Missing: the calls that tell a theory of difference logic a literal in an unsafe situation. -/
theorem C77_definitive_partial (h : f.Sess S U d) :
    (S.step E f.safe .propagate ≠ .error .excluded → S.propagate E C.ops = .ok (S', false) → S'.root = true ∧ ∀ α x, ¬ f.Model S U α x) ∧
    (∀ p, S.step E f.safe (.assume p) ≠ .error .excluded → S.assume E C.ops p = .ok (S', false) → ∀ α x, f.Model S U α x → ¬ α.all (p :: S.decisions)) := by
  obtain ⟨a, b⟩ := (Duty.held h).definitive (S' := S')
  refine ⟨fun ha hs => ?_, fun p ha hs α x hm => b p ha hs α x (model_iff.mpr hm)⟩
  obtain ⟨k1, k2⟩ := a ha hs
  exact ⟨k1, fun α x hm => k2 α x (model_iff.mpr hm)⟩

/-! ### Linear arithmetic -/

section arith
variable (W : (Family.arith L).Has f)

theorem held_bounds (h : f.Held S U d) : ∀ v α x, f.Model S U α x → α.all S.decisions →
    (W.within.th S.th).lo v ≤ ((IQ.ofQ ((W.val x : Nat → ℚ) v) : IQ) : WithBot IQ) ∧ ((IQ.ofQ ((W.val x : Nat → ℚ) v) : IQ) : WithTop IQ) ≤ (W.within.th S.th).hi v := by
  obtain ⟨Z, k⟩ := W.seen anyAsg S U h.si
  intro v α x hm hd
  have := k.arithSI.bound (k.arithOld hm) (by rw [view_decisions]; exact hd) v
  rw [(W.within.sees S).th] at this
  exact this

theorem held_rel (h : f.Held S U d) {l r : Lin} {s : Sat LRA} {p : Lit} (hl : l.Canon) (hr : r.Canon) (hvl : ∀ w ∈ keys l.vars, w < (W.within.th S.th).n) (hvr : ∀ w ∈ keys r.vars, w < (W.within.th S.th).n) :
    (∀ R : LRA.Rel4, LRA.newRel R (W.within.view S) l r = .ok (s, p) →
      (∀ α x, f.Model (W.within.put S s) U α x → α.all S.decisions → (α.sat p ↔ R.holds (l.eval 1 (W.val x : Nat → ℚ)) (r.eval 1 (W.val x : Nat → ℚ)))) ∧
      (∀ α x, f.Model (W.within.put S s) U α x → f.Model S U α x) ∧
      (∀ α x, f.Model S U α x → ∃ (β : Asg) (y : Nat → ℚ), Asg.agree S.nvars α β ∧ (∀ v, v < (W.within.th S.th).n → y v = (W.val x : Nat → ℚ) v) ∧ f.Model (W.within.put S s) U β (W.setVal x y))) ∧
    (LRA.newEqL E (W.within.view S) l r = .ok (s, p) →
      (∀ α x, f.Model (W.within.put S s) U α x → α.all S.decisions → (α.sat p ↔ l.eval 1 (W.val x : Nat → ℚ) = r.eval 1 (W.val x : Nat → ℚ))) ∧
      (∀ α x, f.Model (W.within.put S s) U α x → f.Model S U α x) ∧
      (∀ α x, f.Model S U α x → ∃ (β : Asg) (y : Nat → ℚ), Asg.agree S.nvars α β ∧ (∀ v, v < (W.within.th S.th).n → y v = (W.val x : Nat → ℚ) v) ∧ f.Model (W.within.put S s) U β (W.setVal x y))) := by
  obtain ⟨Z, k⟩ := W.seen anyAsg S U h.si
  have new : ∀ α x, f.Model (W.within.put S s) U α x → LRA.ModelZ Z s (W.within.dat U) α (W.val x) := fun α x hm => by
    rw [← W.within.setDat_dat U] at hm
    have := k.arithNew (u := W.within.dat U) hm
    exact this
  rw [← (W.within.sees S).th] at hvl hvr
  refine ⟨fun R hn => ?_, fun hn => ?_⟩
  · have a := LRA.newRel_adds k.arithSI hl hr hvl hvr hn
    exact ⟨fun α x hm hd => a.means α _ (new α x hm) (by rw [view_decisions]; exact hd), k.arithGrows a.toGrows⟩
  · have a := LRA.newEqL_adds k.arithSI hl hr hvl hvr hn
    exact ⟨fun α x hm hd => a.means α _ (new α x hm) (by rw [view_decisions]; exact hd), k.arithGrows a.toGrows⟩

theorem held_var (h : f.Held S U d) {l : Lin} {t : LRA} {y : Nat} (hc : l.Canon) (hb : ∀ w ∈ keys l.vars, (W.within.th S.th).row w = none) (hk : l.kt = 0) (hn : (W.within.th S.th).newVarL S.root l = .ok (t, y)) :
    (∀ α x, f.Model (W.within.put S { W.within.view S with th := t }) U α x → (W.val x : Nat → ℚ) y = l.eval 1 (W.val x : Nat → ℚ)) ∧
    (∀ α x, f.Model (W.within.put S { W.within.view S with th := t }) U α x → f.Model S U α x) ∧
    (∀ α x, f.Model S U α x → ∃ (β : Asg) (z : Nat → ℚ), Asg.agree S.nvars α β ∧ (∀ v, v < (W.within.th S.th).n → z v = (W.val x : Nat → ℚ) v) ∧
      f.Model (W.within.put S { W.within.view S with th := t }) U β (W.setVal x z)) := by
  obtain ⟨Z, k⟩ := W.seen anyAsg S U h.si
  rw [← (W.within.sees S).th] at hb hn
  rw [← (W.within.sees S).root] at hn
  obtain ⟨a, -, b, -⟩ := LRA.newVarL_grows k.arithSI hc hb hk hn
  refine ⟨fun α x hm => b α _ ?_, k.arithGrows a⟩
  rw [← W.within.setDat_dat U] at hm
  exact k.arithNew (u := W.within.dat U) hm

theorem held_set (h : f.Held S U d) (hr : S.root = true) {y : Nat} {v : IQ} {p : Lit} {s : Sat LRA} (hy : y < (W.within.th S.th).n) (hp : S.value p = some true) :
    (LRA.setLbC E L (W.within.view S) y v p = .ok (s, none) →
      ∀ α x, f.Model (W.within.put S s) (W.within.setDat U (Fact.lo p y v :: W.within.dat U : List Fact)) α x ↔ f.Model S U α x ∧ v ≤ IQ.ofQ ((W.val x : Nat → ℚ) y)) ∧
    (LRA.setUbC E L (W.within.view S) y v p = .ok (s, none) →
      ∀ α x, f.Model (W.within.put S s) (W.within.setDat U (Fact.hi p y v :: W.within.dat U : List Fact)) α x ↔ f.Model S U α x ∧ IQ.ofQ ((W.val x : Nat → ℚ) y) ≤ v) ∧
    (∀ cl, LRA.setLbC E L (W.within.view S) y v p = .ok (s, some cl) → ∀ α x, f.Model S U α x → ¬ v ≤ IQ.ofQ ((W.val x : Nat → ℚ) y)) ∧
    (∀ cl, LRA.setUbC E L (W.within.view S) y v p = .ok (s, some cl) → ∀ α x, f.Model S U α x → ¬ IQ.ofQ ((W.val x : Nat → ℚ) y) ≤ v) := by
  obtain ⟨Z, k⟩ := W.seen anyAsg S U h.si
  rw [← (W.within.sees S).th] at hy
  rw [← (W.within.sees S).root] at hr
  rw [← (W.within.sees S).value] at hp
  have hroot : ∀ α x, LRA.ModelZ Z (W.within.view S) (W.within.dat U) α x → α.sat p := fun α x hm =>
    k.arithSI.true hm (by rw [k.arithSI.rinv.inv.wf.root_dec hr]; intro l hl; cases hl) hp
  have fwd : ∀ {u : List Fact} {α x}, f.Model (W.within.put S s) (W.within.setDat U u) α x → LRA.ModelZ Z s u α (W.val x) := fun hm => k.arithNew hm
  have bwd : ∀ {u : List Fact} {α x}, f.Model S U α x → LRA.ModelZ Z s u α (W.val x) → f.Model (W.within.put S s) (W.within.setDat U u) α x := fun {u α x} hm hk => by
    have := k.arithPut (u := u) (α := α) (β := α) (x := x) (y := W.val x) (fun _ _ => rfl) hm hk
    rw [W.setVal_val] at this
    exact this
  refine ⟨fun hn α x => ?_, fun hn α x => ?_, fun cl hn α x hm hv => ?_, fun cl hn α x hm hv => ?_⟩
  · have m := (LRA.setLbC_sinv k.arithSI hr hy hp hn).2.2.1 α (W.val x)
    refine ⟨fun hm => ?_, fun ⟨a, b⟩ => bwd a (m.mpr ⟨k.arithOld a, fun _ => WithBot.coe_le_coe.mpr b⟩)⟩
    obtain ⟨a1, a2⟩ := m.mp (fwd hm)
    exact ⟨k.arithBack hm a1, WithBot.coe_le_coe.mp (a2 (hroot α _ a1))⟩
  · have m := (LRA.setUbC_sinv k.arithSI hr hy hp hn).2.2.1 α (W.val x)
    refine ⟨fun hm => ?_, fun ⟨a, b⟩ => bwd a (m.mpr ⟨k.arithOld a, fun _ => WithTop.coe_le_coe.mpr b⟩)⟩
    obtain ⟨a1, a2⟩ := m.mp (fwd hm)
    exact ⟨k.arithBack hm a1, WithTop.coe_le_coe.mp (a2 (hroot α _ a1))⟩
  · obtain ⟨-, -, m, e, -⟩ := LRA.setLbC_sinv k.arithSI hr hy hp hn
    exact e (by simp) α (W.val x) ((m α _).mpr ⟨k.arithOld hm, fun _ => WithBot.coe_le_coe.mpr hv⟩)
  · obtain ⟨-, -, m, e, -⟩ := LRA.setUbC_sinv k.arithSI hr hy hp hn
    exact e (by simp) α (W.val x) ((m α _).mpr ⟨k.arithOld hm, fun _ => WithTop.coe_le_coe.mpr hv⟩)

theorem held_arith_total (h : f.Held S U d) (hd : S.dead = false) (hroot : S.root = true) :
    (∀ (R : LRA.Rel4) (l r : Lin), l.Canon → r.Canon → (∀ w ∈ keys l.vars, w < (W.within.th S.th).n) → (∀ w ∈ keys r.vars, w < (W.within.th S.th).n) →
      (∃ s p, LRA.newRel R (W.within.view S) l r = .ok (s, p)) ∧ ∃ s p, LRA.newEqL E (W.within.view S) l r = .ok (s, p)) ∧
    (∀ l : Lin, l.vars ≠ [] → (∀ w ∈ keys l.vars, w < (W.within.th S.th).n) → ∃ t y, (W.within.th S.th).newVarL S.root l = .ok (t, y)) ∧
    (∀ y (v : IQ) p, y < (W.within.th S.th).n → S.value p = some true → 0 ≤ (ofLex v).2 → ∃ s r, LRA.setLbC E L (W.within.view S) y v p = .ok (s, r)) ∧
    (∀ y (v : IQ) p, y < (W.within.th S.th).n → S.value p = some true → (ofLex v).2 ≤ 0 → ∃ s r, LRA.setUbC E L (W.within.view S) y v p = .ok (s, r)) := by
  obtain ⟨Z, k⟩ := W.seen anyAsg S U h.si
  obtain ⟨hk, hL⟩ := k.live d (h.alive hd)
  have hr : (W.within.view S).root = true := (W.within.sees S).root.trans hroot
  have e1 := (W.within.sees S).th
  have e2 := (W.within.sees S).value
  rw [← e1, ← e2, ← (W.within.sees S).root]
  refine ⟨fun R l r hl hr' hvl hvr => ⟨LRA.newRel_total k.arithSI hr R hl hr' hvl hvr, LRA.newEqL_total k.arithSI hr hl hr' hvl hvr⟩, fun l hne hv => LRA.newVarL_total hr hne hv, fun y v p hy hp hv => ?_, fun y v p hy hp hv => ?_⟩
  · obtain ⟨s1, r, h1, -⟩ := LRA.setLbC_alive (E := E) (d := d) k.arithSI hL hr hy hp hv
    exact ⟨s1, r, h1⟩
  · obtain ⟨s1, r, h1, -⟩ := LRA.setUbC_alive (E := E) (d := d) k.arithSI hL hr hy hp hv
    exact ⟨s1, r, h1⟩

end arith

/-! ### Difference logic -/

section diff
variable {R : Type} [AddCommGroup R] [LinearOrder R] [IsOrderedAddMonoid R] [Dom R] (W : (Family.diff R).Has f)

theorem held_distances (h : f.Held S U d) : ∀ i j, i < (W.within.th S.th).nv → j < (W.within.th S.th).nv → ∀ α x, f.Model S U α x → α.all S.decisions →
    (((W.val x : Nat → R) j - (W.val x : Nat → R) i : R) : WithTop R) ≤ ((W.within.th S.th).distance i j).2 := by
  obtain ⟨Z, k⟩ := W.seen anyAsg S U h.si
  intro i j hi hj α x hm hd
  rw [← (W.within.sees S).th] at hi hj ⊢
  exact k.diffSI.bound (k.diffOld hm).1 (k.diffOld hm).2 (by rw [view_decisions]; exact hd) hi hj

theorem held_distance (h : f.Held S U d) {i j : Nat} {w : R} {s : Sat (DL R)} {p : Lit} (hi : i < (W.within.th S.th).nv) (hj : j < (W.within.th S.th).nv) (hn : DL.newDistance (W.within.view S) i j w = .ok (s, p)) :
    (∀ α x, f.Model (W.within.put S s) U α x → α.all S.decisions → (α.sat p ↔ (W.val x : Nat → R) j - (W.val x : Nat → R) i ≤ w)) ∧
    (∀ α x, f.Model (W.within.put S s) U α x → f.Model S U α x) ∧
    (∀ α x, f.Model S U α x → ∃ β, Asg.agree S.nvars α β ∧ f.Model (W.within.put S s) U β x) := by
  obtain ⟨Z, k⟩ := W.seen anyAsg S U h.si
  rw [← (W.within.sees S).th] at hi hj
  exact k.diffAdds (DL.newDistance_adds k.diffSI hi hj hn)

theorem held_diff (h : f.Held S U d) {Q : Type} (I : DL.Interp Q R) {O : DL.Rel} {l r : Lin} {s : Sat (DL R)} {p : Lit} (hlc : l.Canon) (hrc : r.Canon)
    (hlv : ∀ t ∈ l.vars, t.1 < (W.within.th S.th).nv) (hrv : ∀ t ∈ r.vars, t.1 < (W.within.th S.th).nv) (hb : ¬ DL.GtBug R O l r) (hn : DL.newRel E O (W.within.view S) l r = .ok (s, p)) :
    (∀ α x (z : Nat → Q), I.q (z 0) = 0 → (W.val x : Nat → R) = (fun i => I.emb (z i)) → f.Model (W.within.put S s) U α x → α.all S.decisions →
      (α.sat p ↔ O.holds (l.eval 1 (fun i => I.q (z i))) (r.eval 1 (fun i => I.q (z i))))) ∧
    (∀ α x, f.Model (W.within.put S s) U α x → f.Model S U α x) ∧
    (∀ α x, f.Model S U α x → ∃ β, Asg.agree S.nvars α β ∧ f.Model (W.within.put S s) U β x) := by
  obtain ⟨Z, k⟩ := W.seen anyAsg S U h.si
  rw [← (W.within.sees S).th] at hlv hrv
  obtain ⟨P, hS, hP⟩ := DL.newRel_shape I k.diffSI.nv_pos hlc hrc hlv hrv hb hn
  obtain ⟨a, b, c⟩ := k.diffAdds (hS.adds k.diffSI)
  exact ⟨fun α x z h0 e hm hd => (a α x hm hd).trans (by rw [e]; exact hP z h0), b, c⟩

end diff

/-! ### Object variables -/

section object
variable {A : Type} [DecidableEq A] {D : OEnv A} (W : (Family.object (E := E) D).Has f)

theorem held_values (h : f.Held S U d) : ∀ v, v < (W.within.th S.th).doms.length → ∀ α x, f.Model S U α x → α.all S.decisions → ∀ a ∈ (W.val x : Nat → List A) v, a ∈ OV.value S (W.within.th S.th) v := by
  obtain ⟨Z, k⟩ := W.seen anyAsg S U h.si
  intro v hv α x hm hd a ha
  obtain ⟨z, n⟩ := k.old α x trivial (by rw [duty_net]; exact hm.net)
  rw [← (W.within.sees S).th] at hv n
  have := (OV.duty E D).rpt k.si α (W.val x) hm.zero (by rw [(W.within.sees S).posted]; exact hm.posted) n z (by rw [view_decisions]; exact hd) v hv a ha
  have this : a ∈ OV.value (W.within.view S) (W.within.view S).th v := this
  rw [Comp.value_seen] at this
  exact this

/-- Values that satisfy the network of the theory for a given truth assignment. -/
theorem holds_mk {o : OV A} {n : Nat} {α : Asg} (h0 : α 0 = false) (hk : ∀ m ∈ o.doms, (m.map Prod.fst).Nodup) {y : Nat → List A} (hy : ∀ v, v < n → v < o.doms.length → (y v).Nodup ∧ ∀ a, a ∈ y v ↔ α.sat (o.allows v a)) :
    ∃ z, OV.Holds o α z ∧ ∀ v, v < n → z v = y v := by
  refine ⟨fun v => if v < n then y v else ((o.dom v).filter (fun p => decide (α.sat p.2))).map Prod.fst, fun v hv => ?_, fun v hv => if_pos hv⟩
  by_cases hn : v < n
  · simp only [if_pos hn]; exact hy v hn hv
  · simp only [if_neg hn]
    have hk := hk _ (OV.dom_mem hv)
    refine ⟨hk.sublist (List.filter_sublist.map _), fun a => ?_⟩
    rw [← OV.sel_iff h0]
    simp only [List.mem_map, List.mem_filter, decide_eq_true_eq]
    constructor
    · rintro ⟨p, ⟨hp, hq⟩, rfl⟩
      exact ⟨p.2, OV.mem_lookup hk hp, hq⟩
    · rintro ⟨l, hl, hs⟩
      exact ⟨(a, l), ⟨OV.lookup_some_mem hl, hs⟩, rfl⟩

/-- The old values, for an assignment that agrees on the old variables. -/
theorem holds_old {Z : Asg → Prop} (k : W.Seen anyAsg Z S U) {o : OV A} (kin : OV.Kin (W.within.view S).th o) {α β : Asg} (hab : Asg.agree S.nvars α β) {y : Nat → List A} (hy : OV.Holds (W.within.th S.th) α y) :
    ∀ v, v < (W.within.th S.th).doms.length → v < o.doms.length → (y v).Nodup ∧ ∀ a, a ∈ y v ↔ β.sat (o.allows v a) := by
  intro v hv _
  rw [← (W.within.sees S).th] at hy hv
  obtain ⟨a, b⟩ := (OV.duty E D).loc k.si α β y (by rw [(W.within.sees S).nvars]; exact hab) hy v hv
  exact ⟨a, fun c => by rw [kin.allows hv]; exact b c⟩

theorem single_of {l : List A} {a : A} (h1 : l.Nodup) (h2 : ∀ c, c ∈ l ↔ c = a) : l = [a] := by
  match l, h1, h2 with
  | [], _, h2 => exact absurd ((h2 a).2 rfl) (by simp)
  | [c], _, h2 => rw [(h2 c).1 (by simp)]
  | c :: e :: r, h1, h2 =>
    have e1 := (h2 c).1 (by simp)
    have e2 := (h2 e).1 (by simp)
    rw [e1, e2] at h1
    simp at h1

theorem held_object (h : f.Held S U d) {items : List A} {enf : Bool} {s : Sat (OV A)} {o : OV A} {n : Nat} (hn : OV.newVar E 0 (W.within.view S) (W.within.th S.th) items enf = .ok (s, o, n)) :
    (∀ α x, f.Model (W.within.put S { s with th := o }) U α x → (∀ a ∈ (W.val x : Nat → List A) n, a ∈ items) ∧ (enf = true → ∃ a ∈ items, (W.val x : Nat → List A) n = [a])) ∧
    (∀ α x, f.Model (W.within.put S { s with th := o }) U α x → f.Model S U α x) ∧
    (∀ α x, f.Model S U α x → ∀ a ∈ items, ∃ (β : Asg) (y : Nat → List A), Asg.agree S.nvars α β ∧ (∀ v, v < (W.within.th S.th).doms.length → y v = (W.val x : Nat → List A) v) ∧ a ∈ y n ∧
      f.Model (W.within.put S { s with th := o }) U β (W.setVal x y)) := by
  obtain ⟨Z, k⟩ := W.seen anyAsg S U h.si
  have hn' := hn
  rw [← (W.within.sees S).th] at hn'
  have M := OV.newVar_made k.objectSI.rinv hn'
  obtain ⟨m, hm, h1, h2, h3, h4, h5, -, h6, -, h7⟩ := M.dom
  have og : OV.OGrows ((OV.ovCon (W.within.view S).th).restrict Z) (W.within.view S) (W.within.view S).th s o := ⟨M.grows, by rw [hm]; exact List.prefix_append _ _, fun k' q hq => by rw [M.exprs]; exact hq⟩
  have hdom : o.dom n = m := by rw [M.x]; exact OV.dom_last m hm
  have hlt : n < o.doms.length := by rw [hm, M.x]; simp
  refine ⟨fun α x hx => ?_, fun α x hx => k.objectBack og hx, fun α x hx a ha => ?_⟩
  · obtain ⟨a, b⟩ := k.objectNew (t := (W.within.view S).th) hx
    obtain ⟨b1, b2⟩ := b n hlt
    have b3 : ∀ c, c ∈ (W.val x : Nat → List A) n ↔ OV.Sel α m c := fun c => by rw [← hdom, OV.sel_iff a.1]; exact b2 c
    refine ⟨fun c hc => ?_, fun he => ?_⟩
    · obtain ⟨l, hl, -⟩ := (b3 c).1 hc
      exact (h4 c).1 (List.mem_map.mpr ⟨_, OV.lookup_some_mem hl, rfl⟩)
    · obtain ⟨v, hv, hs, hu⟩ := OV.one_of_exactlyOne h2 h3 (h6 (.inl he) α a)
      exact ⟨v, (h4 v).1 hv, single_of b1 (fun c => (b3 c).trans ⟨hu c, fun e => e ▸ hs⟩)⟩
  · obtain ⟨o1, o2⟩ := k.objectOld hx
    obtain ⟨p, hp, e⟩ := List.mem_map.mp ((h4 a).mpr ha)
    obtain ⟨β, c1, c2, c3⟩ := h7 k.objectLocal α o1 p hp
    rw [(W.within.sees S).nvars] at c1
    obtain ⟨z, z1, z2⟩ := holds_mk (o := o) (n := (W.within.th S.th).doms.length) c2.1 (fun m' hm' => by
      rw [hm, List.mem_append, List.mem_singleton] at hm'
      rcases hm' with hm' | rfl
      · exact (k.objectSI.dom m' hm').key
      · exact h2) (holds_old W k ⟨og.doms, og.exprs⟩ c1 o2)
    refine ⟨β, z, c1, z2, ?_, k.objectPut (t := (W.within.view S).th) c1 hx c2 z1⟩
    rw [(z1 n hlt).2 a, ← OV.sel_iff c2.1, hdom, ← e]
    exact ⟨p.2, OV.mem_lookup h2 hp, c3⟩

theorem held_lits (h : f.Held S U d) {lits : List Lit} {vals : List A} {o : OV A} {n : Nat} (hv : ∀ l ∈ lits, l.var < S.nvars) (hnd : vals.Nodup) (hn : (W.within.th S.th).newVarLits lits vals = .ok (o, n)) :
    (∀ α x, f.Model (W.within.put S { W.within.view S with th := o }) U α x → (∀ a ∈ (W.val x : Nat → List A) n, a ∈ vals) ∧
      ∀ (k : Nat) (h1 : k < vals.length) (h2 : k < lits.length), vals[k] ∈ (W.val x : Nat → List A) n ↔ α.sat lits[k]) ∧
    (∀ α x, f.Model (W.within.put S { W.within.view S with th := o }) U α x → f.Model S U α x) ∧
    (∀ α x, f.Model S U α x → ∃ y : Nat → List A, (∀ v, v < (W.within.th S.th).doms.length → y v = (W.val x : Nat → List A) v) ∧ f.Model (W.within.put S { W.within.view S with th := o }) U α (W.setVal x y)) := by
  obtain ⟨Z, k⟩ := W.seen anyAsg S U h.si
  have hn' := hn
  rw [← (W.within.sees S).th] at hn'
  rw [← (W.within.sees S).nvars] at hv
  obtain ⟨hx, he, m, hm, hok, hit, hzip⟩ := OV.newVarLits_made hv hn'
  have og : OV.OGrows ((OV.ovCon (W.within.view S).th).restrict Z) (W.within.view S) (W.within.view S).th (W.within.view S) o :=
    ⟨Sat.Grows.refl _ _, by rw [hm]; exact List.prefix_append _ _, fun k' q hq => by rw [he]; exact hq⟩
  have hdom : o.dom n = m := by rw [hx]; exact OV.dom_last m hm
  have hlt : n < o.doms.length := by rw [hm, hx]; simp
  have hlen : lits.length = vals.length := by
    unfold OV.newVarLits at hn
    split at hn
    · cases hn
    · next h0 => rw [not_or, not_not] at h0; exact h0.2
  refine ⟨fun α x hx => ?_, fun α x hx => k.objectBack og hx, fun α x hx => ?_⟩
  · obtain ⟨a, b⟩ := k.objectNew (t := (W.within.view S).th) hx
    have b3 : ∀ c, c ∈ (W.val x : Nat → List A) n ↔ OV.Sel α m c := fun c => by rw [← hdom, OV.sel_iff a.1]; exact (b n hlt).2 c
    refine ⟨fun c hc => ?_, fun i h1 h2 => ?_⟩
    · obtain ⟨l, hl, -⟩ := (b3 c).1 hc
      exact (hit c).1 (List.mem_map.mpr ⟨_, OV.lookup_some_mem hl, rfl⟩)
    · rw [b3]
      obtain ⟨p, hp, e⟩ := List.mem_map.mp ((hit vals[i]).mpr (List.getElem_mem h1))
      obtain ⟨k', h1', h2', e1, e2⟩ := OV.zip_index hlen (hzip p hp)
      have : k' = i := (List.Nodup.getElem_inj_iff hnd).mp (e1.trans e)
      subst this
      unfold OV.Sel
      rw [← e, OV.mem_lookup hok.key hp, ← e2]
      simp
  · obtain ⟨o1, o2⟩ := k.objectOld hx
    obtain ⟨z, z1, z2⟩ := holds_mk (o := o) (n := (W.within.th S.th).doms.length) o1.1 (fun m' hm' => by
      rw [hm, List.mem_append, List.mem_singleton] at hm'
      rcases hm' with hm' | rfl
      · exact (k.objectSI.dom m' hm').key
      · exact hok.key) (holds_old W k ⟨og.doms, og.exprs⟩ (fun _ _ => rfl) o2)
    exact ⟨z, z2, k.objectPut (t := (W.within.view S).th) (fun _ _ => rfl) hx o1 z1⟩

theorem one_of {t : OV A} {α : Asg} {y : Nat → List A} (hy : OV.Holds t α y) {v : Nat} (hv : v < t.doms.length) {a : A} (e : y v = [a]) : OV.One t α v := by
  have hb : ∀ c, c = a ↔ α.sat (t.allows v c) := fun c => by
    have := (hy v hv).2 c
    rw [e, List.mem_singleton] at this
    exact this
  exact ⟨a, (hb a).1 rfl, fun c hc => (hb c).2 hc⟩

theorem held_object_eq (h : f.Held S U d) {v w : Nat} {s : Sat (OV A)} {o : OV A} {q : Lit} (hv : v < (W.within.th S.th).doms.length) (hw : w < (W.within.th S.th).doms.length)
    (hn : OV.newEq E D (W.within.view S) (W.within.th S.th) v w = .ok (s, o, q)) :
    (∀ α x, f.Model (W.within.put S { s with th := o }) U α x → (α.sat q → ∀ a, a ∈ (W.val x : Nat → List A) v ↔ a ∈ (W.val x : Nat → List A) w) ∧
      (¬ α.sat q → ∀ a, ¬ (a ∈ (W.val x : Nat → List A) v ∧ a ∈ (W.val x : Nat → List A) w))) ∧
    (∀ α x, f.Model (W.within.put S { s with th := o }) U α x → f.Model S U α x) ∧
    (∀ α x, f.Model S U α x → ∀ a b, (W.val x : Nat → List A) v = [a] → (W.val x : Nat → List A) w = [b] → ∃ β, Asg.agree S.nvars α β ∧ f.Model (W.within.put S { s with th := o }) U β x) := by
  obtain ⟨Z, k⟩ := W.seen anyAsg S U h.si
  rw [← (W.within.sees S).th] at hn hv hw
  obtain ⟨oi, og⟩ := OV.newEq_inv k.objectSI hn
  refine ⟨fun α x hx => ?_, fun α x hx => k.objectBack og hx, fun α x hx a b ha hb => ?_⟩
  · obtain ⟨a, b⟩ := k.objectNew (t := (W.within.view S).th) hx
    have m := OV.newEq_mean k.objectSI hn oi (OV.OGrows.refl _ _) a hv hw
    have b1 : ∀ c, c ∈ (W.val x : Nat → List A) v ↔ o.Selects α v c := (b v (hv.trans_le og.doms.length_le)).2
    have b2 : ∀ c, c ∈ (W.val x : Nat → List A) w ↔ o.Selects α w c := (b w (hw.trans_le og.doms.length_le)).2
    simp only [b1, b2]
    exact m
  · obtain ⟨o1, o2⟩ := k.objectOld hx
    rw [← (W.within.sees S).th] at o2
    obtain ⟨β, c1, c2⟩ := (OV.newEq_preserves k.objectSI hn).2 k.objectLocal α o1 (one_of o2 hv ha) (one_of o2 hw hb)
    rw [(W.within.sees S).nvars] at c1
    have hd : o.doms.length = (W.within.view S).th.doms.length := by
      rcases OV.newEq_ord hn with ⟨-, -, e, -⟩ | ⟨l, r, hlr, hr, -, ho⟩
      · rw [e]
      · rcases OV.newEqOrd_cases k.objectSI (hlr.trans hr) hr ho with ⟨-, e, -⟩ | e
        · rw [e]
        · rw [e.ov]
    have z : OV.Holds o β (W.val x : Nat → List A) := fun u hu =>
      holds_old W k ⟨og.doms, og.exprs⟩ c1 (by rw [← (W.within.sees S).th]; exact o2) u (by rw [← (W.within.sees S).th, ← hd]; exact hu) hu
    have := k.objectPut (t := (W.within.view S).th) c1 hx c2 z
    rw [W.setVal_val] at this
    exact ⟨β, c1, this⟩

theorem held_object_total (h : f.Held S U d) (hr : S.root = true) {α : Asg} {x : C.Val} (hm : f.Model S U α x) :
    (∀ (items : List A) enf, items ≠ [] → ∃ s o n, OV.newVar E 0 (W.within.view S) (W.within.th S.th) items enf = .ok (s, o, n)) ∧
    (∀ v w a b, v < (W.within.th S.th).doms.length → w < (W.within.th S.th).doms.length → (W.val x : Nat → List A) v = [a] → (W.val x : Nat → List A) w = [b] →
      ∃ s o q, OV.newEq E D (W.within.view S) (W.within.th S.th) v w = .ok (s, o, q)) := by
  obtain ⟨Z, k⟩ := W.seen anyAsg S U h.si
  obtain ⟨o1, o2⟩ := k.objectOld hm
  rw [← (W.within.sees S).root] at hr
  rw [← (W.within.sees S).th] at o2 ⊢
  exact ⟨fun items enf hne => OV.newVar_total k.objectSI.rinv hr hne k.objectLocal o1,
    fun v w a b hv hw ha hb => OV.newEq_total k.objectSI hr k.objectLocal hv hw o1 (one_of o2 hv ha) (one_of o2 hw hb)⟩

end object

end Family
end Semitone
