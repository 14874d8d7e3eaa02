import Verif.Lib.Props

/-!
# With any number of theories on the core every call returns and the search stops: C76
-/
namespace Semitone
namespace OV
variable {T A : Type} [DecidableEq A] {E : Env} {D : OEnv A}

theorem newVar_fuel (i : Nat) (s : Sat T) (o : OV A) (items : List A) (enf : Bool) : OV.newVar E i s o items enf ≠ .error .fuel := by
  unfold OV.newVar
  split
  · simp
  · simp
  · simp only
    split
    · split
      · next e he => intro h; injection h with h; subst h; exact Sat.newEXO_fuel _ _ he
      · split
        · next e he => intro h; injection h with h; subst h; exact Sat.newClause_fuel _ _ he
        · simp
        · simp
    · simp

theorem newEq_fuel (s : Sat T) (o : OV A) (x y : Nat) : OV.newEq E D s o x y ≠ .error .fuel := by
  have key : ∀ l r, newEqOrd E D s o l r ≠ .error .fuel := fun l r => by
    unfold newEqOrd
    split
    · simp
    · split
      · simp
      · simp only
        split
        · next e he => intro h; injection h with h; subst h; exact Sat.postAll_fuel _ _ he
        · simp
        · simp
  unfold OV.newEq
  split
  · simp
  · split
    · simp
    · split
      · exact key _ _
      · exact key _ _

theorem newVarLits_fuel (o : OV A) (lits : List Lit) (vals : List A) : o.newVarLits lits vals ≠ .error .fuel := by
  unfold OV.newVarLits
  split <;> simp

end OV

namespace Comp
open Lin
variable {T : Type} {E : Env} {L : LEnv} {C : Comp T} {S S' : Sat T} {U : C.Dat}

/-! ### C76: every call returns -/

/-- C76: in every session of a core with any theories, every legal call of the core returns: no loop runs forever. -/
theorem C76_returns (h : Play E C S U) {op : Sat.Op} (hl : S.Legal op) : S.step E C.ops op ≠ .error .fuel := Sat.step_fuel (h.faith.resolve_left (by rw [hl.1]; simp)).calm hl

/-- C76: so do the constructors of linear arithmetic, `set_lb` and `set_ub`. -/
theorem C76_arith_returns (W : Within (LRA.comp E L) C) (S : Sat T) :
    (∀ l, (W.th S.th).newVarL S.root l ≠ .error .fuel) ∧ (∀ R l r, LRA.newRel R (W.view S) l r ≠ .error .fuel) ∧ (∀ l r, LRA.newEqL E (W.view S) l r ≠ .error .fuel) ∧
    (∀ x v p, LRA.setLbC E L (W.view S) x v p ≠ .error .fuel) ∧ (∀ x v p, LRA.setUbC E L (W.view S) x v p ≠ .error .fuel) :=
  ⟨fun l => LRA.newVarL_fuel _ _ l, fun R l r => LRA.newRel_fuel R _ l r, fun l r => LRA.newEqL_fuel _ l r,
    fun _ _ _ => Sat.runAct_halts (LRA.assertLower_halts _ _ _ _ _), fun _ _ _ => Sat.runAct_halts (LRA.assertUpper_halts _ _ _ _ _)⟩

/-- C76: and those of difference logic. -/
theorem C76_diff_returns {R : Type} [AddCommGroup R] [LinearOrder R] [IsOrderedAddMonoid R] [Dom R] (W : Within (DL.comp (W := R) E) C) (S : Sat T) :
    (∀ i j w, DL.newDistance (W.view S) i j w ≠ .error .fuel) ∧ (∀ O l r, DL.newRel E O (W.view S) l r ≠ .error .fuel) :=
  ⟨fun i j w => DL.newDistance_fuel _ i j w, fun O l r => DL.newRel_fuel _ O l r⟩

/-- C76: and those of object variables. -/
theorem C76_object_returns {A : Type} [DecidableEq A] {D : OEnv A} (W : Within (OV.comp E D) C) (S : Sat T) :
    (∀ items enf, OV.newVar E 0 (W.view S) (W.th S.th) items enf ≠ .error .fuel) ∧ (∀ lits vals, (W.th S.th).newVarLits lits vals ≠ .error .fuel) ∧
    (∀ x y, OV.newEq E D (W.view S) (W.th S.th) x y ≠ .error .fuel) :=
  ⟨fun items enf => OV.newVar_fuel 0 _ _ items enf, fun lits vals => OV.newVarLits_fuel _ lits vals, fun x y => OV.newEq_fuel _ _ x y⟩

/-! ### C76: the search stops -/

variable {pick : Sat T → Option Lit} {k : Nat}

theorem Faith.solved (ff : Faith C U S) (hh : Sat.Heuristic pick) (hk : (S.nvars + 2) ^ (S.dl + S.nvars + 1) ≤ k) :
    Sat.solve E C.ops pick k S ≠ .error .fuel ∧
    ∀ S', Sat.solve E C.ops pick k S = .ok (S', true) →
      S'.Calm (C.firm U) ∧ C.Inv S' ∧ S'.propQ = [] ∧ (C.firm U).Done S'.th ∧ Onw C S S' ∧ S'.nvars = S.nvars ∧ ∀ v, v < S'.nvars → S'.assigns v ≠ none := by
  have hc := C.to_at ff.calm
  obtain ⟨a, b⟩ := Sat.solve_halts (E := E) _ hh hc hk
  refine ⟨a, fun S' hs => ?_⟩
  obtain ⟨b1, b2, b3, b4, b5, b6⟩ := b S' hs
  obtain ⟨c1, c2⟩ := C.of_at b1
  have o : Sat.Onw S S' := by
    refine ⟨by rw [b5], fun D hD => by rw [b4]; exact hD, fun q hq => ?_⟩
    have h' : S.Calm ((C.firm U).root q) := ⟨⟨ff.calm.tw, ⟨ff.calm.li, hq⟩, ff.calm.lk⟩, ff.calm.qr⟩
    exact ((Sat.solve_halts (E := E) _ hh h' hk).2 S' hs).1.li.2
  exact ⟨c1, C.inv_onw ff.inv o c2, b2, C.done_at b3, ⟨o, C.ext_reg c2⟩, b5, b6⟩

theorem Play.solved (h : Play E C S U) (hd : S.dead = false) (hh : Sat.Heuristic pick) (hk : (S.nvars + 2) ^ (S.dl + S.nvars + 1) ≤ k) :
    Sat.solve E C.ops pick k S ≠ .error .fuel ∧
    ∀ S', Sat.solve E C.ops pick k S = .ok (S', true) →
      S'.Calm (C.firm U) ∧ C.Inv S' ∧ S'.propQ = [] ∧ (C.firm U).Done S'.th ∧ Onw C S S' ∧ S'.nvars = S.nvars ∧ ∀ v, v < S'.nvars → S'.assigns v ≠ none :=
  (h.faith.resolve_left (by rw [hd]; simp)).solved hh hk

/-- C76: in every session of a core with any theories, whatever the heuristic, the client that decides until all variables are assigned stops within the given number of decisions; if it answers true, every variable is assigned,
every posted clause is satisfied and everything that was true at root level still is. -/
theorem C76_stops (h : Play E C S U) (hd : S.dead = false) (hh : Sat.Heuristic pick) (hk : (S.nvars + 2) ^ (S.dl + S.nvars + 1) ≤ k) :
    Sat.solve E C.ops pick k S ≠ .error .fuel ∧
    ∀ S', Sat.solve E C.ops pick k S = .ok (S', true) →
      (∀ v, v < S.nvars → S'.assigns v ≠ none) ∧ (∀ D ∈ S.posted, Asg.clause (fun v => S'.assigns v = some true) D) ∧ ∀ q, S.value q = some true → S.root = true → S'.value q = some true := by
  obtain ⟨a, b⟩ := h.solved hd hh hk
  refine ⟨a, fun S' hs => ?_⟩
  obtain ⟨b1, -, b3, -, b5, b6, b7⟩ := b S' hs
  have ff := h.faith.resolve_left (by rw [hd]; simp)
  refine ⟨fun v hv => b7 v (by rw [b6]; exact hv), fun D hD => b1.sat b3 b7 D (b5.post D hD), fun q hq hr => ?_⟩
  exact (b5.lit q (Sat.tru_zero ff.calm.tw hr hq)).1

/-- C76: each theory of linear arithmetic then reports a solution of the network that was given to it. -/
theorem C76_arith_solution (W : Within (LRA.comp E L) C) (h : Play E C S U) (hd : S.dead = false) (hh : Sat.Heuristic pick) (hk : (S.nvars + 2) ^ (S.dl + S.nvars + 1) ≤ k)
    (hs : Sat.solve E C.ops pick k S = .ok (S', true)) :
    ∃ δ0 : ℚ, 0 < δ0 ∧ ∀ δ, 0 < δ → δ ≤ δ0 → LRA.Model (W.view S) (W.dat U) (fun v => S'.assigns v = some true) (LRA.withEps δ (W.th S'.th).vals) := by
  obtain ⟨b1, b2, b3, b4, b5, b6, b7⟩ := (h.solved hd hh hk).2 S' hs
  have ff := h.faith.resolve_left (by rw [hd]; simp)
  have c := W.calm b1
  obtain ⟨δ0, h0, f⟩ := LRA.calm_model c ((W.sees S').propQ.trans b3) (by rw [(W.sees S').th]; exact W.done b4) (by rw [(W.sees S').nvars, (W.sees S').assigns]; exact b7)
  refine ⟨δ0, h0, fun δ h1 h2 => ?_⟩
  have m := f δ h1 h2
  rw [(W.sees S').th, (W.sees S').assigns] at m
  have e : LRA.Kin (W.th S.th) (W.th S'.th) := W.ext b5.ext
  refine ⟨m.zero, fun D hD => m.posted D ?_, fun b a hb => m.lits b a ?_, fun d hd => m.defs d ?_, m.user, trivial⟩
  · rw [(W.sees S).posted] at hD
    rw [(W.sees S').posted]
    exact b5.post D hD
  · rw [(W.sees S).th] at hb
    rw [(W.sees S').th]
    exact e.vas b a hb
  · rw [(W.sees S).th] at hd
    rw [(W.sees S').th]
    exact e.defs d hd

/-- C76: for each theory of difference logic any positions that satisfy the decided literals (there are some) are a solution of the network that was given to it. -/
theorem C76_diff_solution {R : Type} [AddCommGroup R] [LinearOrder R] [IsOrderedAddMonoid R] [Dom R] (W : Within (DL.comp (W := R) E) C) (h : Play E C S U) (hd : S.dead = false) (hh : Sat.Heuristic pick)
    (hk : (S.nvars + 2) ^ (S.dl + S.nvars + 1) ≤ k) (hs : Sat.solve E C.ops pick k S = .ok (S', true)) :
    (∃ X, DL.Fits (W.view S') X) ∧ ∀ X, DL.Fits (W.view S') X → DL.Model (W.view S) (fun v => S'.assigns v = some true) X := by
  obtain ⟨b1, b2, b3, b4, b5, b6, b7⟩ := (h.solved hd hh hk).2 S' hs
  have c := W.calm b1
  have hq := (W.sees S').propQ.trans b3
  refine ⟨(DL.positions c hq).1, fun X hX => ?_⟩
  have m := DL.solution c hq (by rw [(W.sees S').nvars, (W.sees S').assigns]; exact b7) hX
  rw [(W.sees S').assigns] at m
  have e : ∀ v dd, (W.th S.th).vd v = some dd → (W.th S'.th).vd v = some dd := W.ext b5.ext
  refine ⟨m.1, fun D hD => m.2.1 D ?_, fun v dd hv => m.2.2 v dd ?_⟩
  · rw [(W.sees S).posted] at hD
    rw [(W.sees S').posted]
    exact b5.post D hD
  · rw [(W.sees S).th] at hv
    rw [(W.sees S').th]
    exact e v dd hv

/-- C76: for each theory of object variables `value` then lists, once each, exactly the values whose `allows` literal is true. -/
theorem C76_object_solution {A : Type} [DecidableEq A] {D : OEnv A} (W : Within (OV.comp E D) C) (h : Play E C S U) (hd : S.dead = false) (hh : Sat.Heuristic pick)
    (hk : (S.nvars + 2) ^ (S.dl + S.nvars + 1) ≤ k) (hs : Sat.solve E C.ops pick k S = .ok (S', true)) {x : Nat} (hx : x < (W.th S.th).doms.length) :
    (OV.value S' (W.th S'.th) x).Nodup ∧ ∀ a, a ∈ OV.value S' (W.th S'.th) x ↔ Asg.sat (fun v => S'.assigns v = some true) ((W.th S.th).allows x a) := by
  obtain ⟨b1, b2, b3, b4, b5, b6, b7⟩ := (h.solved hd hh hk).2 S' hs
  have c := OV.holds_final (W.calm b1) (by rw [(W.sees S').nvars, (W.sees S').assigns]; exact b7)
  rw [value_seen, (W.sees S').th, (W.sees S').assigns] at c
  exact (OV.comp E D).holds_ext (W.ext b5.ext) c x hx

end Comp
end Semitone
