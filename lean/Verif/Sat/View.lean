import Verif.Sat.Prod

/-!
# One theory's view of the core

A theory attached to a core with other theories sees the core and its own state; the other theories are invisible to it.
-/
namespace Semitone
namespace Sat
variable {T T' T1 T2 : Type}

/-- The same core with other theories. -/
def retheory (s : Sat T) (t : T') (b : Nat → List Nat) : Sat T' :=
  { nvars := s.nvars, ncls := s.ncls, db := s.db, constrs := s.constrs, watches := s.watches, assigns := s.assigns, propQ := s.propQ, trail := s.trail, trailLim := s.trailLim,
    decisions := s.decisions, reason := s.reason, level := s.level, exprs := s.exprs, bounds := b, listening := s.listening, notes := s.notes, th := t, posted := s.posted, dead := s.dead }

/-- What the theory of the first family sees. -/
def left (m : Nat) (S : Sat (T1 × T2)) : Sat T1 := S.retheory S.th.1 (bl m S.bounds)

/-- What the theory of the second family sees. -/
def right (m : Nat) (S : Sat (T1 × T2)) : Sat T2 := S.retheory S.th.2 (br m S.bounds)

/-- The state after the theory of the first family has acted on its view. -/
def putL (m : Nat) (S : Sat (T1 × T2)) (s : Sat T1) : Sat (T1 × T2) := s.retheory (s.th, S.th.2) (bj m s.bounds (br m S.bounds))

/-- The state after the theory of the second family has acted on its view. -/
def putR (m : Nat) (S : Sat (T1 × T2)) (s : Sat T2) : Sat (T1 × T2) := s.retheory (S.th.1, s.th) (bj m (bl m S.bounds) s.bounds)

theorem WF.retheory {s : Sat T} {ex} (h : s.WF ex) (t : T') (b : Nat → List Nat) : (s.retheory t b).WF ex :=
  ⟨h.nv, h.fv, h.fvt, h.rng, h.tval, h.tnd, h.off, h.rsn, h.trs, h.tlv, h.tdc, h.lims, h.limle, h.dec, h.que, h.cnd, h.clt, h.cln, h.crng, h.cnc, h.wat⟩

theorem Fix.retheory {s : Sat T} (h : s.Fix s.okQ) (t : T') (b : Nat → List Nat) : (s.retheory t b).Fix (s.retheory t b).okQ := ⟨h.nd, h.fx⟩

/-- What holds of a state of the core holds with other theories, if they restrict the solutions at least as much. -/
theorem RInv.retheory {O : TheoryOps T} {O' : TheoryOps T'} {C : Contract O} {C' : Contract O'} {s : Sat T} {t : T'} (b : Nat → List Nat) (h : s.RInv C) (h1 : ∀ α, C'.Th t α → C.Th s.th α)
    (h2 : C'.TI t s.dl s.tru) : (s.retheory t b).RInv C' := by
  have hsol : ∀ α, (s.retheory t b).Sol C'.Th α → s.Sol C.Th α := fun α hα => ⟨hα.1, hα.2.1, h1 α hα.2.2⟩
  refine ⟨⟨h.inv.wf.retheory t b, ⟨?_, ?_⟩, h2, h.inv.qr, h.inv.prng, ?_⟩, ?_, ?_⟩
  · intro c hc α hα; exact h.inv.sem.cls c hc α (hsol α hα)
  · intro q hq α hα hd; exact h.inv.sem.val q hq α (hsol α hα) hd
  · intro k ls r hm
    obtain ⟨x, y, z⟩ := h.inv.cache k ls r hm
    exact ⟨x, y, fun α hα => z α (hsol α hα)⟩
  · intro hx α hα; exact h.dead hx α (hsol α hα)
  · exact h.link

variable {m : Nat} {O1 : TheoryOps T1} {O2 : TheoryOps T2} {C1 : Contract O1} {C2 : Contract O2} {S : Sat (T1 × T2)}

theorem RInv.left (h : S.RInv (Contract.prod m C1 C2)) : (S.left m).RInv (C1.restrict (C2.Th S.th.2)) := h.retheory _ (fun _ hα => hα) h.inv.ti.1

theorem RInv.right (h : S.RInv (Contract.prod m C1 C2)) : (S.right m).RInv (C2.restrict (C1.Th S.th.1)) := h.retheory _ (fun _ hα => ⟨hα.2, hα.1⟩) h.inv.ti.2

/-- Nothing retracted on the view: the other theory's invariant is kept. -/
theorem TI.mild {O : TheoryOps T} {C : Contract O} {t : T} {s s' : Sat T'} (h : C.TI t s.dl s.tru) (hm : s.Mild s') : C.TI t s'.dl s'.tru := by
  rw [hm.dl]
  exact C.mono _ _ _ _ h (fun i _ q hq => hm.up i q hq)

theorem RInv.putL {s : Sat T1} {C1' : Contract O1} (h : S.RInv (Contract.prod m C1 C2)) (hs : s.RInv (C1'.restrict (C2.Th S.th.2))) (hm : (S.left m).Mild s) :
    (S.putL m s).RInv (Contract.prod m C1' C2) := hs.retheory _ (fun _ hα => hα) ⟨hs.inv.ti, TI.mild (s := S.left m) h.inv.ti.2 hm⟩

theorem RInv.putR {s : Sat T2} {C2' : Contract O2} (h : S.RInv (Contract.prod m C1 C2)) (hs : s.RInv (C2'.restrict (C1.Th S.th.1))) (hm : (S.right m).Mild s) :
    (S.putR m s).RInv (Contract.prod m C1 C2') := hs.retheory _ (fun _ hα => ⟨hα.2, hα.1⟩) ⟨TI.mild (s := S.right m) h.inv.ti.1 hm, hs.inv.ti⟩

/-! ### Liveness of the views -/

variable {V1 : Live C1} {V2 : Live C2} {hi : ∀ i ∈ O1.ids, i < m} {hj : Joins C1 C2}

/-- Each variable is listened to by one family at most. -/
def Apart (m : Nat) (S : Sat (T1 × T2)) : Prop := ∀ v, bl m S.bounds v = [] ∨ br m S.bounds v = []

theorem LiveD.left {d : Bool} (h : S.LiveD (V1.prod m V2 hi hj) d) : (S.left m).LiveD V1 d := by
  refine ⟨⟨h.live.fix.retheory _ _, h.live.li.1, fun i hi => ?_⟩, fun x y => ?_⟩
  · obtain ⟨α, a, b⟩ := h.live.cons i hi
    exact ⟨α, a.1, b⟩
  · obtain ⟨α, a, b⟩ := h.con x y
    exact ⟨α, a.1, b⟩

theorem LiveD.right {d : Bool} (h : S.LiveD (V1.prod m V2 hi hj) d) : (S.right m).LiveD V2 d := by
  refine ⟨⟨h.live.fix.retheory _ _, h.live.li.2.1, fun i hi => ?_⟩, fun x y => ?_⟩
  · obtain ⟨α, a, b⟩ := h.live.cons i hi
    exact ⟨α, a.2, b⟩
  · obtain ⟨α, a, b⟩ := h.con x y
    exact ⟨α, a.2, b⟩

theorem LiveD.apart {d : Bool} (h : S.LiveD (V1.prod m V2 hi hj) d) : S.Apart m := h.live.li.2.2.1

theorem LiveD.join {d : Bool} (hT : C1.TI S.th.1 S.dl S.tru ∧ C2.TI S.th.2 S.dl S.tru) (h1 : (S.left m).LiveD V1 d) (h2 : (S.right m).LiveD V2 d) (ha : S.Apart m) :
    S.LiveD (V1.prod m V2 hi hj) d := by
  refine ⟨⟨h1.live.fix.retheory S.th S.bounds, ⟨h1.live.li, h2.live.li, ha, fun i j q hij _ hq => ⟨hq.1, hq.2.trans hij⟩⟩, fun i hi => ?_⟩, fun x y => ?_⟩
  · obtain ⟨α1, a, b⟩ := h1.live.cons i hi
    obtain ⟨α2, c, e⟩ := h2.live.cons i hi
    obtain ⟨α, w1, w2, w3⟩ := hj _ _ _ _ (S.tru i) hT.1 hT.2 (fun q hq => ⟨hq.1, hq.2.trans (Nat.zero_le _)⟩) α1 α2 a c b e
    exact ⟨α, ⟨w1, w2⟩, w3⟩
  · obtain ⟨α1, a, b⟩ := h1.con x y
    obtain ⟨α2, c, e⟩ := h2.con x y
    obtain ⟨α, w1, w2, w3⟩ := hj _ _ _ _ (S.tru S.dl) hT.1 hT.2 (fun q hq => ⟨hq.1, hq.2.trans (Nat.zero_le _)⟩) α1 α2 a c b e
    exact ⟨α, ⟨w1, w2⟩, w3⟩

/-- Nothing retracted: a theory that was not involved is still alive. -/
theorem LiveD.mild {O : TheoryOps T} {C : Contract O} {V : Live C} {s : Sat T} {s' : Sat T'} {d : Bool} (h : s.LiveD V d) (hf : s'.Fix s'.okQ) (hm : (s.retheory s'.th s.bounds).Mild s') :
    (s'.retheory s.th s.bounds).LiveD V d := by
  have hp : s'.propQ = [] → s.propQ = [] := fun e => by
    cases hx : s.propQ with
    | nil => rfl
    | cons p q =>
      have := hm.pen p (by show p ∈ s.propQ; rw [hx]; simp)
      rw [e] at this; cases this
  refine ⟨⟨hf.retheory _ _, ?_, fun i hi => ?_⟩, fun x y => ?_⟩
  · show V.LI s.th s'.nvars s.bounds s'.dl s'.tru (fun q => q ∈ s'.propQ)
    have : s'.dl = s.dl := hm.dl
    rw [this]
    exact V.adv h.live.li hm.nv (fun i q _ hq => hm.up i q hq) (fun i q hi hq => hm.low i q hi hq) (fun q hq => hm.new q hq) hm.pen
  · have hd : s'.dl = s.dl := hm.dl
    have hi : i < s.dl := by rw [← hd]; exact hi
    obtain ⟨α, a, b⟩ := h.live.cons i hi
    exact ⟨α, a, fun q hq => b q (hm.low i q hi hq)⟩
  · obtain ⟨α, a, b⟩ := h.con x (hp y)
    refine ⟨α, a, fun q hq => b q ?_⟩
    have hd : s'.dl = s.dl := hm.dl
    have hq : s'.tru s'.dl q := hq
    rw [hd] at hq
    rcases hm.new q hq with h | h
    · exact h
    · have y : s'.propQ = [] := y
      rw [y] at h; cases h

end Sat
end Semitone
