import Verif.Lib.Halt

/-!
# Any number of theories on one core: what each theory owes to the core

A `Duty` says, of a theory (or a family of theories) with its clients (`Comp`), what it guarantees to the core: its lemmas follow from its network, it never makes the core fail, and its literals can be
given values independently of those of the other theories. The duties of two families make the duty of the two together (`Duty.prod`).
-/
namespace Semitone

/-- Excluding propagations of both families. -/
theorem Guards.both {T1 T2 : Type} {m : Nat} {O1 O1' : TheoryOps T1} {O2 O2' : TheoryOps T2} {e0 : Err} (h1 : Guards O1 O1' e0) (h : Guards O2 O2' e0) : Guards (O1.prod m O2) (O1'.prod m O2') e0 := by
  refine ⟨?_, ?_, ?_, ?_, fun i t v p => ?_⟩
  · simp only [TheoryOps.prod, h.ids, h1.ids]
  · simp only [TheoryOps.prod, h.check, h1.check]
  · simp only [TheoryOps.prod, h.push, h1.push]
  · simp only [TheoryOps.prod, h.pop, h1.pop]
  · simp only [TheoryOps.prod]
    split
    · rcases h1.prop i t.1 v p with e | e
      · left; rw [e]; rfl
      · right; rw [e]
    · rcases h.prop (i - m) t.2 v p with e | e
      · left; rw [e]; rfl
      · right; rw [e]

namespace Sat
variable {T T' : Type}

/-- As `RInv.retheory`, when the other theories restrict the solutions of the posted clauses at least as much. -/
theorem RInv.retheoryP {O : TheoryOps T} {O' : TheoryOps T'} {C : Contract O} {C' : Contract O'} {s : Sat T} {t : T'} (b : Nat → List Nat) (h : s.RInv C)
    (h1 : ∀ α, α 0 = false → (∀ D ∈ s.posted, α.clause D) → C'.Th t α → C.Th s.th α) (h2 : C'.TI t s.dl s.tru) : (s.retheory t b).RInv C' := by
  have hsol : ∀ α, (s.retheory t b).Sol C'.Th α → s.Sol C.Th α := fun α hα => ⟨hα.1, hα.2.1, h1 α hα.1 hα.2.1 hα.2.2⟩
  refine ⟨⟨h.inv.wf.retheory t b, ⟨?_, ?_⟩, h2, h.inv.qr, h.inv.prng, ?_⟩, ?_, ?_⟩
  · intro c hc α hα; exact h.inv.sem.cls c hc α (hsol α hα)
  · intro q hq α hα hd; exact h.inv.sem.val q hq α (hsol α hα) hd
  · intro k ls r hm
    obtain ⟨x, y, z⟩ := h.inv.cache k ls r hm
    exact ⟨x, y, fun α hα => z α (hsol α hα)⟩
  · intro hx α hα; exact h.dead hx α (hsol α hα)
  · exact h.link

theorem LiveD.weak {O : TheoryOps T} {C : Contract O} {V : Live C} {s : Sat T} {d : Bool} (h : s.LiveD V d) : s.LiveD V true := ⟨h.live, fun e => by cases e⟩

end Sat

/-- What a theory, or a family of theories, owes to the core. -/
structure Duty {T : Type} (C : Comp T) where
  /-- The theory, with the propagations it cannot answer for turned into the failure `excluded`. -/
  sops : TheoryOps T
  guards : Guards sops C.ops .excluded
  /-- What the calls of the core do not change. -/
  Sg : Type
  sg : T → Sg
  con : Sg → Contract sops
  /-- The truth assignments that the theory allows. -/
  Th : T → Asg → Prop
  con_th : ∀ g t α, (con g).Th t α ↔ Th t α
  ti_sg : ∀ {g t n A}, (con g).TI t n A → sg t = g
  th_sg : ∀ {t t' α}, sg t' = sg t → Th t' α → Th t α
  /-- The variables of the literals of the theory. -/
  own : Sg → Nat → Prop
  mix : ∀ {g t n A α α'} {B : Lit → Prop}, (con g).TI t n A → (∀ q, A 0 q → B q) → Th t α → (∀ q, B q → α.sat q) → (∀ q, B q → α'.sat q) → (∀ v, own g v → α' v = α v) →
    (α' 0 = true → α 0 = true) → Th t α'
  Ok : Sg → Prop
  live : ∀ g, Ok g → Live (con g)
  exc : ∀ {g h e}, (live g h).F e → e = .excluded
  /-- The network of the theory: `x` are values that satisfy it when the truth assignment is `α`. -/
  Net : T → C.Dat → Asg → C.Val → Prop
  net_sg : ∀ {t t' U α x}, sg t' = sg t → Net t' U α x → Net t U α x
  /-- What holds in the sessions; `Z`: the truth assignments that the other theories allow. -/
  SI : (Asg → Prop) → Sat T → C.Dat → Prop
  rinv : ∀ {Z s U}, SI Z s U → s.RInv ((con (sg s.th)).restrict Z)
  zloc : ∀ {Z s U}, SI Z s U → ∀ α β : Asg, Asg.agree s.nvars α β → Z α → Z β
  loc : ∀ {Z s U}, SI Z s U → ∀ (α β : Asg) x, Asg.agree s.nvars α β → Net s.th U α x → Net s.th U β x
  rng : ∀ {Z s U}, SI Z s U → ∀ v, own (sg s.th) v → 0 < v ∧ v < s.nvars
  ok : ∀ {Z s U}, SI Z s U → Ok (sg s.th)
  th_of : ∀ {Z s U}, SI Z s U → ∀ α x, α 0 = false → (∀ D ∈ s.posted, α.clause D) → Net s.th U α x → Z α → Th s.th α
  nt_of : ∀ {Z s U}, SI Z s U → ∀ α, α 0 = false → Th s.th α → ∃ x, Net s.th U α x
  net_of : ∀ {Z s U}, SI Z s U → ∀ α x, C.Holds s.th α x → Net s.th U α x
  move : ∀ {Z Z' : Asg → Prop} {s s' : Sat T} {U}, SI Z s U → sg s'.th = sg s.th → s'.RInv ((con (sg s'.th)).restrict Z') → s.nvars ≤ s'.nvars → (∀ α β : Asg, Asg.agree s'.nvars α β → Z' α → Z' β) →
    (∀ α, α 0 = false → (∀ D ∈ s'.posted, α.clause D) → Z' α → (∃ x, Net s'.th U α x) → (∀ D ∈ s.posted, α.clause D) ∧ Z α) → SI Z' s' U
  start : ∀ {t}, C.Start t → SI anyAsg (Sat.init t) C.d0
  live0 : ∀ {t}, C.Start t → ∀ h, (Sat.init t).LiveD (live (sg t) h) false
  call : ∀ {Z s U s' U' d}, SI Z s U → Comp.Faith C U s → s.dead = false → (∃ h, s.LiveD (live (sg s.th) h) d) → C.Call s U s' U' →
    SI Z s' U' ∧ (∀ α x, α 0 = false → (∀ D ∈ s'.posted, α.clause D) → Z α → Net s'.th U' α x → Net s.th U α x ∧ ∀ D ∈ s.posted, α.clause D) ∧ s.Mild s' ∧
    (∀ v, own (sg s'.th) v → own (sg s.th) v ∨ s.nvars ≤ v) ∧ (s'.dead = true ∨ (∃ h, s'.LiveD (live (sg s'.th) h) true) ∧ (U' = U → ∃ h, s'.LiveD (live (sg s'.th) h) d))
  /-- What the theory reports holds of the values. -/
  Rpt : Sat T → C.Val → Prop
  rpt : ∀ {Z s U}, SI Z s U → ∀ α x, α 0 = false → (∀ D ∈ s.posted, α.clause D) → Net s.th U α x → Z α → α.all s.decisions → Rpt s x
  /-- What the theory in state `t`, told that the literals `B` are true, reports of the values. -/
  Tell : T → (Lit → Prop) → C.Val → Prop
  tell : ∀ {Z s U t n A}, SI Z s U → (con (sg s.th)).TI t n A → ∀ α x, α 0 = false → (∀ D ∈ s.posted, α.clause D) → Net t U α x → Z α → (∀ q, A n q → α.sat q) → Tell t (A n) x

namespace Duty
variable {T T1 T2 : Type} {C : Comp T} {C1 : Comp T1} {C2 : Comp T2}

/-- The core cannot fail. -/
def Alive (D : Duty C) (s : Sat T) (d : Bool) : Prop := ∃ h, s.LiveD (D.live (D.sg s.th) h) d

/-- The values of `x` satisfy the network for some values. -/
def Nt (D : Duty C) (t : T) (U : C.Dat) (α : Asg) : Prop := ∃ x, D.Net t U α x

section prod
variable (D1 : Duty C1) (D2 : Duty C2)

/-- The two families speak about different variables. -/
structure OkP (g : D1.Sg × D2.Sg) : Prop where
  ok1 : D1.Ok g.1
  ok2 : D2.Ok g.2
  dis : ∀ v, D1.own g.1 v → ¬ D2.own g.2 v
  z1 : ¬ D1.own g.1 0
  z2 : ¬ D2.own g.2 0

theorem OkP.joins {D1 : Duty C1} {D2 : Duty C2} {g : D1.Sg × D2.Sg} (h : OkP D1 D2 g) : Joins (D1.con g.1) (D2.con g.2) := by
  classical
  intro t1 t2 n A B h1 h2 h0 α1 α2 k1 k2 g1 g2
  have k1 := (D1.con_th _ _ _).mp k1
  have k2 := (D2.con_th _ _ _).mp k2
  let α : Asg := fun v => if v = 0 then α1 0 && α2 0 else if D2.own g.2 v then α2 v else α1 v
  have a0 : α 0 = (α1 0 && α2 0) := if_pos rfl
  have a2 : ∀ v, D2.own g.2 v → α v = α2 v := fun v hv => by
    have : v ≠ 0 := fun e => h.z2 (e ▸ hv)
    simp only [α, if_neg this, if_pos hv]
  have a1 : ∀ v, v ≠ 0 → ¬ D2.own g.2 v → α v = α1 v := fun v hv hn => by simp only [α, if_neg hv, if_neg hn]
  have hB : ∀ q, B q → α.sat q := fun q hq => by
    have x1 := g1 q hq
    have x2 := g2 q hq
    unfold Asg.sat at x1 x2 ⊢
    by_cases e : q.var = 0
    · rw [e] at x1 x2 ⊢
      rw [a0, x1, x2]
      cases q.sign <;> rfl
    · by_cases e2 : D2.own g.2 q.var
      · rw [a2 _ e2]; exact x2
      · rw [a1 _ e e2]; exact x1
  refine ⟨α, (D1.con_th _ _ _).mpr (D1.mix h1 h0 k1 g1 hB (fun v hv => a1 v (fun e => h.z1 (e ▸ hv)) (h.dis v hv)) (fun e => ?_)),
    (D2.con_th _ _ _).mpr (D2.mix h2 h0 k2 g2 hB a2 (fun e => ?_)), hB⟩
  · rw [a0] at e; exact (Bool.and_eq_true_iff.mp e).1
  · rw [a0] at e; exact (Bool.and_eq_true_iff.mp e).2

/-- What holds in the sessions of the two families: each is right about the truth assignments that the other one allows. -/
structure SIP (Z : Asg → Prop) (S : Sat (T1 × T2)) (U : C1.Dat × C2.Dat) : Prop where
  l : D1.SI (fun α => Z α ∧ D2.Nt S.th.2 U.2 α) (S.left C1.m) U.1
  r : D2.SI (fun α => Z α ∧ D1.Nt S.th.1 U.1 α) (S.right C1.m) U.2
  dis : ∀ v, D1.own (D1.sg S.th.1) v → ¬ D2.own (D2.sg S.th.2) v
  zloc : ∀ α β : Asg, Asg.agree S.nvars α β → Z α → Z β

variable {D1 D2}
variable {Z Z' : Asg → Prop} {S S' : Sat (T1 × T2)} {U : C1.Dat × C2.Dat}

theorem ids_lt (D : Duty C) : ∀ i ∈ D.sops.ids, i < C.m := by rw [D.guards.ids]; exact C.ids

theorem SIP.ok (h : SIP D1 D2 Z S U) : OkP D1 D2 (D1.sg S.th.1, D2.sg S.th.2) :=
  ⟨D1.ok h.l, D2.ok h.r, h.dis, fun hv => absurd (D1.rng h.l 0 hv).1 (Nat.lt_irrefl _), fun hv => absurd (D2.rng h.r 0 hv).1 (Nat.lt_irrefl _)⟩

/-- The contract of the two families. -/
abbrev conP (D1 : Duty C1) (D2 : Duty C2) (g : D1.Sg × D2.Sg) : Contract (D1.sops.prod C1.m D2.sops) := Contract.prod C1.m (D1.con g.1) (D2.con g.2)

/-- Their liveness. -/
abbrev liveP (D1 : Duty C1) (D2 : Duty C2) (g : D1.Sg × D2.Sg) (h : OkP D1 D2 g) : Live (conP D1 D2 g) := (D1.live g.1 h.ok1).prod C1.m (D2.live g.2 h.ok2) (ids_lt D1) h.joins

/-- The network determines the assignments allowed. -/
theorem SIP.th (h : SIP D1 D2 Z S U) {α : Asg} (h0 : α 0 = false) (hp : ∀ D ∈ S.posted, α.clause D) (hz : Z α) (n1 : D1.Nt S.th.1 U.1 α) (n2 : D2.Nt S.th.2 U.2 α) :
    D1.Th S.th.1 α ∧ D2.Th S.th.2 α := by
  obtain ⟨x1, y1⟩ := n1
  obtain ⟨x2, y2⟩ := n2
  exact ⟨D1.th_of h.l α x1 h0 hp y1 ⟨hz, x2, y2⟩, D2.th_of h.r α x2 h0 hp y2 ⟨hz, x1, y1⟩⟩

theorem SIP.rinv (h : SIP D1 D2 Z S U) : S.RInv ((conP D1 D2 (D1.sg S.th.1, D2.sg S.th.2)).restrict Z) := by
  refine (D1.rinv h.l).retheoryP (C' := (conP D1 D2 (D1.sg S.th.1, D2.sg S.th.2)).restrict Z) (t := S.th) S.bounds (fun α h0 _ ⟨⟨k1, k2⟩, hz⟩ => ⟨k1, hz, ?_⟩)
    ⟨(D1.rinv h.l).inv.ti, (D2.rinv h.r).inv.ti⟩
  exact D2.nt_of h.r α h0 ((D2.con_th _ _ _).mp k2)

/-- Values of the network of one family for assignments that agree on the variables of the core. -/
theorem loc_at (D : Duty C) {Z : Asg → Prop} {s : Sat T} {U} (h : D.SI Z s U) {t : T} (e : D.sg t = D.sg s.th) {n : Nat} (hn : s.nvars ≤ n) {α β : Asg} (hab : Asg.agree n α β) (hx : D.Nt t U α) : D.Nt t U β := by
  obtain ⟨x, hx⟩ := hx
  exact ⟨x, D.net_sg e.symm (D.loc h α β x (fun v hv => hab v (hv.trans_le hn)) (D.net_sg e hx))⟩

theorem nt_sg (D : Duty C) {t t' : T} {U α} (e : D.sg t' = D.sg t) (h : D.Nt t' U α) : D.Nt t U α := by
  obtain ⟨x, hx⟩ := h
  exact ⟨x, D.net_sg e hx⟩

/-- Nothing changed for the theory. -/
theorem same (D : Duty C) {Z : Asg → Prop} {s s' : Sat T} {U} (h : D.SI Z s U) (e : s' = s.retheory s.th s'.bounds) : D.SI Z s' U := by
  rw [e]
  exact D.move (s' := s.retheory s.th s'.bounds) h rfl ((D.rinv h).retheory _ (fun _ k => k) (D.rinv h).inv.ti) (Nat.le_refl _) (fun α β hab k => D.zloc h α β hab k) (fun α _ hp hz _ => ⟨hp, hz⟩)

theorem SIP.move (h : SIP D1 D2 Z S U) (e1 : D1.sg S'.th.1 = D1.sg S.th.1) (e2 : D2.sg S'.th.2 = D2.sg S.th.2) (hr : S'.RInv ((conP D1 D2 (D1.sg S'.th.1, D2.sg S'.th.2)).restrict Z'))
    (hn : S.nvars ≤ S'.nvars) (hz : ∀ α β : Asg, Asg.agree S'.nvars α β → Z' α → Z' β)
    (hk : ∀ α, α 0 = false → (∀ D ∈ S'.posted, α.clause D) → Z' α → D1.Nt S'.th.1 U.1 α → D2.Nt S'.th.2 U.2 α → (∀ D ∈ S.posted, α.clause D) ∧ Z α) : SIP D1 D2 Z' S' U := by
  refine ⟨?_, ?_, ?_, hz⟩
  · refine D1.move (Z' := fun α => Z' α ∧ D2.Nt S'.th.2 U.2 α) h.l e1 ?_ hn (fun α β hab k => ⟨hz α β hab k.1, loc_at D2 h.r e2 hn hab k.2⟩) (fun α h0 hp ⟨k1, k2⟩ k3 => ?_)
    · refine hr.retheoryP (C' := (D1.con (D1.sg S'.th.1)).restrict _) (t := S'.th.1) _ (fun α h0 hp ⟨k1, k2, k3⟩ => ?_) hr.inv.ti.1
      have t1 := (D1.con_th _ _ _).mp k1
      have n1 := nt_sg D1 e1.symm (D1.nt_of h.l α h0 (D1.th_sg e1 t1))
      obtain ⟨y1, y2⟩ := hk α h0 hp k2 n1 k3
      have := (h.th h0 y1 y2 (nt_sg D1 e1 n1) (nt_sg D2 e2 k3)).2
      exact ⟨⟨k1, (D2.con_th _ _ _).mpr (D2.th_sg e2.symm this)⟩, k2⟩
    · obtain ⟨y1, y2⟩ := hk α h0 hp k1 k3 k2
      exact ⟨y1, y2, nt_sg D2 e2 k2⟩
  · refine D2.move (Z' := fun α => Z' α ∧ D1.Nt S'.th.1 U.1 α) h.r e2 ?_ hn (fun α β hab k => ⟨hz α β hab k.1, loc_at D1 h.l e1 hn hab k.2⟩) (fun α h0 hp ⟨k1, k2⟩ k3 => ?_)
    · refine hr.retheoryP (C' := (D2.con (D2.sg S'.th.2)).restrict _) (t := S'.th.2) _ (fun α h0 hp ⟨k1, k2, k3⟩ => ?_) hr.inv.ti.2
      have t2 := (D2.con_th _ _ _).mp k1
      have n2 := nt_sg D2 e2.symm (D2.nt_of h.r α h0 (D2.th_sg e2 t2))
      obtain ⟨y1, y2⟩ := hk α h0 hp k2 k3 n2
      have := (h.th h0 y1 y2 (nt_sg D1 e1 k3) (nt_sg D2 e2 n2)).1
      exact ⟨⟨(D1.con_th _ _ _).mpr (D1.th_sg e1.symm this), k1⟩, k2⟩
    · obtain ⟨y1, y2⟩ := hk α h0 hp k1 k2 k3
      exact ⟨y1, y2, nt_sg D1 e1 k2⟩
  · rw [e1, e2]; exact h.dis

theorem init_left (m : Nat) (t : T1 × T2) : (Sat.init t).left m = Sat.init t.1 := by
  unfold Sat.left
  simp only [Sat.retheory, Sat.init, Sat.newVar]
  congr 1

theorem init_right (m : Nat) (t : T1 × T2) : (Sat.init t).right m = Sat.init t.2 := by
  unfold Sat.right
  simp only [Sat.retheory, Sat.init, Sat.newVar]
  congr 1

theorem SIP.start {t : T1 × T2} (h1 : C1.Start t.1) (h2 : C2.Start t.2) : SIP D1 D2 anyAsg (Sat.init t) (C1.d0, C2.d0) := by
  have a1 := D1.start h1
  have a2 := D2.start h2
  have hn : (Sat.init t).nvars = 1 := rfl
  refine ⟨?_, ?_, fun v hv hv' => ?_, fun _ _ _ h => h⟩
  · rw [init_left]
    refine D1.move a1 rfl ((D1.rinv a1).retheory _ (fun _ k => ⟨k.1, trivial⟩) (D1.rinv a1).inv.ti) (Nat.le_refl _) (fun α β hab k => ⟨trivial, loc_at D2 a2 rfl (Nat.le_refl _) hab k.2⟩) (fun α _ hp _ _ => ⟨hp, trivial⟩)
  · rw [init_right]
    refine D2.move a2 rfl ((D2.rinv a2).retheory _ (fun _ k => ⟨k.1, trivial⟩) (D2.rinv a2).inv.ti) (Nat.le_refl _) (fun α β hab k => ⟨trivial, loc_at D1 a1 rfl (Nat.le_refl _) hab k.2⟩) (fun α _ hp _ _ => ⟨hp, trivial⟩)
  · have := (D1.rng a1 v hv)
    have e : (Sat.init t.1).nvars = 1 := rfl
    omega

theorem SIP.live0 {t : T1 × T2} (h1 : C1.Start t.1) (h2 : C2.Start t.2) (h : OkP D1 D2 (D1.sg t.1, D2.sg t.2)) : (Sat.init t).LiveD (liveP D1 D2 _ h) false := by
  have a1 := D1.live0 h1 h.ok1
  have a2 := D2.live0 h2 h.ok2
  have r := (SIP.start (D1 := D1) (D2 := D2) h1 h2).rinv
  refine Sat.LiveD.join ⟨r.inv.ti.1, r.inv.ti.2⟩ (by rw [init_left]; exact a1) (by rw [init_right]; exact a2) (fun v => .inl ?_)
  show bl C1.m (Sat.init t).bounds v = []
  rfl

theorem putL_left {m : Nat} {S : Sat (T1 × T2)} {s : Sat T1} (h : ∀ v, ∀ i ∈ s.bounds v, i < m) : (S.putL m s).left m = s := by
  have : bl m s.bounds = s.bounds := by
    funext v
    exact List.filter_eq_self.mpr (fun i hi => by simpa using h v i hi)
  unfold Sat.left Sat.putL
  simp only [Sat.retheory]
  rw [bl_bj, this]

theorem putL_right {m : Nat} {S : Sat (T1 × T2)} {s : Sat T1} : (S.putL m s).right m = s.retheory (S.right m).th (S.right m).bounds := by
  unfold Sat.right Sat.putL
  simp only [Sat.retheory]
  rw [br_bj]

theorem putR_right {m : Nat} {S : Sat (T1 × T2)} {s : Sat T2} : (S.putR m s).right m = s := by
  unfold Sat.right Sat.putR
  simp only [Sat.retheory]
  rw [br_bj]

theorem putR_left {m : Nat} {S : Sat (T1 × T2)} {s : Sat T2} : (S.putR m s).left m = s.retheory (S.left m).th (S.left m).bounds := by
  unfold Sat.left Sat.putR
  simp only [Sat.retheory]
  rw [bl_bj]
  congr 1
  funext v
  simp [bl, List.filter_filter]

/-- The first family has acted. -/
theorem SIP.callL {d : Bool} (h : SIP D1 D2 Z S U) (hf : Comp.Faith (C1.prod C2) U S) (hd : S.dead = false) (hl : ∃ hk, S.LiveD (liveP D1 D2 (D1.sg S.th.1, D2.sg S.th.2) hk) d) {s : Sat T1} {u : C1.Dat}
    (hc : C1.Call (S.left C1.m) U.1 s u) :
    SIP D1 D2 Z (S.putL C1.m s) (u, U.2) ∧ (∀ α x, α 0 = false → (∀ D ∈ s.posted, α.clause D) → Z α → D2.Nt S.th.2 U.2 α → D1.Net s.th u α x → D1.Net S.th.1 U.1 α x ∧ ∀ D ∈ S.posted, α.clause D) ∧ S.Mild (S.putL C1.m s) ∧
    (∀ v, D1.own (D1.sg s.th) v → D1.own (D1.sg S.th.1) v ∨ S.nvars ≤ v) ∧
    (s.dead = true ∨ ∀ d', (d' = true ∨ d' = d ∧ u = U.1) → ∃ hk, (S.putL C1.m s).LiveD (liveP D1 D2 (D1.sg s.th, D2.sg S.th.2) hk) d') := by
  obtain ⟨hk, hl⟩ := hl
  have f1 : Comp.Faith C1 U.1 (S.left C1.m) := ⟨Sat.Calm.left (hm := C1.ids) hf.calm, hf.vow.view, hf.inv.1⟩
  obtain ⟨a1, a3, a4, a5, a6⟩ := D1.call h.l f1 hd ⟨hk.ok1, hl.left⟩ hc
  have hi : SIP D1 D2 Z (S.putL C1.m s) (u, U.2) := by
    have hn : S.nvars ≤ s.nvars := a4.nv
    refine ⟨D1.same a1 rfl, ?_, fun v hv hv' => ?_, fun α β hab k => h.zloc α β (fun v hv => hab v (hv.trans_le hn)) k⟩
    · refine D2.move (Z' := fun α => Z α ∧ D1.Nt s.th u α) h.r rfl ?_ hn (fun α β hab k => ⟨h.zloc α β (fun v hv => hab v (hv.trans_le hn)) k.1, loc_at D1 a1 rfl (Nat.le_refl _) hab k.2⟩)
        (fun α h0 hp ⟨k1, y, k2⟩ k3 => ⟨(a3 α y h0 hp ⟨k1, k3⟩ k2).2, k1, y, (a3 α y h0 hp ⟨k1, k3⟩ k2).1⟩)
      refine (D1.rinv a1).retheoryP (C' := (D2.con (D2.sg S.th.2)).restrict _) (t := S.th.2) _ (fun α h0 hp ⟨k1, k2, y, k3⟩ => ?_) (Sat.TI.mild (s := S.left C1.m) (D2.rinv h.r).inv.ti a4)
      have n2 := D2.nt_of h.r α h0 ((D2.con_th _ _ _).mp k1)
      exact ⟨(D1.con_th _ _ _).mpr (D1.th_of a1 α y h0 hp k3 ⟨k2, n2⟩), k2, n2⟩
    · rcases a5 v hv with k | k
      · exact h.dis v k hv'
      · exact absurd (D2.rng h.r v hv').2 (Nat.not_lt.mpr k)
  refine ⟨hi, fun α x h0 hp hz n2 hx => a3 α x h0 hp ⟨hz, n2⟩ hx, ⟨a4.dl, a4.nv, a4.up, a4.low, a4.new, a4.pen⟩, a5, ?_⟩
  by_cases hd' : s.dead = true
  · exact .inl hd'
  obtain ⟨b1, -, -, -, b5, b6, -⟩ := (C1.call f1.calm f1.vow f1.inv hd hc).resolve_left hd'
  have c1 := C1.bnd b1
  refine .inr (fun d' hd2 => ?_)
  have l1 : ∃ hk, s.LiveD (D1.live (D1.sg s.th) hk) d' := by
    have := a6.resolve_left hd'
    rcases hd2 with e | ⟨e, e'⟩
    · subst e; exact this.1
    · subst e; exact this.2 e'
  obtain ⟨k1, l1⟩ := l1
  refine ⟨hi.ok, Sat.LiveD.join hi.rinv.inv.ti ?_ ?_ ?_⟩
  · rw [putL_left c1.1]; exact l1
  · rw [putL_right]
    have := Sat.LiveD.mild (d := d) hl.right (s' := s) l1.live.fix ⟨a4.dl, a4.nv, a4.up, a4.low, a4.new, a4.pen⟩
    rcases hd2 with e | ⟨e, e'⟩
    · subst e; exact this.weak
    · subst e; exact this
  · intro v
    show bl C1.m (bj C1.m s.bounds (br C1.m S.bounds)) v = [] ∨ br C1.m (bj C1.m s.bounds (br C1.m S.bounds)) v = []
    rw [bl_bj, br_bj]
    by_cases hv : v < S.nvars
    · have e : s.bounds v = bl C1.m S.bounds v := b6 v hv
      rcases hl.apart v with k | k
      · left; show (s.bounds v).filter _ = []; rw [e, k]; rfl
      · exact .inr k
    · exact .inr ((C2.bnd (Sat.Calm.right (hm := C1.ids) hf.calm)).2 v (Nat.not_lt.mp hv))

/-- The second family has acted. -/
theorem SIP.callR {d : Bool} (h : SIP D1 D2 Z S U) (hf : Comp.Faith (C1.prod C2) U S) (hd : S.dead = false) (hl : ∃ hk, S.LiveD (liveP D1 D2 (D1.sg S.th.1, D2.sg S.th.2) hk) d) {s : Sat T2} {u : C2.Dat}
    (hc : C2.Call (S.right C1.m) U.2 s u) :
    SIP D1 D2 Z (S.putR C1.m s) (U.1, u) ∧ (∀ α x, α 0 = false → (∀ D ∈ s.posted, α.clause D) → Z α → D1.Nt S.th.1 U.1 α → D2.Net s.th u α x → D2.Net S.th.2 U.2 α x ∧ ∀ D ∈ S.posted, α.clause D) ∧ S.Mild (S.putR C1.m s) ∧
    (∀ v, D2.own (D2.sg s.th) v → D2.own (D2.sg S.th.2) v ∨ S.nvars ≤ v) ∧
    (s.dead = true ∨ ∀ d', (d' = true ∨ d' = d ∧ u = U.2) → ∃ hk, (S.putR C1.m s).LiveD (liveP D1 D2 (D1.sg S.th.1, D2.sg s.th) hk) d') := by
  obtain ⟨hk, hl⟩ := hl
  have f1 : Comp.Faith C2 U.2 (S.right C1.m) := ⟨Sat.Calm.right (hm := C1.ids) hf.calm, hf.vow.view, hf.inv.2⟩
  obtain ⟨a1, a3, a4, a5, a6⟩ := D2.call h.r f1 hd ⟨hk.ok2, hl.right⟩ hc
  have hi : SIP D1 D2 Z (S.putR C1.m s) (U.1, u) := by
    have hn : S.nvars ≤ s.nvars := a4.nv
    refine ⟨?_, by rw [putR_right]; exact a1, fun v hv hv' => ?_, fun α β hab k => h.zloc α β (fun v hv => hab v (hv.trans_le hn)) k⟩
    · refine D1.move (Z' := fun α => Z α ∧ D2.Nt s.th u α) h.l rfl ?_ hn (fun α β hab k => ⟨h.zloc α β (fun v hv => hab v (hv.trans_le hn)) k.1, loc_at D2 a1 rfl (Nat.le_refl _) hab k.2⟩)
        (fun α h0 hp ⟨k1, y, k2⟩ k3 => ⟨(a3 α y h0 hp ⟨k1, k3⟩ k2).2, k1, y, (a3 α y h0 hp ⟨k1, k3⟩ k2).1⟩)
      refine (D2.rinv a1).retheoryP (C' := (D1.con (D1.sg S.th.1)).restrict _) (t := S.th.1) _ (fun α h0 hp ⟨k1, k2, y, k3⟩ => ?_) (Sat.TI.mild (s := S.right C1.m) (D1.rinv h.l).inv.ti a4)
      have n2 := D1.nt_of h.l α h0 ((D1.con_th _ _ _).mp k1)
      exact ⟨(D2.con_th _ _ _).mpr (D2.th_of a1 α y h0 hp k3 ⟨k2, n2⟩), k2, n2⟩
    · rcases a5 v hv' with k | k
      · exact h.dis v hv k
      · exact absurd (D1.rng h.l v hv).2 (Nat.not_lt.mpr k)
  refine ⟨hi, fun α x h0 hp hz n2 hx => a3 α x h0 hp ⟨hz, n2⟩ hx, ⟨a4.dl, a4.nv, a4.up, a4.low, a4.new, a4.pen⟩, a5, ?_⟩
  by_cases hd' : s.dead = true
  · exact .inl hd'
  obtain ⟨b1, -, -, -, b5, b6, -⟩ := (C2.call f1.calm f1.vow f1.inv hd hc).resolve_left hd'
  refine .inr (fun d' hd2 => ?_)
  have l1 : ∃ hk, s.LiveD (D2.live (D2.sg s.th) hk) d' := by
    have := a6.resolve_left hd'
    rcases hd2 with e | ⟨e, e'⟩
    · subst e; exact this.1
    · subst e; exact this.2 e'
  obtain ⟨k1, l1⟩ := l1
  refine ⟨hi.ok, Sat.LiveD.join hi.rinv.inv.ti ?_ ?_ ?_⟩
  · rw [putR_left]
    have := Sat.LiveD.mild (d := d) hl.left (s' := s) l1.live.fix ⟨a4.dl, a4.nv, a4.up, a4.low, a4.new, a4.pen⟩
    rcases hd2 with e | ⟨e, e'⟩
    · subst e; exact this.weak
    · subst e; exact this
  · rw [putR_right]; exact l1
  · intro v
    show bl C1.m (bj C1.m (bl C1.m S.bounds) s.bounds) v = [] ∨ br C1.m (bj C1.m (bl C1.m S.bounds) s.bounds) v = []
    rw [bl_bj, br_bj]
    by_cases hv : v < S.nvars
    · have e : s.bounds v = br C1.m S.bounds v := b6 v hv
      rcases hl.apart v with k | k
      · left; simp [bl] at k ⊢; tauto
      · right; rw [e]; exact k
    · have := (C1.bnd (Sat.Calm.left (hm := C1.ids) hf.calm)).2 v (Nat.not_lt.mp hv)
      left
      have : bl C1.m S.bounds v = [] := this
      simp [bl] at this ⊢; tauto

variable (D1 D2) in
/-- The duties of two families of theories on one core. -/
def prod : Duty (C1.prod C2) where
  sops := D1.sops.prod C1.m D2.sops
  guards := D1.guards.both D2.guards
  Sg := D1.Sg × D2.Sg
  sg := fun t => (D1.sg t.1, D2.sg t.2)
  con := conP D1 D2
  Th := fun t α => D1.Th t.1 α ∧ D2.Th t.2 α
  con_th := fun g t α => and_congr (D1.con_th g.1 t.1 α) (D2.con_th g.2 t.2 α)
  ti_sg := fun h => Prod.ext (D1.ti_sg h.1) (D2.ti_sg h.2)
  th_sg := fun e h => ⟨D1.th_sg (congrArg Prod.fst e) h.1, D2.th_sg (congrArg Prod.snd e) h.2⟩
  own := fun g v => D1.own g.1 v ∨ D2.own g.2 v
  mix := fun h h0 k a b c e => ⟨D1.mix h.1 h0 k.1 a b (fun v hv => c v (.inl hv)) e, D2.mix h.2 h0 k.2 a b (fun v hv => c v (.inr hv)) e⟩
  Ok := OkP D1 D2
  live := liveP D1 D2
  exc := fun {g h e} k => by
    rcases k with k | k
    · exact D1.exc k
    · exact D2.exc k
  Net := fun t U α x => D1.Net t.1 U.1 α x.1 ∧ D2.Net t.2 U.2 α x.2
  net_sg := fun e h => ⟨D1.net_sg (congrArg Prod.fst e) h.1, D2.net_sg (congrArg Prod.snd e) h.2⟩
  SI := SIP D1 D2
  rinv := fun h => h.rinv
  zloc := fun h => h.zloc
  loc := fun h α β x hab hx => ⟨D1.loc h.l α β x.1 hab hx.1, D2.loc h.r α β x.2 hab hx.2⟩
  rng := fun h v hv => by
    rcases hv with hv | hv
    · exact D1.rng h.l v hv
    · exact D2.rng h.r v hv
  ok := fun h => h.ok
  th_of := fun h α x h0 hp hx hz => h.th h0 hp hz ⟨x.1, hx.1⟩ ⟨x.2, hx.2⟩
  nt_of := fun h α h0 hx => by
    obtain ⟨y1, k1⟩ := D1.nt_of h.l α h0 hx.1
    obtain ⟨y2, k2⟩ := D2.nt_of h.r α h0 hx.2
    exact ⟨(y1, y2), k1, k2⟩
  net_of := fun h α x hx => ⟨D1.net_of h.l α x.1 hx.1, D2.net_of h.r α x.2 hx.2⟩
  move := fun h e hr hn hz hk => h.move (congrArg Prod.fst e) (congrArg Prod.snd e) hr hn hz (fun α h0 hp k ⟨x1, k1⟩ ⟨x2, k2⟩ => hk α h0 hp k ⟨(x1, x2), k1, k2⟩)
  start := fun h => SIP.start h.1 h.2
  live0 := fun h hk => SIP.live0 h.1 h.2 hk
  call := fun {Z S U S' U' d} h hf hd hl hc => by
    cases hc with
    | @left s u hc =>
      obtain ⟨a1, a3, a4, a5, a6⟩ := h.callL hf hd hl hc
      refine ⟨a1, fun α x h0 hp hz hx => ⟨⟨(a3 α x.1 h0 hp hz ⟨x.2, hx.2⟩ hx.1).1, hx.2⟩, (a3 α x.1 h0 hp hz ⟨x.2, hx.2⟩ hx.1).2⟩, a4, fun v hv => ?_, a6.imp_right (fun k => ⟨k true (.inl rfl), fun e => k d (.inr ⟨rfl, congrArg Prod.fst e⟩)⟩)⟩
      rcases hv with hv | hv
      · exact (a5 v hv).imp_left .inl
      · exact .inl (.inr hv)
    | @right s u hc =>
      obtain ⟨a1, a3, a4, a5, a6⟩ := h.callR hf hd hl hc
      refine ⟨a1, fun α x h0 hp hz hx => ⟨⟨hx.1, (a3 α x.2 h0 hp hz ⟨x.1, hx.1⟩ hx.2).1⟩, (a3 α x.2 h0 hp hz ⟨x.1, hx.1⟩ hx.2).2⟩, a4, fun v hv => ?_, a6.imp_right (fun k => ⟨k true (.inl rfl), fun e => k d (.inr ⟨rfl, congrArg Prod.snd e⟩)⟩)⟩
      rcases hv with hv | hv
      · exact .inl (.inl hv)
      · exact (a5 v hv).imp_left .inr
  Rpt := fun S x => D1.Rpt (S.left C1.m) x.1 ∧ D2.Rpt (S.right C1.m) x.2
  rpt := fun h α x h0 hp hx hz hd => ⟨D1.rpt h.l α x.1 h0 hp hx.1 ⟨hz, x.2, hx.2⟩ hd, D2.rpt h.r α x.2 h0 hp hx.2 ⟨hz, x.1, hx.1⟩ hd⟩
  Tell := fun t B x => D1.Tell t.1 B x.1 ∧ D2.Tell t.2 B x.2
  tell := fun h ht α x h0 hp hx hz hA =>
    ⟨D1.tell h.l ht.1 α x.1 h0 hp hx.1 ⟨hz, x.2, D2.net_sg (D2.ti_sg ht.2) hx.2⟩ hA, D2.tell h.r ht.2 α x.2 h0 hp hx.2 ⟨hz, x.1, D1.net_sg (D1.ti_sg ht.1) hx.1⟩ hA⟩

end prod
end Duty
end Semitone
