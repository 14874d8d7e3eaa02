import Verif.DL.Guard
import Verif.Sat.Later
import Verif.Sat.Restrict
import Verif.Sat.Mild

/-!
# Difference logic inside the core

Reachable states of a core with a difference-logic theory attached, and what `new_distance` does to the solutions of the network.
-/
namespace Semitone

namespace Sat
variable {T : Type}

/-- Change of the state of the theory between two calls of the core. -/
theorem RInv.theory {O : TheoryOps T} {C C' : Contract O} {s : Sat T} {t : T} (ih : s.RInv C) (h1 : ∀ α, C'.Th t α → C.Th s.th α)
    (h2 : C'.TI t s.dl s.tru) : ({ s with th := t } : Sat T).RInv C' := by
  have hsol : ∀ α, ({ s with th := t } : Sat T).Sol C'.Th α → s.Sol C.Th α := fun α hα => ⟨hα.1, hα.2.1, h1 α hα.2.2⟩
  refine ⟨⟨ih.inv.wf.congr rfl rfl rfl rfl rfl rfl rfl rfl rfl rfl rfl rfl, ⟨?_, ?_⟩, h2, ih.inv.qr, ih.inv.prng, ?_⟩, ?_, ?_⟩
  · intro c hc α hα; exact ih.inv.sem.cls c hc α (hsol α hα)
  · intro q hq α hα hd; exact ih.inv.sem.val q hq α (hsol α hα) hd
  · intro k ls r hm
    obtain ⟨a, b, c⟩ := ih.inv.cache k ls r hm
    exact ⟨a, b, fun α hα => c α (hsol α hα)⟩
  · intro hx α hα; exact ih.dead hx α (hsol α hα)
  · exact ih.link

end Sat

namespace DL
variable {W : Type} [AddCommGroup W] [LinearOrder W] [IsOrderedAddMonoid W] [Dom W]

/-- The truth assignment `α` and the positions `X` of the time points are a solution of the network: every posted clause holds, and every
constraint literal is true exactly when its constraint holds. -/
def Model (s : Sat (DL W)) (α : Asg) (X : Nat → W) : Prop :=
  α 0 = false ∧ (∀ C ∈ s.posted, α.clause C) ∧ ∀ v dd, s.th.vd v = some dd → (α v = true ↔ X dd.tgt - X dd.src ≤ dd.w)

/-- The states of a core with a difference-logic theory that sequences of successful calls lead to: calls of the core, creation of time points,
`new_distance` on existing time points. Histories with an unsafe propagation (`DL.safe`) are excluded. -/
inductive DReach (E : Env) : Sat (DL W) → Prop
  | init {size : Nat} : 1 ≤ size → DReach E (Sat.init (DL.init size))
  | step {s s' : Sat (DL W)} {op out} : DReach E s → (op = .simplify → ∀ u, s.propagate E safeOps = .ok (u, true) → u.Fix u.okQ) →
      s.step E safeOps op = .ok (s', out) → DReach E s'
  | newPoint {s : Sat (DL W)} : DReach E s → DReach E { s with th := s.th.newVar.1 }
  | newDistance {s s' : Sat (DL W)} {i j w p} : DReach E s → i < s.th.nv → j < s.th.nv → newDistance s i j w = .ok (s', p) → DReach E s'
  | listen {s : Sat (DL W)} {v l t} : DReach E s → s.th.listen v l = .ok t → DReach E { s with th := t }

/-- The contract of the theory when the solutions are also restricted by `Z` (by what the other theories on the same core say). -/
abbrev dlC (Z : Asg → Prop) (V : Nat → Option (Dist W)) : Contract (safeOps (W := W)) := (dlContract V).restrict Z

/-- The invariant of these states; `Z` is what restricts the truth assignments besides the network (nothing, when the theory is alone on the core). -/
structure SInv (Z : Asg → Prop) (s : Sat (DL W)) : Prop where
  rinv : s.RInv (dlC Z s.th.vd)
  fresh : ∀ v dd, s.th.vd v = some dd → v < s.nvars
  zloc : ∀ α β : Asg, Asg.agree s.nvars α β → Z α → Z β

variable {Z : Asg → Prop}

theorem SInv.parts {s : Sat (DL W)} (h : SInv Z s) : Regs s.th ∧ ∃ As, GoodG s.th As ∧ ∀ e ∈ As.flatten, s.value ⟨e.1.b, e.2⟩ = some true := by
  obtain ⟨⟨_, hr⟩, As, hg, hl, hA⟩ := h.rinv.inv.ti
  exact ⟨hr, As, hg, fun e he => (hA s.dl (Nat.le_refl _) e (by simpa using he)).1⟩

theorem Model.sol {s : Sat (DL W)} {α : Asg} {X : Nat → W} (h : Model s α X) : s.Sol Th α := ⟨h.1, h.2.1, X, h.2.2⟩

theorem Model.solZ {V : Nat → Option (Dist W)} {s : Sat (DL W)} {α : Asg} {X : Nat → W} (h : Model s α X) (hz : Z α) : s.Sol (dlC Z V).Th α := ⟨h.1, h.2.1, ⟨X, h.2.2⟩, hz⟩

theorem SInv.asserted {s : Sat (DL W)} (h : SInv Z s) {α : Asg} {X : Nat → W} (hm : Model s α X) (hz : Z α) (hd : α.all s.decisions) {As : List (List (Dist W × Bool))}
    (hg : GoodG s.th As) (hv : ∀ e ∈ As.flatten, s.value ⟨e.1.b, e.2⟩ = some true) : SatF X As.flatten := by
  intro e he
  refine holds_of_asg hm.2.2 (hg.coreG.reg e he) ?_
  have := h.rinv.inv.sem.val _ (hv e he) α (hm.solZ hz) (fun l hl => hd l ?_)
  · exact this
  · exact List.mem_of_mem_drop hl

theorem SInv.bound {s : Sat (DL W)} (h : SInv Z s) {α : Asg} {X : Nat → W} (hm : Model s α X) (hz : Z α) (hd : α.all s.decisions) {i j : Nat} (hi : i < s.th.nv) (hj : j < s.th.nv) :
    ((X j - X i : W) : WithTop W) ≤ s.th.d i j := by
  obtain ⟨_, As, hg, hv⟩ := h.parts
  exact hg.coreG.core.sound X (h.asserted hm hz hd hg hv) i j hi hj

theorem TI.congr {V V' : Nat → Option (Dist W)} {t u : DL W} {n : Nat} {A : Nat → Lit → Prop} (h : TI V t n A) (hr : u.vd = V' ∧ Regs u)
    (hg : ∀ As, GoodG t As → GoodG u As) : TI V' u n A := by
  obtain ⟨_, As, a, b, c⟩ := h
  exact ⟨hr, As, hg As a, b, c⟩

theorem goodG_register {t : DL W} {As : List (List (Dist W × Bool))} (h : GoodG t As) {dd : Dist W} (hf : t.vd dd.b = none) : GoodG (t.register dd) As := by
  refine h.congr ⟨rfl, rfl, rfl, rfl, rfl, rfl, rfl, fun v dd' hv => ?_⟩
  simp only [DL.register, upd]
  split
  · next h => rw [h, hf] at hv; cases hv
  · exact hv

theorem regs_register {t : DL W} (h : Regs t) {dd : Dist W} (hf : t.vd dd.b = none) (hs : dd.src < t.nv) (ht : dd.tgt < t.nv) (hne : dd.src ≠ dd.tgt) :
    Regs (t.register dd) := by
  constructor
  · intro v x hv
    simp only [DL.register, upd] at hv
    split at hv
    · next e => injection hv with hv; subst hv; exact ⟨e.symm, hs, ht, hne⟩
    · exact h.vd v x hv
  · intro i j x hx
    simp only [DL.register, upd2] at hx
    have old : ∀ i j, x ∈ t.dcs i j → (t.register dd).vd x.b = some x ∧ x.src = i ∧ x.tgt = j := by
      intro i j hx
      obtain ⟨a, b, c⟩ := h.dcs i j x hx
      refine ⟨?_, b, c⟩
      simp only [DL.register, upd]
      split
      · next e => rw [e, hf] at a; cases a
      · exact a
    split at hx
    · next e =>
      rcases List.mem_append.mp hx with hx | hx
      · rw [e.1, e.2]
        exact old _ _ hx
      · have := List.mem_singleton.mp hx
        subst this
        exact ⟨by simp [DL.register, upd], e.1.symm, e.2.symm⟩
    · exact old _ _ hx

/-- What a call that returns the literal `p` for the condition `R` on the positions does: in every solution of the new network (compatible with the
decisions taken so far) the literal is true exactly when the condition holds, no solution is lost, and the old network is kept. -/
structure Adds (Z : Asg → Prop) (s s' : Sat (DL W)) (p : Lit) (R : (Nat → W) → Prop) : Prop where
  sinv : SInv Z s'
  mild : s.Mild s'
  nv : s'.th.nv = s.th.nv
  d : s'.th.d = s.th.d
  cap : s'.th.cap = s.th.cap
  dec : s'.decisions = s.decisions
  root : s'.root = s.root
  more : s.nvars ≤ s'.nvars
  var : p.var < s'.nvars
  means : ∀ α X, Model s' α X → Z α → α.all s.decisions → (α.sat p ↔ R X)
  keeps : ∀ α X, Model s' α X → Model s α X
  ext : ∀ α X, Model s α X → Z α → ∃ β, Asg.agree s.nvars α β ∧ Model s' β X

theorem adds_same {s : Sat (DL W)} (h : SInv Z s) {p : Lit} {R : (Nat → W) → Prop} (hp : p.var < s.nvars)
    (hR : ∀ α X, Model s α X → Z α → α.all s.decisions → (α.sat p ↔ R X)) : Adds Z s s p R :=
  ⟨h, .refl s, rfl, rfl, rfl, rfl, rfl, Nat.le_refl _, hp, hR, fun _ _ h => h, fun α X h _ => ⟨α, fun _ _ => rfl, h⟩⟩

theorem Model.false {s : Sat (DL W)} {α : Asg} {X : Nat → W} (h : Model s α X) : ¬ α.sat falseLit := by
  simp [Asg.sat, falseLit, h.1]

theorem Model.true {s : Sat (DL W)} {α : Asg} {X : Nat → W} (h : Model s α X) : α.sat trueLit := by
  simp [Asg.sat, trueLit, h.1]

theorem constLit_var (b : Bool) : (constLit b).var = 0 := by cases b <;> rfl

theorem Model.const {s : Sat (DL W)} {α : Asg} {X : Nat → W} (h : Model s α X) (P : Prop) [Decidable P] : α.sat (constLit (decide P)) ↔ P := by
  by_cases hP : P
  · simp only [hP, decide_true, constLit, if_true, iff_true]; exact h.true
  · simp only [hP, decide_false, constLit, iff_false]; exact h.false

theorem SInv.nvars_pos {s : Sat (DL W)} (h : SInv Z s) : 0 < s.nvars := h.rinv.inv.wf.nv

/-- `new_distance`. -/
theorem newDistance_adds {s s' : Sat (DL W)} {i j : Nat} {w : W} {p : Lit} (h : SInv Z s) (hi : i < s.th.nv) (hj : j < s.th.nv)
    (hn : newDistance s i j w = .ok (s', p)) : Adds Z s s' p (fun X => X j - X i ≤ w) := by
  unfold newDistance at hn
  split at hn
  · split at hn
    · next h1 =>
      injection hn with hn; injection hn with e1 e2
      subst e1 e2
      refine adds_same h h.nvars_pos (fun α X hm hz hd => ⟨fun hs => absurd hs hm.false, fun hle => ?_⟩)
      have := (h.bound hm hz hd hj hi).trans_lt h1
      norm_cast at this
      grind
    · next h1 =>
      split at hn
      · next h2 =>
        injection hn with hn; injection hn with e1 e2
        subst e1 e2
        refine adds_same h h.nvars_pos (fun α X hm hz hd => ⟨fun _ => ?_, fun _ => hm.true⟩)
        exact_mod_cast (h.bound hm hz hd hi hj).trans h2
      · next h2 =>
        simp only at hn
        injection hn with hn; injection hn with e1 e2
        have hw := h.rinv.inv.wf
        have hf : s.th.vd s.nvars = none := by
          cases hx : s.th.vd s.nvars with
          | none => rfl
          | some dd => exact absurd (h.fresh _ _ hx) (Nat.lt_irrefl _)
        obtain ⟨hr, As, hg, _⟩ := h.parts
        have hne : i ≠ j := by
          rintro rfl
          rw [hg.coreG.core.closed.diag i hi] at h1 h2
          norm_cast at h1 h2
          grind
        have hv2 : s.newVar.2 = s.nvars := by rw [Sat.newVar_eq hw]
        have hth : (s.newVar.1.bind s.newVar.2 0).th = s.th := by rw [Sat.newVar_eq hw]; rfl
        have hnv : (s.newVar.1.bind s.newVar.2 0).nvars = s.nvars + 1 := by rw [Sat.newVar_eq hw]; rfl
        have hpo : (s.newVar.1.bind s.newVar.2 0).posted = s.posted := by rw [Sat.newVar_eq hw]; rfl
        have hde : (s.newVar.1.bind s.newVar.2 0).decisions = s.decisions := by rw [Sat.newVar_eq hw]; rfl
        have hro : (s.newVar.1.bind s.newVar.2 0).root = s.root := by rw [Sat.newVar_eq hw]; rfl
        have hri : (s.newVar.1.bind s.newVar.2 0).RInv (dlC Z s.th.vd) := by
          have a := Sat.step_rinv (E := stdEnv) (op := .newVar) h.rinv (fun e => by cases e) rfl
          exact Sat.step_rinv (E := stdEnv) (op := .bind s.newVar.2 0) a (fun e => by cases e) rfl
        have hmi : s.Mild (s.newVar.1.bind s.newVar.2 0) := (Sat.newVar_mild hw).trans (.of_eq rfl (Nat.le_refl _) rfl rfl rfl)
        rw [hv2] at e1 e2 hri hth hnv hpo hde hro hmi
        generalize s.newVar.1.bind s.nvars 0 = u at e1 hri hth hnv hpo hde hro hmi
        subst e1 e2
        have hvd' : ∀ v dd, (s.th.register ⟨s.nvars, i, j, w⟩).vd v = some dd ↔ (v = s.nvars ∧ dd = ⟨s.nvars, i, j, w⟩) ∨ s.th.vd v = some dd := by
          intro v dd
          simp only [DL.register, upd]
          split
          · next e =>
            subst e
            rw [hf]
            constructor
            · intro e; injection e with e; exact Or.inl ⟨rfl, e.symm⟩
            · rintro (⟨_, rfl⟩ | e)
              · rfl
              · cases e
          · next e =>
            constructor
            · exact Or.inr
            · rintro (⟨e', _⟩ | e')
              · exact absurd e' e
              · exact e'
        rw [hth]
        refine ⟨⟨?_, ?_, ?_⟩, hmi.trans (.of_eq rfl (Nat.le_refl _) rfl rfl rfl), rfl, rfl, rfl, hde, hro, ?_, ?_, ?_, ?_, ?_⟩
        · refine hri.theory (fun α => ?_) (TI.congr (V := s.th.vd) (hri.inv.ti) ⟨rfl, ?_⟩ ?_)
          · rintro ⟨⟨X, hX⟩, hz⟩
            refine ⟨⟨X, fun v dd hv => hX v dd ?_⟩, hz⟩
            rw [hth] at hv
            exact (hvd' v dd).mpr (Or.inr hv)
          · exact regs_register hr hf hi hj hne
          · intro As' h'
            rw [hth] at h'
            exact goodG_register h' hf
        · intro v dd hv
          show v < u.nvars
          rw [hnv]
          rcases (hvd' v dd).mp hv with ⟨e, _⟩ | hv
          · rw [e]; exact Nat.lt_succ_self _
          · exact Nat.lt_succ_of_lt (h.fresh v dd hv)
        · refine fun α β hab => h.zloc α β (fun v hv => hab v ?_)
          show v < u.nvars
          rw [hnv]; exact Nat.lt_succ_of_lt hv
        · show s.nvars ≤ u.nvars
          rw [hnv]; exact Nat.le_succ _
        · show s.nvars < u.nvars
          rw [hnv]; exact Nat.lt_succ_self _
        · intro α X hm _ _
          exact hm.2.2 _ _ ((hvd' _ _).mpr (Or.inl ⟨rfl, rfl⟩))
        · intro α X hm
          refine ⟨hm.1, fun D hD => hm.2.1 D ?_, fun v dd hv => hm.2.2 v dd ((hvd' v dd).mpr (Or.inr hv))⟩
          show D ∈ u.posted
          rw [hpo]; exact hD
        · intro α X hm _
          have hag : Asg.agree s.nvars α (upd α s.nvars (decide (X j - X i ≤ w))) := by
            intro v hv
            rw [upd_ne _ _ (Nat.ne_of_lt hv)]
          refine ⟨_, hag, ?_, fun D hD => ?_, fun v dd hv => ?_⟩
          · rw [← hag 0 h.nvars_pos]; exact hm.1
          · have hD : D ∈ u.posted := hD
            rw [hpo] at hD
            obtain ⟨l, hl, hs⟩ := hm.2.1 D hD
            refine ⟨l, hl, ?_⟩
            unfold Asg.sat at hs ⊢
            rw [← hag _ (h.rinv.inv.prng D hD l hl)]
            exact hs
          · rcases (hvd' v dd).mp hv with ⟨rfl, rfl⟩ | hv
            · rw [upd_self]; simp
            · rw [← hag v (h.fresh v dd hv)]
              exact hm.2.2 v dd hv
  · cases hn

theorem SInv.local {s : Sat (DL W)} (h : SInv Z s) : s.Local (dlC Z s.th.vd).Th := by
  rintro α β hab ⟨⟨X, hX⟩, hz⟩
  refine ⟨⟨X, ?_⟩, h.zloc α β hab hz⟩
  exact (fun v dd hv => by rw [← hab v (h.fresh v dd hv)]; exact hX v dd hv)

/-- The conjunction of two literals of existing constraints. -/
theorem newConj_adds {E : Env} {s s' : Sat (DL W)} {l1 l2 p : Lit} (h : SInv Z s) (hn : s.newConj E [l1, l2] = .ok (s', p)) {R1 R2 : (Nat → W) → Prop}
    (h1 : ∀ α X, Model s α X → Z α → α.all s.decisions → (α.sat l1 ↔ R1 X)) (h2 : ∀ α X, Model s α X → Z α → α.all s.decisions → (α.sat l2 ↔ R2 X)) :
    Adds Z s s' p (fun X => R1 X ∧ R2 X) := by
  obtain ⟨hr, hv⟩ := Sat.newConj_pre hn
  obtain ⟨s1, r, a, b⟩ := Sat.newConj_spec (E := E) h.rinv.inv hr hv
  rw [hn] at a
  injection a with a; injection a with e1 e2
  subst e1 e2
  have hth := b.defd.rstep.th
  have hk : ∀ α X, Model s' α X → Model s α X := fun α X hm =>
    ⟨hm.1, fun D hD => hm.2.1 D (b.defd.rstep.posted D hD), fun v dd hv => hm.2.2 v dd (by rw [hth]; exact hv)⟩
  refine ⟨⟨?_, fun v dd hv' => ?_, fun α β hab => h.zloc α β (fun v hv => hab v (hv.trans_le b.defd.rstep.nv))⟩, b.defd.rstep.mild (Sat.newConj_quiet hn) h.rinv.inv.wf hr, by rw [hth], by rw [hth], by rw [hth], b.defd.rstep.dec, b.defd.rstep.root, b.defd.rstep.nv, b.var, ?_, hk, ?_⟩
  · rw [hth]; exact b.defd.rinv h.rinv
  · rw [hth] at hv'
    exact (h.fresh v dd hv').trans_le b.defd.rstep.nv
  · intro α X hm hz hd
    have hs : s'.Sol (dlC Z s.th.vd).Th α := hm.solZ hz
    rw [b.rel α hs, ← h1 α X (hk α X hm) hz hd, ← h2 α X (hk α X hm) hz hd]
    simp [Asg.all]
  · intro α X hm hz
    obtain ⟨β, hab, hβ⟩ := b.ext h.local α (hm.solZ hz)
    refine ⟨β, hab, hβ.1, hβ.2.1, fun v dd hv' => ?_⟩
    rw [hth] at hv'
    rw [← hab v (h.fresh v dd hv')]
    exact hm.2.2 v dd hv'

theorem init_sinv {size : Nat} (h : 1 ≤ size) : SInv anyAsg (Sat.init (DL.init (W := W) size)) := by
  have hvd : (Sat.init (DL.init (W := W) size)).th.vd = fun _ => none := rfl
  refine ⟨?_, fun v dd hv => by (rw [hvd] at hv; cases hv), fun _ _ _ h => h⟩
  have hTI : (dlContract (W := W) (fun _ => none)).TI (DL.init size) 0 (Sat.init (DL.init (W := W) size)).tru := by
    refine ⟨⟨rfl, ⟨fun v dd hv => by simp [DL.init] at hv, fun i j dd hd => by simp [DL.init] at hd⟩⟩, [[]], .base (coreG_init h) rfl, rfl, fun i hi e he => ?_⟩
    have : i = 0 := Nat.le_zero.mp hi
    subst this
    simp at he
  exact ⟨Sat.init_inv _ hTI, fun hx => by simp [Sat.init, Sat.newVar] at hx, Or.inr (fun D hD => by simp [Sat.init, Sat.newVar] at hD)⟩

theorem newPoint_sinv {s : Sat (DL W)} (ih : SInv Z s) : SInv Z { s with th := s.th.newVar.1 } := by
  have hvd : s.th.newVar.1.vd = s.th.vd := by unfold newVar; simp only; split <;> rfl
  have hdc : s.th.newVar.1.dcs = s.th.dcs := by unfold newVar; simp only; split <;> rfl
  have hnv : s.th.newVar.1.nv = s.th.nv + 1 := by unfold newVar; simp only; split <;> rfl
  have hr := ih.parts.1
  refine ⟨?_, fun v dd hv => ih.fresh v dd (by rw [← hvd]; exact hv), ih.zloc⟩
  refine ih.rinv.theory (fun α hα => ?_) (TI.congr (V := s.th.vd) (ih.rinv.inv.ti) ⟨rfl, ?_, ?_⟩ (fun _ => goodG_newVar))
  · obtain ⟨⟨X, hX⟩, hz⟩ := hα
    exact ⟨⟨X, fun v dd hv => hX v dd (by rw [hvd]; exact hv)⟩, hz⟩
  · rw [hvd, hnv]
    intro v dd hv
    obtain ⟨a, b, c, d⟩ := hr.vd v dd hv
    exact ⟨a, Nat.lt_succ_of_lt b, Nat.lt_succ_of_lt c, d⟩
  · rw [hvd, hdc]
    exact hr.dcs

theorem listen_sinv {s : Sat (DL W)} {v l : Nat} {t : DL W} (ih : SInv Z s) (hl : s.th.listen v l = .ok t) : SInv Z { s with th := t } := by
  obtain ⟨f, rfl⟩ := listen_same hl
  exact ⟨ih.rinv.theory (fun α hα => hα) (TI.congr (V := s.th.vd) (ih.rinv.inv.ti) ⟨rfl, ih.parts.1.vd, ih.parts.1.dcs⟩ (fun As hg => hg.congr ⟨rfl, rfl, rfl, rfl, rfl, rfl, rfl, fun _ _ h => h⟩)), ih.fresh, ih.zloc⟩

theorem DReach.sinv {E : Env} {s : Sat (DL W)} (h : DReach E s) : SInv anyAsg s := by
  induction h with
  | init h => exact init_sinv h
  | @step s s' op out _ hsf hs ih =>
    have a := Sat.step_rinv ih.rinv hsf hs
    have hv : s'.th.vd = s.th.vd := a.inv.ti.1.1
    refine ⟨by rw [hv]; exact a, fun v dd hd => ?_, fun _ _ _ h => h⟩
    rw [hv] at hd
    exact (ih.fresh v dd hd).trans_le (Sat.step_grows ih.rinv hsf hs).nv
  | newPoint _ ih => exact newPoint_sinv ih
  | newDistance _ hi hj hn ih => exact (newDistance_adds ih hi hj hn).sinv
  | listen _ hl ih => exact listen_sinv ih hl

/-- When the theory is alone on the core. -/
theorem DReach.rinv {E : Env} {s : Sat (DL W)} (h : DReach E s) : s.RInv (dlContract s.th.vd) := by
  exact h.sinv.rinv.theory (t := s.th) (fun α hα => ⟨hα, trivial⟩) h.sinv.rinv.inv.ti

/-- C30 at the level of the whole solver (partial: histories with an unsafe propagation are excluded): every clause in the database and every value
assigned follows from the posted clauses, the meaning of the constraint literals and the decisions. -/
theorem C30_solver_partial {E : Env} {s : Sat (DL W)} (h : DReach E s) :
    (∀ c ∈ s.constrs, ∀ α X, Model s α X → α.clause (s.db c)) ∧
    (∀ q, s.value q = some true → ∀ α X, Model s α X → α.all (s.decUpTo (s.level q.var)) → α.sat q) ∧
    (s.dead = true → ∀ α X, ¬ Model s α X) ∧
    (∀ i j, i < s.th.nv → j < s.th.nv → ∀ α X, Model s α X → α.all s.decisions → ((X j - X i : W) : WithTop W) ≤ (s.th.distance i j).2) := by
  have hi := h.sinv
  exact ⟨fun c hc α X hm => hi.rinv.inv.sem.cls c hc α (hm.solZ trivial), fun q hq α X hm hd => hi.rinv.inv.sem.val q hq α (hm.solZ trivial) hd,
    fun hd α X hm => hi.rinv.dead hd α (hm.solZ trivial), fun i j h1 h2 α X hm hd => hi.bound hm trivial hd h1 h2⟩

end DL
end Semitone
