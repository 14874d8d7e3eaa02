import Verif.LRA.Guard
import Verif.Sat.Restrict
import Verif.Sat.Mild
import Verif.LRA.PropsA
import Verif.DL.Sys

/-!
# Linear arithmetic inside the core

Reachable states of a core with the linear-arithmetic theory attached, and what the calls of the theory do to the solutions of the network.
-/
namespace Semitone
namespace LRA
open Lin

/-- The truth assignment `α` and the rational valuation `x` are a solution of the network: every posted clause holds, every constraint literal is true exactly when
its constraint holds, every derived variable has the value of its expression, and the bounds `U` that the user imposed with `set_lb` and `set_ub` hold; `Z` is what else
restricts the solutions (the other theories on the same core). -/
structure ModelZ (Z : Asg → Prop) (s : Sat LRA) (U : List Fact) (α : Asg) (x : Nat → ℚ) : Prop where
  zero : α 0 = false
  posted : ∀ C ∈ s.posted, α.clause C
  lits : ∀ b a, s.th.vas b = some a → (α b = true ↔ a.says x)
  defs : ∀ d ∈ s.th.defs, x d.1 = d.2.eval 1 x
  user : ∀ f ∈ U, f.holds α (rat x)
  rest : Z α

/-- The solutions when there is no other theory. -/
abbrev Model (s : Sat LRA) (U : List Fact) (α : Asg) (x : Nat → ℚ) : Prop := ModelZ anyAsg s U α x

/-- The contract of the theory when the solutions are also restricted by `Z`. -/
abbrev lraC (L : LEnv) (Z : Asg → Prop) (S : Sig) : Contract (ops L) := (lraContract L S).restrict Z

/-- The invariant. -/
structure SInv (L : LEnv) (Z : Asg → Prop) (s : Sat LRA) (U : List Fact) : Prop where
  rinv : s.RInv (lraC L Z (sig s.th))
  fresh : ∀ b a, s.th.vas b = some a → b < s.nvars
  pos : ∀ b a, s.th.vas b = some a → 0 < b
  eps : ∀ b a, s.th.vas b = some a → a.Ok
  flit : ∀ f ∈ s.th.facts, f.lit.var < s.nvars
  dvar : ∀ d ∈ s.th.defs, d.1 < s.th.n ∧ ∀ w ∈ keys d.2.vars, w < s.th.n
  uvar : ∀ f ∈ U, f.lit.var < s.nvars ∧ f.var < s.th.n
  zloc : ∀ α β : Asg, Asg.agree s.nvars α β → Z α → Z β
  imp : ∀ α x, ModelZ Z s U α x → ∀ f ∈ s.th.facts, f.holds α (rat x)

variable {L : LEnv} {Z : Asg → Prop} {s s' : Sat LRA} {U : List Fact}

theorem SInv.mod (h : SInv L Z s U) {α : Asg} {x : Nat → ℚ} (hm : ModelZ Z s U α x) : Mod s.th α (rat x) := by
  refine ⟨hm.zero, fun b a hb => (means_iff (h.eps b a hb) _ x).mpr (hm.lits b a hb), fun d hd => ?_, h.imp α x hm⟩
  rw [eval_rat, ← hm.defs d hd]
  rfl

theorem SInv.sol (h : SInv L Z s U) {α : Asg} {x : Nat → ℚ} (hm : ModelZ Z s U α x) : s.Sol (lraC L Z (sig s.th)).Th α := ⟨hm.zero, hm.posted, ⟨x, h.mod hm⟩, hm.rest⟩

theorem SInv.ti (h : SInv L Z s U) : TI (sig s.th) s.th s.dl s.tru := h.rinv.inv.ti

theorem SInv.nvars_pos (h : SInv L Z s U) : 0 < s.nvars := h.rinv.inv.wf.nv

/-- What is true is true in every solution compatible with the decisions. -/
theorem SInv.true (h : SInv L Z s U) {α : Asg} {x : Nat → ℚ} (hm : ModelZ Z s U α x) (hd : α.all s.decisions) {q : Lit} (hq : s.value q = some true) : α.sat q :=
  h.rinv.inv.sem.val q hq α (h.sol hm) (fun l hl => hd l (List.mem_of_mem_drop hl))

/-- The solutions compatible with the decisions are within the bounds. -/
theorem SInv.bound (h : SInv L Z s U) {α : Asg} {x : Nat → ℚ} (hm : ModelZ Z s U α x) (hd : α.all s.decisions) (v : Nat) : InB (s.th.lo v) (s.th.hi v) (rat x v) := by
  obtain ⟨Fs, hg⟩ := h.ti.good
  exact ⟨hg.bok.jlo v α _ (h.mod hm) (h.true hm hd (hg.bok.rlo v).1), hg.bok.jhi v α _ (h.mod hm) (h.true hm hd (hg.bok.rhi v).1)⟩

theorem SInv.boundL (h : SInv L Z s U) {α : Asg} {x : Nat → ℚ} (hm : ModelZ Z s U α x) (hd : α.all s.decisions) (l : Lin) :
    InB (s.th.lbL l) (s.th.ubL l) (IQ.ofQ (l.eval 1 x)) := by
  rw [← eval_rat]
  exact inB_lin (fun v _ => h.bound hm hd v)

theorem ModelZ.no {α : Asg} {x : Nat → ℚ} (h : ModelZ Z s U α x) : ¬ α.sat FALSE_lit := by
  intro h'
  have h2 : α 0 = true := h'
  rw [h.zero] at h2
  cases h2

theorem ModelZ.yes {α : Asg} {x : Nat → ℚ} (h : ModelZ Z s U α x) : α.sat TRUE_lit := h.zero

theorem fact_agree {f : Fact} {α β : Asg} {n : Nat} (hab : Asg.agree n α β) (hf : f.lit.var < n) (X : Nat → IQ) : f.holds α X ↔ f.holds β X := by
  cases f with
  | lo p y v => simp only [Fact.holds, Asg.sat]; rw [hab p.var hf]
  | hi p y v => simp only [Fact.holds, Asg.sat]; rw [hab p.var hf]

theorem fact_val {f : Fact} {α : Asg} {X Y : Nat → IQ} (h : Y f.var = X f.var) : f.holds α X ↔ f.holds α Y := by
  cases f with
  | lo p y v => simp only [Fact.holds]; rw [show Y y = X y from h]
  | hi p y v => simp only [Fact.holds]; rw [show Y y = X y from h]

theorem SInv.local (h : SInv L Z s U) : s.Local (lraC L Z (sig s.th)).Th := by
  rintro α β hab ⟨⟨x, hx⟩, hz⟩
  refine ⟨⟨x, ?_, fun b a hb => ?_, hx.defs, fun f hf => (fact_agree hab (h.flit f hf) _).mp (hx.fact f hf)⟩, h.zloc α β hab hz⟩
  · rw [← hab 0 h.nvars_pos]; exact hx.zero
  · rw [← hab b (h.fresh b a hb)]; exact hx.asrt b a hb

/-! ### Extensions of the network -/

/-- The calls only add to the network: every solution of the new network is a solution of the old one, and every solution of the old one extends to the new one
(new Boolean variables, new arithmetic variables). -/
structure Grows (L : LEnv) (Z : Asg → Prop) (U : List Fact) (s s' : Sat LRA) : Prop where
  sinv : SInv L Z s' U
  mild : s.Mild s'
  n : s.th.n ≤ s'.th.n
  dec : s'.decisions = s.decisions
  root : s'.root = s.root
  nv : s.nvars ≤ s'.nvars
  keeps : ∀ α x, ModelZ Z s' U α x → ModelZ Z s U α x
  ext : ∀ α x, ModelZ Z s U α x → ∃ β y, Asg.agree s.nvars α β ∧ (∀ v, v < s.th.n → y v = x v) ∧ ModelZ Z s' U β y

theorem Grows.refl (h : SInv L Z s U) : Grows L Z U s s :=
  ⟨h, .refl _, Nat.le_refl _, rfl, rfl, Nat.le_refl _, fun _ _ h => h, fun α x h => ⟨α, x, fun _ _ => rfl, fun _ _ => rfl, h⟩⟩

theorem Grows.trans {s1 s2 s3 : Sat LRA} (h1 : Grows L Z U s1 s2) (h2 : Grows L Z U s2 s3) : Grows L Z U s1 s3 := by
  refine ⟨h2.sinv, h1.mild.trans h2.mild, h1.n.trans h2.n, h2.dec.trans h1.dec, h2.root.trans h1.root, h1.nv.trans h2.nv, fun α x h => h1.keeps α x (h2.keeps α x h), fun α x h => ?_⟩
  obtain ⟨β, y, a, b, c⟩ := h1.ext α x h
  obtain ⟨γ, z, a', b', c'⟩ := h2.ext β y c
  exact ⟨γ, z, fun v hv => (a v hv).trans (a' v (hv.trans_le h1.nv)), fun v hv => (b' v (hv.trans_le h1.n)).trans (b v hv), c'⟩

/-- A call that returns the literal `p` for the condition `R`: an extension of the network in whose solutions (compatible with the decisions taken so far) the
literal is true exactly when the condition holds. -/
structure Adds (L : LEnv) (Z : Asg → Prop) (U : List Fact) (s s' : Sat LRA) (p : Lit) (R : (Nat → ℚ) → Prop) : Prop extends Grows L Z U s s' where
  var : p.var < s'.nvars
  means : ∀ α x, ModelZ Z s' U α x → α.all s.decisions → (α.sat p ↔ R x)

theorem Grows.adds {p : Lit} {R : (Nat → ℚ) → Prop} (h : Grows L Z U s s') (hv : p.var < s'.nvars)
    (hR : ∀ α x, ModelZ Z s' U α x → α.all s.decisions → (α.sat p ↔ R x)) : Adds L Z U s s' p R := { h with var := hv, means := hR }

/-- Change of the theory only. -/
theorem SInv.theory (h : SInv L Z s U) {t : LRA} {U' : List Fact} (hth : ∀ α x, Mod t α x → Mod s.th α x) (hti : TI (sig t) t s.dl s.tru) (hfr : ∀ b a, t.vas b = some a → b < s.nvars) (hpos : ∀ b a, t.vas b = some a → 0 < b)
    (hep : ∀ b a, t.vas b = some a → a.Ok) (hfl : ∀ f ∈ t.facts, f.lit.var < s.nvars)
    (hdv : ∀ d ∈ t.defs, d.1 < t.n ∧ ∀ w ∈ keys d.2.vars, w < t.n) (huv : ∀ f ∈ U', f.lit.var < s.nvars ∧ f.var < t.n)
    (him : ∀ α x, ModelZ Z { s with th := t } U' α x → ∀ f ∈ t.facts, f.holds α (rat x)) : SInv L Z { s with th := t } U' := by
  refine ⟨?_, hfr, hpos, hep, hfl, hdv, huv, h.zloc, him⟩
  exact h.rinv.theory (C' := lraC L Z (sig t)) (fun α ⟨⟨x, hx⟩, hz⟩ => ⟨⟨x, hth α _ hx⟩, hz⟩) hti

theorem eval_congr' {x y : Nat → ℚ} {l : Lin} (h : ∀ v ∈ keys l.vars, x v = y v) : l.eval 1 x = l.eval 1 y := by
  unfold Lin.eval; rw [evalT_congr h]

/-- `new_var()` -/
theorem newVar_grows (h : SInv L Z s U) : Grows L Z U s { s with th := s.th.newVar.1 } := by
  obtain ⟨Fs, hg⟩ := h.ti.good
  have e := newVar_eq hg
  have hM : ∀ α X, Mod s.th.newVar.1 α X → Mod s.th α X := by
    rw [e]; intro α X; refine (mod_congr ?_ ?_ ?_ α X).mp <;> rfl
  have hmod : ∀ α x, ModelZ Z { s with th := s.th.newVar.1 } U α x ↔ ModelZ Z s U α x := by
    intro α x
    rw [e]
    exact ⟨fun h => ⟨h.zero, h.posted, h.lits, h.defs, h.user, h.rest⟩, fun h => ⟨h.zero, h.posted, h.lits, h.defs, h.user, h.rest⟩⟩
  have hv : s.th.newVar.1.vas = s.th.vas := rfl
  have hf : s.th.newVar.1.facts = s.th.facts := rfl
  refine ⟨h.theory hM ⟨rfl, ?_, h.ti.exp.newVar hg, ?_, h.ti.fl, Fs, hg.newVar⟩ h.fresh h.pos h.eps h.flit ?_ ?_ (fun α x hm => ?_), Sat.Mild.of_eq rfl (Nat.le_refl _) rfl rfl rfl, ?_, rfl, rfl, Nat.le_refl _, fun α x => (hmod α x).mp,
    fun α x h => ⟨α, x, fun _ _ => rfl, fun _ _ => rfl, (hmod α x).mpr h⟩⟩
  · exact h.ti.k0
  · exact h.ti.len
  · exact fun d hd => ⟨Nat.lt_succ_of_lt (h.dvar d hd).1, fun w hw => Nat.lt_succ_of_lt ((h.dvar d hd).2 w hw)⟩
  · exact fun f hf => ⟨(h.uvar f hf).1, Nat.lt_succ_of_lt (h.uvar f hf).2⟩
  · exact h.imp α x ((hmod α x).mp hm)
  · show s.th.n ≤ s.th.n + 1
    exact Nat.le_succ _

theorem SInv.trueLit (h : SInv L Z s U) : s.tru 0 TRUE_lit := by
  have hw := h.rinv.inv.wf
  refine ⟨?_, Nat.le_of_eq (hw.off 0 hw.fvt)⟩
  rw [Sat.value_true]
  exact hw.fv

/-- `new_var(l)`, with no known term and over non-basic variables: an extension in which the variable has the value of the expression. -/
theorem newVarL_grows (h : SInv L Z s U) {l : Lin} {t : LRA} {y : Nat} (hc : l.Canon) (hb : ∀ w ∈ keys l.vars, s.th.row w = none) (hk : l.kt = 0)
    (hn : s.th.newVarL s.root l = .ok (t, y)) :
    Grows L Z U s { s with th := t } ∧ y < t.n ∧ (∀ α x, ModelZ Z { s with th := t } U α x → x y = l.eval 1 x) ∧ t.vas = s.th.vas ∧ t.sas = s.th.sas := by
  obtain ⟨Fs, hg⟩ := h.ti.good
  rcases newVarL_cases hg hn with ⟨e, hl⟩ | ⟨_, _, hr, hv, e, e2⟩
  · subst e
    obtain ⟨h1, h2⟩ := h.ti.exp.ex l y (lookup_mem' hl)
    refine ⟨Grows.refl h, h1, fun α x hm => ofQ_inj ?_, rfl, rfl⟩
    rw [← eval_rat]
    exact h2 _ (h.mod hm).defs
  · subst e e2
    have hlay : s.th.layers = [] := by
      have h1 := h.ti.len
      rw [(Sat.root_iff s).mp hr] at h1
      exact List.length_eq_zero_iff.mp h1
    have hvk : ∀ w ∈ keys l.vars, w < s.th.n ∧ s.th.row w = none := fun w hw => by
      obtain ⟨z, hz, e⟩ := List.mem_map.mp hw
      exact ⟨e ▸ hv z hz, hb w hw⟩
    have hg' := hg.defVar hlay h.trueLit hc hvk
    have hfl' : ∀ f ∈ (s.th.defVar l).facts, s.tru 0 f.lit := by
      intro f hf
      rcases List.mem_cons.mp hf with rfl | hf
      · exact h.trueLit
      · rcases List.mem_cons.mp hf with rfl | hf
        · exact h.trueLit
        · exact h.ti.fl f hf
    have hM : ∀ α X, Mod (s.th.defVar l) α X → Mod s.th α X := fun α X hm =>
      ⟨hm.zero, hm.asrt, fun d hd => hm.defs d (List.mem_cons_of_mem _ hd), fun f hf => hm.fact f (List.mem_cons_of_mem _ (List.mem_cons_of_mem _ hf))⟩
    have hkeep : ∀ α x, ModelZ Z { s with th := s.th.defVar l } U α x → ModelZ Z s U α x := fun α x hm =>
      ⟨hm.zero, hm.posted, hm.lits, fun d hd => hm.defs d (List.mem_cons_of_mem _ hd), hm.user, hm.rest⟩
    have hdec : s.decisions = [] := h.rinv.inv.wf.root_dec hr
    have hdl : ∀ α : Asg, α.all s.decisions := fun α => by rw [hdec]; intro l hl; cases hl
    have himp : ∀ α x, ModelZ Z { s with th := s.th.defVar l } U α x → ∀ f ∈ (s.th.defVar l).facts, f.holds α (rat x) := by
      intro α x hm f hf
      have hd : x s.th.n = l.eval 1 x := hm.defs (s.th.n, l) List.mem_cons_self
      have hB := h.boundL (hkeep α x hm) (hdl α) l
      rw [← hd] at hB
      rcases List.mem_cons.mp hf with rfl | hf
      · exact fun _ => hB.1
      · rcases List.mem_cons.mp hf with rfl | hf
        · exact fun _ => hB.2
        · exact h.imp α x (hkeep α x hm) f hf
    refine ⟨⟨h.theory hM ⟨rfl, ?_, h.ti.exp.defVar hg l, ?_, hfl', Fs, hg'⟩ h.fresh h.pos h.eps ?_ ?_ ?_ himp, Sat.Mild.of_eq rfl (Nat.le_refl _) rfl rfl rfl, Nat.le_succ _, rfl, rfl, Nat.le_refl _, hkeep, ?_⟩, Nat.lt_succ_self _,
      fun α x hm => hm.defs (s.th.n, l) List.mem_cons_self, rfl, rfl⟩
    · intro v l' hl'
      have hl' : upd s.th.row s.th.n (some l) v = some l' := hl'
      by_cases e : v = s.th.n
      · subst e; rw [upd_self] at hl'; cases hl'; exact hk
      · rw [upd_ne _ _ e] at hl'; exact h.ti.k0 v l' hl'
    · exact h.ti.len
    · intro f hf
      rcases List.mem_cons.mp hf with rfl | hf
      · exact h.nvars_pos
      · rcases List.mem_cons.mp hf with rfl | hf
        · exact h.nvars_pos
        · exact h.flit f hf
    · intro d hd
      rcases List.mem_cons.mp hd with rfl | hd
      · exact ⟨Nat.lt_succ_self _, fun w hw => Nat.lt_succ_of_lt (hvk w hw).1⟩
      · exact ⟨Nat.lt_succ_of_lt (h.dvar d hd).1, fun w hw => Nat.lt_succ_of_lt ((h.dvar d hd).2 w hw)⟩
    · exact fun f hf => ⟨(h.uvar f hf).1, Nat.lt_succ_of_lt (h.uvar f hf).2⟩
    · intro α x hm
      have hne : ∀ v, v < s.th.n → upd x s.th.n (l.eval 1 x) v = x v := fun v hv => upd_ne _ _ (Nat.ne_of_lt hv)
      have hdef := (h.mod hm).defs
      refine ⟨α, upd x s.th.n (l.eval 1 x), fun _ _ => rfl, hne, hm.zero, hm.posted, fun b a hb => ?_, fun d hd => ?_, fun f hf => ?_, hm.rest⟩
      · have := hm.lits b a hb
        have hx := (hg.tab.regs b a hb).2
        unfold Asrt.says at this ⊢
        rw [hne _ hx]
        exact this
      · rcases List.mem_cons.mp hd with rfl | hd
        · show upd x s.th.n (l.eval 1 x) s.th.n = _
          rw [upd_self]
          exact eval_congr' (fun v hv => (hne v (hvk v hv).1).symm)
        · rw [hne _ (h.dvar d hd).1, hm.defs d hd]
          exact eval_congr' (fun v hv => (hne v ((h.dvar d hd).2 v hv)).symm)
      · refine (fact_val ?_).mp (hm.user f hf)
        unfold rat
        rw [hne _ (h.uvar f hf).2]

/-- Registration of an assertion on a fresh variable of the core. -/
theorem register_adds (h : SInv L Z s U) {R : Rel4} {y : Nat} {kt : ℚ} (hy : y < s.th.n) :
    Adds L Z U s { (s.newVar.1.bind s.newVar.2 0) with th := s.th.addAsrt ⟨R.le, s.newVar.2, y, R.bound kt⟩ } ⟨s.newVar.2, true⟩ (fun x => R.holds (x y) (-kt)) := by
  have hw := h.rinv.inv.wf
  have hf : s.th.vas s.nvars = none := by
    cases hx : s.th.vas s.nvars with
    | none => rfl
    | some a => exact absurd (h.fresh _ _ hx) (Nat.lt_irrefl _)
  obtain ⟨Fs, hg⟩ := h.ti.good
  have hv2 : s.newVar.2 = s.nvars := by rw [Sat.newVar_eq hw]
  have hth : (s.newVar.1.bind s.newVar.2 0).th = s.th := by rw [Sat.newVar_eq hw]; rfl
  have hnv : (s.newVar.1.bind s.newVar.2 0).nvars = s.nvars + 1 := by rw [Sat.newVar_eq hw]; rfl
  have hpo : (s.newVar.1.bind s.newVar.2 0).posted = s.posted := by rw [Sat.newVar_eq hw]; rfl
  have hde : (s.newVar.1.bind s.newVar.2 0).decisions = s.decisions := by rw [Sat.newVar_eq hw]; rfl
  have hro : (s.newVar.1.bind s.newVar.2 0).root = s.root := by rw [Sat.newVar_eq hw]; rfl
  have hri : (s.newVar.1.bind s.newVar.2 0).RInv (lraC L Z (sig s.th)) := by
    have a := Sat.step_rinv (E := stdEnv) (op := .newVar) h.rinv (fun e => by cases e) rfl
    exact Sat.step_rinv (E := stdEnv) (op := .bind s.newVar.2 0) a (fun e => by cases e) rfl
  have hmi : s.Mild (s.newVar.1.bind s.newVar.2 0) := (Sat.newVar_mild hw).trans (Sat.Mild.of_eq rfl (Nat.le_refl _) rfl rfl rfl)
  rw [hv2] at *
  generalize s.newVar.1.bind s.nvars 0 = u at *
  have hvd' : ∀ v a, (s.th.addAsrt ⟨R.le, s.nvars, y, R.bound kt⟩).vas v = some a ↔ (v = s.nvars ∧ a = ⟨R.le, s.nvars, y, R.bound kt⟩) ∨ s.th.vas v = some a := by
    intro v a
    simp only [addAsrt, upd]
    split
    · next e =>
      subst e
      rw [hf]
      constructor
      · intro e; injection e with e; exact Or.inl ⟨rfl, e.symm⟩
      · rintro (⟨_, rfl⟩ | e)
        · rfl
        · cases e
    · next e =>
      constructor
      · exact Or.inr
      · rintro (⟨e', _⟩ | e')
        · exact absurd e' e
        · exact e'
  have hkeep : ∀ α x, ModelZ Z { u with th := s.th.addAsrt ⟨R.le, s.nvars, y, R.bound kt⟩ } U α x → ModelZ Z s U α x := fun α x hm =>
    ⟨hm.zero, fun D hD => hm.posted D (by show D ∈ u.posted; rw [hpo]; exact hD), fun v a hv => hm.lits v a ((hvd' v a).mpr (Or.inr hv)), hm.defs, hm.user, hm.rest⟩
  have hM : ∀ α X, Mod (s.th.addAsrt ⟨R.le, s.nvars, y, R.bound kt⟩) α X → Mod s.th α X := fun α X hm =>
    ⟨hm.zero, fun b a hb => hm.asrt b a ((hvd' b a).mpr (Or.inr hb)), hm.defs, hm.fact⟩
  have hti := hri.inv.ti
  have hti : TI (sig s.th) u.th u.dl u.tru := hti
  obtain ⟨Fs', hg'⟩ := hti.good
  have hlen := hti.len
  have hfl' := hti.fl
  rw [hth] at hg' hlen hfl'
  refine ⟨⟨⟨?_, ?_, ?_, ?_, ?_, ?_, ?_, ?_, ?_⟩, ⟨hmi.dl, hmi.nv, hmi.up, hmi.low, hmi.new, hmi.pen⟩, Nat.le_refl _, hde, hro, ?_, hkeep, ?_⟩, ?_, ?_⟩
  · refine hri.theory (C' := lraC L Z (sig (s.th.addAsrt ⟨R.le, s.nvars, y, R.bound kt⟩))) (fun α hα => ?_) ?_
    · obtain ⟨⟨x, hx⟩, hz⟩ := hα
      refine ⟨?_, hz⟩
      show Th u.th α
      rw [hth]
      exact ⟨x, hM α _ hx⟩
    · exact ⟨rfl, h.ti.k0, h.ti.exp.addAsrt hf, hlen, hfl', Fs', hg'.addAsrt hf hy⟩
  · intro b a hb
    show b < u.nvars
    rw [hnv]
    rcases (hvd' b a).mp hb with ⟨e, _⟩ | hb
    · rw [e]; exact Nat.lt_succ_self _
    · exact Nat.lt_succ_of_lt (h.fresh b a hb)
  · intro b a hb
    rcases (hvd' b a).mp hb with ⟨e, _⟩ | hb
    · rw [e]; exact h.nvars_pos
    · exact h.pos b a hb
  · intro b a hb
    rcases (hvd' b a).mp hb with ⟨_, e⟩ | hb
    · rw [e]; exact bound_ok R _ _ _
    · exact h.eps b a hb
  · intro f hf
    show _ < u.nvars
    rw [hnv]
    exact Nat.lt_succ_of_lt (h.flit f hf)
  · exact h.dvar
  · intro f hf
    refine ⟨?_, (h.uvar f hf).2⟩
    show _ < u.nvars
    rw [hnv]
    exact Nat.lt_succ_of_lt (h.uvar f hf).1
  · intro α β hab
    refine h.zloc α β (fun v hv => hab v ?_)
    show v < u.nvars
    rw [hnv]; exact Nat.lt_succ_of_lt hv
  · exact fun α x hm => h.imp α x (hkeep α x hm)
  · show s.nvars ≤ u.nvars
    rw [hnv]; exact Nat.le_succ _
  · intro α x hm
    classical
    have hag : Asg.agree s.nvars α (upd α s.nvars (decide (R.holds (x y) (-kt)))) := by
      intro v hv
      rw [upd_ne _ _ (Nat.ne_of_lt hv)]
    refine ⟨_, x, hag, fun _ _ => rfl, ?_, fun D hD => ?_, fun v a hv => ?_, hm.defs, fun f hf => (fact_agree hag (h.uvar f hf).1 _).mp (hm.user f hf), h.zloc _ _ hag hm.rest⟩
    · rw [← hag 0 h.nvars_pos]; exact hm.zero
    · have hD : D ∈ u.posted := hD
      rw [hpo] at hD
      obtain ⟨l, hl, hs⟩ := hm.posted D hD
      refine ⟨l, hl, ?_⟩
      unfold Asg.sat at hs ⊢
      rw [← hag _ (h.rinv.inv.prng D hD l hl)]
      exact hs
    · rcases (hvd' v a).mp hv with ⟨rfl, rfl⟩ | hv
      · rw [upd_self, says_iff]; simp
      · rw [← hag v (h.fresh v a hv)]
        exact hm.lits v a hv
  · show s.nvars < u.nvars
    rw [hnv]; exact Nat.lt_succ_self _
  · intro α x hm _
    rw [← says_iff R s.nvars y kt x]
    exact hm.lits _ _ ((hvd' _ _).mpr (Or.inl ⟨rfl, rfl⟩))

theorem Grows.then {s1 s2 s3 : Sat LRA} {p : Lit} {R R' : (Nat → ℚ) → Prop} (h1 : Grows L Z U s1 s2) (h2 : Adds L Z U s2 s3 p R)
    (hR : ∀ α x, ModelZ Z s3 U α x → α.all s1.decisions → (R x ↔ R' x)) : Adds L Z U s1 s3 p R' :=
  { h1.trans h2.toGrows with
    var := h2.var
    means := fun α x hm hd => (h2.means α x hm (by rw [h1.dec]; exact hd)).trans (hR α x hm hd) }

/-- `new_lt`, `new_leq`, `new_geq`, `new_gt` -/
theorem newRel_adds (h : SInv L Z s U) {R : Rel4} {l r : Lin} {p : Lit} (hl : l.Canon) (hr : r.Canon) (hvl : ∀ w ∈ keys l.vars, w < s.th.n)
    (hvr : ∀ w ∈ keys r.vars, w < s.th.n) (hn : newRel R s l r = .ok (s', p)) : Adds L Z U s s' p (fun x => R.holds (l.eval 1 x) (r.eval 1 x)) := by
  obtain ⟨Fs, hg⟩ := h.ti.good
  obtain ⟨hc, hk, he⟩ := diffExpr_spec hg hl hr hvl hvr
  unfold newRel at hn
  simp only at hn
  generalize s.th.diffExpr l r = e at hc hk he hn
  have hz : ∀ α x, ModelZ Z s U α x → l.eval 1 x - r.eval 1 x = (⟨e.vars, 0⟩ : Lin).eval 1 x + e.kt := by
    intro α x hm
    have h1 := he _ (h.mod hm).defs
    rw [eval_rat, eval_rat, eval_rat] at h1
    have h2 : e.eval 1 x = l.eval 1 x - r.eval 1 x := congrArg (fun a : IQ => (ofLex a).1) h1
    rw [← h2]
    simp [Lin.eval]
  have hR : ∀ a b c k : ℚ, a - b = c + k → (R.holds c (-k) ↔ R.holds a b) := by
    intro a b c k hh
    cases R <;> simp only [Rel4.holds] <;> constructor <;> intro <;> linarith
  have hc0 : (⟨e.vars, 0⟩ : Lin).Canon := hc
  split at hn
  · cases hn
  · split at hn
    · next ht =>
      injection hn with hn; injection hn with e1 e2; subst e1 e2
      refine (Grows.refl h).adds h.nvars_pos (fun α x hm hd => ?_)
      rw [← hR _ _ _ _ (hz α x hm), ← test_sound ht (h.boundL hm hd _)]
      simp [hm.yes]
    · next ht =>
      injection hn with hn; injection hn with e1 e2; subst e1 e2
      refine (Grows.refl h).adds h.nvars_pos (fun α x hm hd => ?_)
      rw [← hR _ _ _ _ (hz α x hm), ← test_sound ht (h.boundL hm hd _)]
      simp [hm.no]
    · split at hn
      · cases hn
      · next t y hnv =>
        obtain ⟨g, hy, hval, hvas, hsas⟩ := newVarL_grows h hc0 (fun w hw => (hk w hw).2) rfl hnv
        have hm' : ∀ α x, ModelZ Z { s with th := t } U α x → (R.holds (x y) (-e.kt) ↔ R.holds (l.eval 1 x) (r.eval 1 x)) := fun α x hm => by
          rw [hval α x hm]
          exact hR _ _ _ _ (hz α x (g.keeps α x hm))
        split at hn
        · next ht =>
          injection hn with hn; injection hn with e1 e2; subst e1 e2
          refine g.adds g.sinv.nvars_pos (fun α x hm hd => ?_)
          rw [← hm' α x hm, ← test_sound ht (g.sinv.bound hm hd y)]
          simp [hm.yes]
        · next ht =>
          injection hn with hn; injection hn with e1 e2; subst e1 e2
          refine g.adds g.sinv.nvars_pos (fun α x hm hd => ?_)
          rw [← hm' α x hm, ← test_sound ht (g.sinv.bound hm hd y)]
          simp [hm.no]
        · split at hn
          · next q hq =>
            injection hn with hn; injection hn with e1 e2; subst e1 e2
            obtain ⟨a, b⟩ := g.sinv.ti.exp.sa _ _ _ _ (lookup_mem' hq)
            refine g.adds (g.sinv.fresh _ _ b) (fun α x hm hd => ?_)
            rw [← hm' α x hm, ← says_iff R q.var y e.kt x, ← hm.lits _ _ b]
            unfold Asg.sat
            rw [a]
          · next hq =>
            injection hn with hn; injection hn with e1 e2; subst e1 e2
            have := register_adds (s := { s with th := t }) g.sinv (R := R) (kt := e.kt) hy
            exact g.then this (fun α x hm hd => hm' α x (this.keeps α x hm))

end LRA
end Semitone
