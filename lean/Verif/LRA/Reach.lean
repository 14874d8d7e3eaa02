import Verif.LRA.Sys

/-!
# Reachable states of a core with the linear-arithmetic theory
-/
namespace Semitone
namespace LRA
open Lin
variable {L : LEnv} {Z : Asg → Prop} {s s' : Sat LRA} {U : List Fact}

/-- The conjunction of two literals of existing constraints. -/
theorem newConj_adds {E : Env} {l1 l2 p : Lit} (h : SInv L Z s U) (hn : s.newConj E [l1, l2] = .ok (s', p)) {R1 R2 : (Nat → ℚ) → Prop}
    (h1 : ∀ α x, ModelZ Z s U α x → α.all s.decisions → (α.sat l1 ↔ R1 x)) (h2 : ∀ α x, ModelZ Z s U α x → α.all s.decisions → (α.sat l2 ↔ R2 x)) :
    Adds L Z U s s' p (fun x => R1 x ∧ R2 x) := by
  obtain ⟨hr, hv⟩ := Sat.newConj_pre hn
  obtain ⟨s1, r, a, b⟩ := Sat.newConj_spec (E := E) h.rinv.inv hr hv
  rw [hn] at a
  injection a with a; injection a with e1 e2
  subst e1 e2
  have hth := b.defd.rstep.th
  have hk : ∀ α x, ModelZ Z s' U α x → ModelZ Z s U α x := fun α x hm =>
    ⟨hm.zero, fun D hD => hm.posted D (b.defd.rstep.posted D hD), fun v a hv => hm.lits v a (by rw [hth]; exact hv), by rw [← hth]; exact hm.defs, hm.user, hm.rest⟩
  have hs' : SInv L Z s' U := by
    refine ⟨by rw [hth]; exact b.defd.rinv h.rinv, fun v a hv' => ?_, by rw [hth]; exact h.pos, by rw [hth]; exact h.eps, fun f hf => ?_, by rw [hth]; exact h.dvar, fun f hf => ?_, fun α β hab => h.zloc α β (fun v hv => hab v (hv.trans_le b.defd.rstep.nv)), fun α x hm => ?_⟩
    · rw [hth] at hv'
      exact (h.fresh v a hv').trans_le b.defd.rstep.nv
    · rw [hth] at hf
      exact (h.flit f hf).trans_le b.defd.rstep.nv
    · exact ⟨(h.uvar f hf).1.trans_le b.defd.rstep.nv, by rw [hth]; exact (h.uvar f hf).2⟩
    · rw [hth]; exact h.imp α x (hk α x hm)
  refine ⟨⟨hs', b.defd.rstep.mild (Sat.newConj_quiet hn) h.rinv.inv.wf hr, by rw [hth], b.defd.rstep.dec, b.defd.rstep.root, b.defd.rstep.nv, hk, fun α x hm => ?_⟩, b.var, fun α x hm hd => ?_⟩
  · obtain ⟨β, hab, hβ⟩ := b.ext h.local α (h.sol hm)
    refine ⟨β, x, hab, fun _ _ => rfl, hβ.1, hβ.2.1, fun v a hv' => ?_, by rw [hth]; exact hm.defs, fun f hf => (fact_agree hab (h.uvar f hf).1 _).mp (hm.user f hf), hβ.2.2.2⟩
    rw [hth] at hv'
    rw [← hab v (h.fresh v a hv')]
    exact hm.lits v a hv'
  · have hsol' : s'.Sol (lraC L Z (sig s.th)).Th α := by rw [← hth]; exact hs'.sol hm
    rw [b.rel α hsol', ← h1 α x (hk α x hm) hd, ← h2 α x (hk α x hm) hd]
    simp [Asg.all]

/-- `new_eq` -/
theorem newEqL_adds {E : Env} (h : SInv L Z s U) {l r : Lin} {p : Lit} (hl : l.Canon) (hr : r.Canon) (hvl : ∀ w ∈ keys l.vars, w < s.th.n)
    (hvr : ∀ w ∈ keys r.vars, w < s.th.n) (hn : newEqL E s l r = .ok (s', p)) : Adds L Z U s s' p (fun x => l.eval 1 x = r.eval 1 x) := by
  unfold newEqL at hn
  split at hn
  · cases hn
  · next s1 p1 h1 =>
    have a1 := newRel_adds h hl hr hvl hvr h1
    split at hn
    · cases hn
    · next s2 p2 h2 =>
      have a2 := newRel_adds a1.sinv hl hr (fun w hw => (hvl w hw).trans_le a1.n) (fun w hw => (hvr w hw).trans_le a1.n) h2
      have a3 := newConj_adds (E := E) a2.sinv hn (R1 := fun x => Rel4.geq.holds (l.eval 1 x) (r.eval 1 x)) (R2 := fun x => Rel4.leq.holds (l.eval 1 x) (r.eval 1 x))
        (fun α x hm hd => a1.means α x (a2.keeps α x hm) (by rw [← a1.dec, ← a2.dec]; exact hd)) (fun α x hm hd => a2.means α x hm (by rw [← a2.dec]; exact hd))
      refine (a1.toGrows.trans a2.toGrows).then a3 (fun α x _ _ => ?_)
      simp only [Rel4.holds]
      exact ⟨fun ⟨a, b⟩ => le_antisymm b a, fun e => ⟨e.ge, e.le⟩⟩

/-! ### Bounds imposed by the user -/

/-- A bound is imposed: the ghost remembers it. -/
def note (s : Sat LRA) (f : Fact) : Sat LRA := { s with th := { s.th with facts := f :: s.th.facts } }

/-- `set_lb` called on the theory attached to the core (`lra_theory.h`, `set_lb`): `none` when it succeeds, else the conflict. -/
def setLbC (E : Env) (L : LEnv) (s : Sat LRA) (x : Nat) (v : IQ) (p : Lit) : Except Err (Sat LRA × Option (List Lit)) :=
  Sat.runAct E ((note s (.lo p x v)).th.assertLower L s.value x v p) (note s (.lo p x v))
/-- `set_ub` called on the theory attached to the core (`lra_theory.h`, `set_ub`). -/
def setUbC (E : Env) (L : LEnv) (s : Sat LRA) (x : Nat) (v : IQ) (p : Lit) : Except Err (Sat LRA × Option (List Lit)) :=
  Sat.runAct E ((note s (.hi p x v)).th.assertUpper L s.value x v p) (note s (.hi p x v))

theorem root_true (h : SInv L Z s U) (hr : s.root = true) {p : Lit} (hp : s.value p = some true) : s.tru 0 p :=
  ⟨hp, by have := h.rinv.inv.wf.level_le p.var; rw [(Sat.root_iff s).1 hr] at this; exact this⟩

theorem note_sinv (h : SInv L Z s U) {f : Fact} (h0 : s.tru 0 f.lit) (h1 : f.lit.var < s.nvars) (h2 : f.var < s.th.n) : SInv L Z (note s f) (f :: U) := by
  have hk : ∀ α x, ModelZ Z (note s f) (f :: U) α x → ModelZ Z s U α x := fun α x hm =>
    ⟨hm.zero, hm.posted, hm.lits, hm.defs, fun g hg => hm.user g (List.mem_cons_of_mem _ hg), hm.rest⟩
  have hfl' : ∀ g ∈ f :: s.th.facts, s.tru 0 g.lit := fun g hg => by
    rcases List.mem_cons.mp hg with rfl | hg
    · exact h0
    · exact h.ti.fl g hg
  obtain ⟨Fs, hg⟩ := h.ti.good
  refine h.theory (fun α X hm => ⟨hm.zero, hm.asrt, hm.defs, fun g hg => hm.fact g (List.mem_cons_of_mem _ hg)⟩) ⟨rfl, h.ti.k0, h.ti.exp.fact, h.ti.len, hfl', Fs, hg.fact⟩ h.fresh h.pos h.eps
    (fun g hg => ?_) h.dvar (fun g hg => ?_) (fun α x hm g hg => ?_)
  · rcases List.mem_cons.mp hg with rfl | hg
    · exact h1
    · exact h.flit g hg
  · rcases List.mem_cons.mp hg with rfl | hg
    · exact ⟨h1, h2⟩
    · exact h.uvar g hg
  · rcases List.mem_cons.mp hg with rfl | hg
    · exact hm.user _ List.mem_cons_self
    · exact h.imp α x (hk α x hm) g hg

theorem note_model {f : Fact} {α : Asg} {x : Nat → ℚ} : ModelZ Z (note s f) (f :: U) α x ↔ ModelZ Z s U α x ∧ f.holds α (rat x) := by
  constructor
  · exact fun hm => ⟨⟨hm.zero, hm.posted, hm.lits, hm.defs, fun g hg => hm.user g (List.mem_cons_of_mem _ hg), hm.rest⟩, hm.user f List.mem_cons_self⟩
  · rintro ⟨hm, hf⟩
    refine ⟨hm.zero, hm.posted, hm.lits, hm.defs, fun g hg => ?_, hm.rest⟩
    rcases List.mem_cons.mp hg with rfl | hg
    · exact hf
    · exact hm.user g hg

/-- The theory acts at root level on its own initiative. -/
theorem act_sinv {E : Env} (h : SInv L Z s U) (hr : s.root = true) {act : TAct LRA} (ha : ActOK Th (TI (sig s.th)) s.th s.dl s.tru act) {r : Option (List Lit)}
    (hn : Sat.runAct E act s = .ok (s', r)) :
    SInv L Z s' U ∧ s.Mild s' ∧ s'.root = true ∧ s'.nvars = s.nvars ∧ sig s'.th = sig s.th ∧ (∀ α x, ModelZ Z s' U α x ↔ ModelZ Z s U α x) ∧ (r ≠ none → ∀ α x, ¬ ModelZ Z s' U α x) := by
  have k := Sat.runAct_spec (lraC L Z (sig s.th)) True act s s' r h.rinv.inv.wf (fun _ => ⟨h.rinv.inv.sem, ha.restrict Z⟩) hn
  obtain ⟨k1, k2, k3⟩ := k.sem trivial
  have hsig : sig s'.th = sig s.th := TI.sig k2
  have hvas : s'.th.vas = s.th.vas := congrArg Sig.vas hsig
  have hdefs : s'.th.defs = s.th.defs := congrArg Sig.defs hsig
  have hfacts : s'.th.facts = s.th.facts := congrArg Sig.facts hsig
  have hnn : s'.th.n = s.th.n := congrArg Sig.n hsig
  have hpo := k.evo.posted
  have hnv := k.evo.nv
  have hdl0 : s.dl = 0 := (Sat.root_iff s).mp hr
  have hdl : s'.dl = 0 := k.dl.trans hdl0
  have hroot : s'.root = true := by
    rw [Sat.root_iff]
    exact hdl
  have hM : ∀ α x, ModelZ Z s' U α x ↔ ModelZ Z s U α x := fun α x =>
    ⟨fun hm => ⟨hm.zero, by rw [← hpo]; exact hm.posted, by rw [← hvas]; exact hm.lits, by rw [← hdefs]; exact hm.defs, hm.user, hm.rest⟩,
     fun hm => ⟨hm.zero, by rw [hpo]; exact hm.posted, by rw [hvas]; exact hm.lits, by rw [hdefs]; exact hm.defs, hm.user, hm.rest⟩⟩
  have hsol : ∀ α, s'.Sol (lraC L Z (sig s.th)).Th α ↔ s.Sol (lraC L Z (sig s.th)).Th α := Sat.Sol.congr hpo k3
  have hri : s'.RInv (lraC L Z (sig s.th)) := by
    refine ⟨⟨k.wf, k1, k2, fun hx => absurd hdl hx, by rw [hpo, hnv]; exact h.rinv.inv.prng, h.rinv.inv.cache.congr k.evo.exprs hnv (fun α => (hsol α).mp)⟩, ?_, ?_⟩
    · rw [k.dead]
      exact fun hx α hα => h.rinv.dead hx α ((hsol α).mp hα)
    · rw [k.dead, hpo]
      rcases h.rinv.link with h1 | h1
      · exact Or.inl h1
      · refine Or.inr (fun D hD => ?_)
        rcases h1 D hD with ⟨l, hl, hv, hl0⟩ | h2 | h2
        · refine Or.inl ⟨l, hl, ?_, ?_⟩
          · rw [Sat.value_true] at hv ⊢
            rw [(k.evo.low l.var (by rw [hv]; simp) (by rw [hl0]; exact Nat.zero_le _)).1]
            exact hv
          · rw [(k.evo.low l.var (by rw [Sat.value_true] at hv; rw [hv]; simp) (by rw [hl0]; exact Nat.zero_le _)).2.1]
            exact hl0
        · exact Or.inr (Or.inl h2)
        · exact Or.inr (Or.inr (k.sub D h2))
  have hs' : SInv L Z s' U := by
    refine ⟨by rw [hsig]; exact hri, by rw [hvas, hnv]; exact h.fresh, by rw [hvas]; exact h.pos, by rw [hvas]; exact h.eps, by rw [hfacts, hnv]; exact h.flit, by rw [hdefs, hnn]; exact h.dvar,
      by rw [hnv, hnn]; exact h.uvar, by rw [hnv]; exact h.zloc, fun α x hm => by rw [hfacts]; exact h.imp α x ((hM α x).mp hm)⟩
  refine ⟨hs', k.mild (Sat.runAct_quiet hn) h.rinv.inv.wf hr, hroot, hnv, hsig, hM, fun hne α x hm => ?_⟩
  cases r with
  | none => exact hne rfl
  | some cl =>
    obtain ⟨a, b⟩ := k.cl trivial cl rfl
    obtain ⟨q, hq, hs⟩ := a α ((hsol α).mpr (h.sol ((hM α x).mp hm)))
    have hf := b q hq
    have ht : s'.value q.neg = some true := by rw [Sat.value_neg, hf]; rfl
    have hd : α.all s'.decisions := by rw [k.wf.root_dec hroot]; intro l hl; cases hl
    exact (Asg.sat_neg α q).mp (hs'.true hm hd ht) hs

theorem setLbC_sinv {E : Env} (h : SInv L Z s U) (hr : s.root = true) {x : Nat} {v : IQ} {p : Lit} (hx : x < s.th.n) (hp : s.value p = some true) {r : Option (List Lit)}
    (hn : setLbC E L s x v p = .ok (s', r)) :
    SInv L Z s' (.lo p x v :: U) ∧ s.Mild s' ∧ (∀ α y, ModelZ Z s' (.lo p x v :: U) α y ↔ ModelZ Z s U α y ∧ Fact.holds (.lo p x v) α (rat y)) ∧ (r ≠ none → ∀ α y, ¬ ModelZ Z s' (.lo p x v :: U) α y) ∧ s'.th.facts = .lo p x v :: s.th.facts ∧ s'.th.vas = s.th.vas := by
  have hpv : p.var < s.nvars := h.rinv.inv.wf.rng _ (by rw [Sat.value_true] at hp; rw [hp]; simp)
  have hs0 := note_sinv h (f := .lo p x v) (root_true h hr hp) hpv hx
  have hlen := hs0.ti.len
  obtain ⟨Fs, hg⟩ := hs0.ti.good
  obtain ⟨F, Gs, rfl⟩ := hg.fs
  have hw := hs0.rinv.inv.wf
  have htru := hw.tru_iff
  have hv : (note s (.lo p x v)).value = s.value := rfl
  have hval := assertLower_valid L hg (val := s.value) (v := v) (p := p) hx (fun q => Sat.value_neg s q) (fun q hq => (htru q).mp (by rw [← hlen]; exact hq))
    (by rw [hlen]; exact (htru p).mpr hp) (fun α X hm hs => WithBot.coe_le_coe.mp (hm.fact (.lo p x v) List.mem_cons_self hs))
  have key : ∀ t' Fs', Good t' (note s (.lo p x v)).tru Fs' ∧ Same (note s (.lo p x v)).th t' →
      TI (sig (note s (.lo p x v)).th) t' (note s (.lo p x v)).dl (note s (.lo p x v)).tru ∧ ∀ α, Th t' α ↔ Th (note s (.lo p x v)).th α := by
    rintro t' Fs' ⟨hg', hs⟩
    exact ⟨⟨hs.sig, fun v l hl => hs0.ti.k0 v l (by rw [← hs.row]; exact hl), hs0.ti.exp.same hs, hs.lay.trans hlen, by rw [hs.facts]; exact hs0.ti.fl, Fs', hg'⟩, th_of_sig hs.sig⟩
  have hact := actOK_of hval (fun cl hcl α ⟨x, hx⟩ => hcl hs0.ti.k0 α _ hx) (fun t' h' => key t' _ h') (fun t' h' => key t' _ h') (fun q => Sat.value_neg s q) _ (fun _ _ _ h => h) htru
  obtain ⟨a, hmi, _, _, e, c, d⟩ := act_sinv hs0 hr hact hn
  refine ⟨a, ⟨hmi.dl, hmi.nv, hmi.up, hmi.low, hmi.new, hmi.pen⟩, fun α y => ?_, d, congrArg Sig.facts e, congrArg Sig.vas e⟩
  rw [c α y]
  exact note_model

theorem setUbC_sinv {E : Env} (h : SInv L Z s U) (hr : s.root = true) {x : Nat} {v : IQ} {p : Lit} (hx : x < s.th.n) (hp : s.value p = some true) {r : Option (List Lit)}
    (hn : setUbC E L s x v p = .ok (s', r)) :
    SInv L Z s' (.hi p x v :: U) ∧ s.Mild s' ∧ (∀ α y, ModelZ Z s' (.hi p x v :: U) α y ↔ ModelZ Z s U α y ∧ Fact.holds (.hi p x v) α (rat y)) ∧ (r ≠ none → ∀ α y, ¬ ModelZ Z s' (.hi p x v :: U) α y) ∧ s'.th.facts = .hi p x v :: s.th.facts ∧ s'.th.vas = s.th.vas := by
  have hpv : p.var < s.nvars := h.rinv.inv.wf.rng _ (by rw [Sat.value_true] at hp; rw [hp]; simp)
  have hs0 := note_sinv h (f := .hi p x v) (root_true h hr hp) hpv hx
  have hlen := hs0.ti.len
  obtain ⟨Fs, hg⟩ := hs0.ti.good
  obtain ⟨F, Gs, rfl⟩ := hg.fs
  have hw := hs0.rinv.inv.wf
  have htru := hw.tru_iff
  have hv : (note s (.hi p x v)).value = s.value := rfl
  have hval := assertUpper_valid L hg (val := s.value) (v := v) (p := p) hx (fun q => Sat.value_neg s q) (fun q hq => (htru q).mp (by rw [← hlen]; exact hq))
    (by rw [hlen]; exact (htru p).mpr hp) (fun α X hm hs => WithTop.coe_le_coe.mp (hm.fact (.hi p x v) List.mem_cons_self hs))
  have key : ∀ t' Fs', Good t' (note s (.hi p x v)).tru Fs' ∧ Same (note s (.hi p x v)).th t' →
      TI (sig (note s (.hi p x v)).th) t' (note s (.hi p x v)).dl (note s (.hi p x v)).tru ∧ ∀ α, Th t' α ↔ Th (note s (.hi p x v)).th α := by
    rintro t' Fs' ⟨hg', hs⟩
    exact ⟨⟨hs.sig, fun v l hl => hs0.ti.k0 v l (by rw [← hs.row]; exact hl), hs0.ti.exp.same hs, hs.lay.trans hlen, by rw [hs.facts]; exact hs0.ti.fl, Fs', hg'⟩, th_of_sig hs.sig⟩
  have hact := actOK_of hval (fun cl hcl α ⟨x, hx⟩ => hcl hs0.ti.k0 α _ hx) (fun t' h' => key t' _ h') (fun t' h' => key t' _ h') (fun q => Sat.value_neg s q) _ (fun _ _ _ h => h) htru
  obtain ⟨a, hmi, _, _, e, c, d⟩ := act_sinv hs0 hr hact hn
  refine ⟨a, ⟨hmi.dl, hmi.nv, hmi.up, hmi.low, hmi.new, hmi.pen⟩, fun α y => ?_, d, congrArg Sig.facts e, congrArg Sig.vas e⟩
  rw [c α y]
  exact note_model

theorem setLbC_model {E : Env} (h : SInv L Z s U) (hr : s.root = true) {x : Nat} {v : IQ} {p : Lit} (hx : x < s.th.n) (hp : s.value p = some true) {r : Option (List Lit)}
    (hn : setLbC E L s x v p = .ok (s', r)) (α : Asg) (y : Nat → ℚ) : ModelZ Z s' (.lo p x v :: U) α y ↔ ModelZ Z s U α y ∧ Fact.holds (.lo p x v) α (rat y) :=
  (setLbC_sinv h hr hx hp hn).2.2.1 α y
theorem setUbC_model {E : Env} (h : SInv L Z s U) (hr : s.root = true) {x : Nat} {v : IQ} {p : Lit} (hx : x < s.th.n) (hp : s.value p = some true) {r : Option (List Lit)}
    (hn : setUbC E L s x v p = .ok (s', r)) (α : Asg) (y : Nat → ℚ) : ModelZ Z s' (.hi p x v :: U) α y ↔ ModelZ Z s U α y ∧ Fact.holds (.hi p x v) α (rat y) :=
  (setUbC_sinv h hr hx hp hn).2.2.1 α y

/-! ### Histories -/

/-- The states of a core with the linear-arithmetic theory that sequences of successful calls lead to; `U` are the bounds imposed with `set_lb` and `set_ub`.
`new_var(l)` is called without a known term and over variables that are not basic (see `C38_witness`, `C42_witness` for what happens otherwise); the relational
constructors are called on any expressions over existing variables; bounds are imposed at root level. -/
inductive AReach (E : Env) (L : LEnv) : Sat LRA → List Fact → Prop
  | init : AReach E L (Sat.init LRA.init) []
  | step {s s' : Sat LRA} {U : List Fact} {op out} : AReach E L s U → (op = .simplify → ∀ u, s.propagate E (ops L) = .ok (u, true) → u.Fix u.okQ) →
      s.step E (ops L) op = .ok (s', out) → AReach E L s' U
  | newVar {s : Sat LRA} {U : List Fact} : AReach E L s U → AReach E L { s with th := s.th.newVar.1 } U
  | newVarL {s : Sat LRA} {U : List Fact} {l t y} : AReach E L s U → l.Canon → (∀ w ∈ keys l.vars, s.th.row w = none) → l.kt = 0 → s.th.newVarL s.root l = .ok (t, y) →
      AReach E L { s with th := t } U
  | newRel {s s' : Sat LRA} {U : List Fact} {R l r p} : AReach E L s U → l.Canon → r.Canon → (∀ w ∈ keys l.vars, w < s.th.n) → (∀ w ∈ keys r.vars, w < s.th.n) →
      newRel R s l r = .ok (s', p) → AReach E L s' U
  | newEq {s s' : Sat LRA} {U : List Fact} {l r p} : AReach E L s U → l.Canon → r.Canon → (∀ w ∈ keys l.vars, w < s.th.n) → (∀ w ∈ keys r.vars, w < s.th.n) →
      newEqL E s l r = .ok (s', p) → AReach E L s' U
  | setLb {s s' : Sat LRA} {U : List Fact} {x v p} : AReach E L s U → s.root = true → x < s.th.n → s.value p = some true → setLbC E L s x v p = .ok (s', none) → AReach E L s' (.lo p x v :: U)
  | setUb {s s' : Sat LRA} {U : List Fact} {x v p} : AReach E L s U → s.root = true → x < s.th.n → s.value p = some true → setUbC E L s x v p = .ok (s', none) → AReach E L s' (.hi p x v :: U)
  | listen {s : Sat LRA} {U : List Fact} {v l t} : AReach E L s U → s.th.listen v l = .ok t → AReach E L { s with th := t } U

/-- A listener of the theory is registered. -/
theorem listen_sinv (h : SInv L Z s U) {v l : Nat} {t : LRA} (hn : s.th.listen v l = .ok t) : SInv L Z { s with th := t } U := by
  obtain ⟨f, e⟩ := listen_eq hn
  subst e
  obtain ⟨Fs, hg⟩ := h.ti.good
  exact h.theory (fun α X hm => ⟨hm.zero, hm.asrt, hm.defs, hm.fact⟩) ⟨rfl, h.ti.k0, ⟨h.ti.exp.ex, h.ti.exp.sa, h.ti.exp.kk⟩, h.ti.len, h.ti.fl, Fs, hg.lst⟩ h.fresh h.pos h.eps h.flit h.dvar h.uvar
    (fun α x hm => h.imp α x ⟨hm.zero, hm.posted, hm.lits, hm.defs, hm.user, hm.rest⟩)

theorem init_sinv : SInv L anyAsg (Sat.init LRA.init) [] := by
  have hTI : (lraC L anyAsg (sig LRA.init)).TI LRA.init 0 (Sat.init LRA.init).tru := by
    refine ⟨rfl, fun v l hl => by simp [LRA.init] at hl, Exp.init, rfl, (fun f hf => by cases hf), [[]], Good.init ⟨?_, ?_⟩⟩
    · rfl
    · exact Nat.le_refl 0
  refine ⟨⟨Sat.init_inv _ hTI, fun hx => by simp [Sat.init, Sat.newVar] at hx, Or.inr (fun D hD => by simp [Sat.init, Sat.newVar] at hD)⟩, ?_, ?_, ?_, ?_, ?_, ?_, fun _ _ _ _ => trivial, ?_⟩
  · intro b a hb
    have hb : (none : Option Asrt) = some a := hb
    cases hb
  · intro b a hb
    have hb : (none : Option Asrt) = some a := hb
    cases hb
  · intro b a hb
    have hb : (none : Option Asrt) = some a := hb
    cases hb
  · intro f hf
    have hf : f ∈ ([] : List Fact) := hf
    cases hf
  · intro f hf
    have hf : f ∈ ([] : List (Nat × Lin)) := hf
    cases hf
  · intro f hf
    cases hf
  · intro α x _ f hf
    have hf : f ∈ ([] : List Fact) := hf
    cases hf

theorem step_sinv {E : Env} {op : Sat.Op} {out : Sat.Out} (h : SInv L Z s U) (hsf : op = .simplify → ∀ u, s.propagate E (ops L) = .ok (u, true) → u.Fix u.okQ)
    (hs : s.step E (ops L) op = .ok (s', out)) : SInv L Z s' U ∧ (∀ α x, ModelZ Z s' U α x → ModelZ Z s U α x) ∧ sig s'.th = sig s.th := by
  have a := Sat.step_rinv h.rinv hsf hs
  have g := Sat.step_grows h.rinv hsf hs
  have hsig : sig s'.th = sig s.th := TI.sig a.inv.ti
  have hvas : s'.th.vas = s.th.vas := congrArg Sig.vas hsig
  have hdefs : s'.th.defs = s.th.defs := congrArg Sig.defs hsig
  have hfacts : s'.th.facts = s.th.facts := congrArg Sig.facts hsig
  have hnn : s'.th.n = s.th.n := congrArg Sig.n hsig
  have hk : ∀ α x, ModelZ Z s' U α x → ModelZ Z s U α x := fun α x hm =>
    ⟨hm.zero, fun D hD => hm.posted D (g.posted D hD), by rw [← hvas]; exact hm.lits, by rw [← hdefs]; exact hm.defs, hm.user, hm.rest⟩
  refine ⟨⟨by rw [hsig]; exact a, fun b a hb => ?_, by rw [hvas]; exact h.pos, by rw [hvas]; exact h.eps, fun f hf => ?_, by rw [hdefs, hnn]; exact h.dvar, fun f hf => ?_, fun α β hab => h.zloc α β (fun v hv => hab v (hv.trans_le g.nv)), fun α x hm => ?_⟩, hk, hsig⟩
  · rw [hvas] at hb; exact (h.fresh b a hb).trans_le g.nv
  · rw [hfacts] at hf; exact (h.flit f hf).trans_le g.nv
  · rw [hnn]; exact ⟨(h.uvar f hf).1.trans_le g.nv, (h.uvar f hf).2⟩
  · rw [hfacts]; exact h.imp α x (hk α x hm)

theorem AReach.sinv {E : Env} (h : AReach E L s U) : SInv L anyAsg s U := by
  induction h with
  | init => exact init_sinv
  | step _ hsf hs ih => exact (step_sinv ih hsf hs).1
  | newVar _ ih => exact (newVar_grows ih).sinv
  | newVarL _ hc hb hk hn ih => exact (newVarL_grows ih hc hb hk hn).1.sinv
  | newRel _ hl hr hvl hvr hn ih => exact (newRel_adds ih hl hr hvl hvr hn).sinv
  | newEq _ hl hr hvl hvr hn ih => exact (newEqL_adds ih hl hr hvl hvr hn).sinv
  | setLb _ hr hx hp hn ih => exact (setLbC_sinv ih hr hx hp hn).1
  | setUb _ hr hx hp hn ih => exact (setUbC_sinv ih hr hx hp hn).1
  | listen _ hn ih => exact listen_sinv ih hn

/-- The invariant of the core, without anything beside the theory. -/
theorem AReach.rinv {E : Env} (h : AReach E L s U) : s.RInv (lraContract L (sig s.th)) :=
  Sat.RInv.theory (C' := lraContract L (sig s.th)) (t := s.th) h.sinv.rinv (fun _ h => ⟨h, trivial⟩) h.sinv.ti

end LRA
end Semitone
