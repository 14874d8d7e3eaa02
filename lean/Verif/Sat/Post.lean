import Verif.Sat.PropLoop
import Verif.Sat.Filt

/-!
# Posting constraints: `new_var`, `new_clause`
-/
namespace Semitone
namespace Sat
variable {T : Type}

/-- What a cached literal `r` means for the expression of kind `k` over `ls`. -/
def mean (k : Kind) (α : Asg) (ls : List Lit) (r : Lit) : Prop :=
  match k with
  | .conj => α.sat r ↔ α.all ls
  | .disj => α.sat r ↔ α.clause ls
  | .eq => ∀ x y, ls = [x, y] → (α.sat r → (α.sat x ↔ α.sat y)) ∧ (α.sat x → α.sat y → α.sat r)
  | .amo => α.sat r → α.atMostOne ls
  | .exo => α.sat r → α.exactlyOne ls

/-- Every cached literal has the meaning its key says. -/
def Cache (Th : T → Asg → Prop) (s : Sat T) : Prop :=
  ∀ k ls r, (key k ls, r) ∈ s.exprs → (∀ l ∈ ls, l.var < s.nvars) ∧ r.var < s.nvars ∧ ∀ α, s.Sol Th α → mean k α ls r

/-- The invariant of all reachable states. -/
structure Inv {O : TheoryOps T} (C : Contract O) (s : Sat T) : Prop where
  wf : s.WF noEx
  sem : s.Sem C
  ti : s.TInv C
  qr : s.dl ≠ 0 → s.propQ = []
  prng : ∀ D ∈ s.posted, ∀ l ∈ D, l.var < s.nvars
  cache : s.Cache C.Th

/-- How a posted clause is taken care of. -/
def Linked (s : Sat T) (D : List Lit) : Prop :=
  (∃ l ∈ D, s.value l = some true ∧ s.level l.var = 0) ∨ (∃ l ∈ D, l.neg ∈ D) ∨ s.HasSub D

/-- Effect of root-level posting: nothing assigned is lost, no clause is lost. -/
structure RStep (s s' : Sat T) : Prop where
  nv : s.nvars ≤ s'.nvars
  dec : s'.decisions = s.decisions
  lim : s'.trailLim = s.trailLim
  th : s'.th = s.th
  keep : ∀ v, s.assigns v ≠ none → s'.assigns v = s.assigns v ∧ s'.level v = s.level v
  suf : s.trail <:+ s'.trail
  sub : ∀ D, s.HasSub D → s'.HasSub D
  posted : ∀ D ∈ s.posted, D ∈ s'.posted
  exprs : ∀ e ∈ s.exprs, e ∈ s'.exprs

theorem RStep.refl (s : Sat T) : RStep s s :=
  ⟨Nat.le_refl _, rfl, rfl, rfl, fun _ _ => ⟨rfl, rfl⟩, List.suffix_refl _, fun _ h => h, fun _ h => h, fun _ h => h⟩

theorem RStep.trans {s1 s2 s3 : Sat T} (h1 : RStep s1 s2) (h2 : RStep s2 s3) : RStep s1 s3 where
  nv := Nat.le_trans h1.nv h2.nv
  dec := h2.dec.trans h1.dec
  lim := h2.lim.trans h1.lim
  th := h2.th.trans h1.th
  keep := fun v hv => by
    have a := h1.keep v hv
    have b := h2.keep v (by rw [a.1]; exact hv)
    exact ⟨b.1.trans a.1, b.2.trans a.2⟩
  suf := h1.suf.trans h2.suf
  sub := fun D hD => h2.sub D (h1.sub D hD)
  posted := fun D hD => h2.posted D (h1.posted D hD)
  exprs := fun e he => h2.exprs e (h1.exprs e he)

theorem RStep.value {s s' : Sat T} (h : RStep s s') {q : Lit} {b} (hq : s.value q = some b) : s'.value q = some b := by
  rw [value_eq] at hq ⊢
  rw [(h.keep q.var (by rw [hq]; simp)).1]; exact hq

theorem RStep.root {s s' : Sat T} (h : RStep s s') : s'.root = s.root := by simp [Sat.root, h.lim]

theorem RStep.linked {s s' : Sat T} (h : RStep s s') {D} (hD : s.Linked D) : s'.Linked D := by
  rcases hD with ⟨l, hl, h1, h2⟩ | h1 | h1
  · left
    refine ⟨l, hl, h.value h1, ?_⟩
    rw [value_true] at h1
    rw [(h.keep l.var (by rw [h1]; simp)).2]; exact h2
  · exact Or.inr (Or.inl h1)
  · exact Or.inr (Or.inr (h.sub D h1))

/-- Solutions can only be lost by posting. -/
theorem RStep.sol {s s' : Sat T} {Th : T → Asg → Prop} (h : RStep s s') {α} (hα : s'.Sol Th α) : s.Sol Th α :=
  ⟨hα.1, fun D hD => hα.2.1 D (h.posted D hD), by rw [← h.th]; exact hα.2.2⟩

/-! ### new_var -/

theorem newVar_eq {s : Sat T} (hw : s.WF noEx) :
    s.newVar = ({ s with nvars := s.nvars + 1, exprs := ("b" ++ toString s.nvars, ⟨s.nvars, true⟩) :: s.exprs }, s.nvars) := by
  have hun : s.assigns s.nvars = none := by
    by_contra h; have := hw.rng _ h; omega
  have hoff : ∀ q ∈ s.trail, q.var ≠ s.nvars := by
    intro q hq e
    have := hw.tval q hq; rw [e, hun] at this; cases this
  have h1 : upd s.assigns s.nvars none = s.assigns := by
    funext v; by_cases e : v = s.nvars
    · rw [e, upd_self, hun]
    · rw [upd_ne _ _ e]
  have h2 : upd s.level s.nvars 0 = s.level := by
    funext v; by_cases e : v = s.nvars
    · rw [e, upd_self, hw.off _ hoff]
    · rw [upd_ne _ _ e]
  have h3 : upd s.reason s.nvars none = s.reason := by
    funext v; by_cases e : v = s.nvars
    · rw [e, upd_self]
      cases hr : s.reason s.nvars with
      | none => rfl
      | some c => obtain ⟨-, b, rest, hb, -⟩ := hw.rsn _ c hr; rw [hun] at hb; cases hb
    · rw [upd_ne _ _ e]
  have hwat : ∀ b, s.watches ⟨s.nvars, b⟩ = [] := by
    intro b
    rw [List.eq_nil_iff_forall_not_mem]
    intro c hc
    have h4 := hw.wat c ⟨s.nvars, b⟩
    have h5 := List.count_pos_iff.2 hc
    simp only [noEx, List.count_nil, Nat.add_zero] at h4
    by_cases hcc : c ∈ s.constrs
    · rw [if_pos hcc] at h4
      obtain ⟨l0, l1, r, hd⟩ := hw.cln c hcc
      have hr := hw.crng c hcc
      rw [hd] at h4 hr
      have a0 := hr l0 (by simp)
      have a1 := hr l1 (by simp)
      simp only [wc] at h4
      rw [if_neg (fun e => by rw [e] at a0; simp at a0), if_neg (fun e => by rw [e] at a1; simp at a1)] at h4
      omega
    · rw [if_neg hcc] at h4; omega
  have h6 : upd (upd s.watches ⟨s.nvars, false⟩ []) ⟨s.nvars, true⟩ [] = s.watches := by
    funext m
    by_cases e : m = ⟨s.nvars, true⟩
    · rw [e, upd_self, hwat]
    · rw [upd_ne _ _ e]
      by_cases e2 : m = ⟨s.nvars, false⟩
      · rw [e2, upd_self, hwat]
      · rw [upd_ne _ _ e2]
  unfold newVar
  simp only [h1, h2, h3, h6]

/-- `new_var` keeps the invariant; the new variable is unassigned. -/
theorem newVar_spec {O : TheoryOps T} {C : Contract O} {s : Sat T} (h : s.Inv C) :
    s.newVar.1.Inv C ∧ RStep s s.newVar.1 ∧ s.newVar.2 = s.nvars ∧ s.newVar.1.nvars = s.nvars + 1 ∧
      s.newVar.1.assigns s.nvars = none ∧ s.newVar.1.posted = s.posted ∧ s.newVar.1.dead = s.dead ∧
      s.newVar.1.assigns = s.assigns ∧ s.newVar.1.propQ = s.propQ ∧ s.newVar.1.bounds = s.bounds ∧
      s.newVar.1.exprs = ("b" ++ toString s.nvars, ⟨s.nvars, true⟩) :: s.exprs ∧
      (s.Fix s.okQ → s.newVar.1.Fix s.newVar.1.okQ) := by
  rw [newVar_eq h.wf]
  have hw := h.wf
  refine ⟨⟨?_, ⟨h.sem.cls, h.sem.val⟩, h.ti, h.qr, ?_, ?_⟩, ?_, rfl, rfl, ?_, rfl, rfl, rfl, rfl, rfl, rfl, fun hF => ⟨hF.nd, hF.fx⟩⟩
  · exact ⟨by simp, hw.fv, hw.fvt, fun v hv => Nat.lt_succ_of_lt (hw.rng v hv), hw.tval, hw.tnd, hw.off, hw.rsn, hw.trs, hw.tlv, hw.tdc,
      hw.lims, hw.limle, hw.dec, hw.que, hw.cnd, hw.clt, hw.cln, fun c hc l hl => Nat.lt_succ_of_lt (hw.crng c hc l hl), hw.cnc, hw.wat⟩
  · intro D hD l hl; exact Nat.lt_succ_of_lt (h.prng D hD l hl)
  · intro k ls r hm
    rcases List.mem_cons.1 hm with hm | hm
    · injection hm with h1 h2; exact absurd h1 (key_ne_var k ls _)
    · obtain ⟨a, b, c⟩ := h.cache k ls r hm
      exact ⟨fun l hl => Nat.lt_succ_of_lt (a l hl), Nat.lt_succ_of_lt b, c⟩
  · exact ⟨Nat.le_succ _, rfl, rfl, rfl, fun _ _ => ⟨rfl, rfl⟩, List.suffix_refl _, fun _ h => h, fun _ h => h, fun _ h => List.mem_cons_of_mem _ h⟩
  · by_contra hx; have := hw.rng _ hx; omega

/-! ### new_clause -/

/-- Posting more clauses keeps the consequences. -/
theorem Sem.post {O : TheoryOps T} {C : Contract O} {s : Sat T} (h : s.Sem C) (D : List Lit) :
    ({ s with posted := D :: s.posted } : Sat T).Sem C where
  cls := fun c hc α hα => h.cls c hc α ⟨hα.1, fun x hx => hα.2.1 x (by simp [hx]), hα.2.2⟩
  val := fun q hq α hα hd => h.val q hq α ⟨hα.1, fun x hx => hα.2.1 x (by simp [hx]), hα.2.2⟩ hd

theorem Inv.post {O : TheoryOps T} {C : Contract O} {s : Sat T} (h : s.Inv C) {D : List Lit} (hr : ∀ l ∈ D, l.var < s.nvars) :
    ({ s with posted := D :: s.posted } : Sat T).Inv C := by
  refine ⟨h.wf.congr rfl rfl rfl rfl rfl rfl rfl rfl rfl rfl rfl rfl, h.sem.post D, h.ti, h.qr, ?_, ?_⟩
  · intro D' hD'
    rcases List.mem_cons.1 hD' with rfl | hD'
    · exact hr
    · exact h.prng D' hD'
  · intro k ls r hm
    obtain ⟨a, b, c⟩ := h.cache k ls r hm
    exact ⟨a, b, fun α hα => c α ⟨hα.1, fun x hx => hα.2.1 x (by simp [hx]), hα.2.2⟩⟩

/-- A literal false at root level is false in every solution. -/
theorem Inv.root_false {O : TheoryOps T} {C : Contract O} {s : Sat T} (h : s.Inv C) (hr : s.root = true) {q : Lit}
    (hq : s.value q = some false) {α} (hα : s.Sol C.Th α) : ¬ α.sat q := by
  rw [← value_neg_true] at hq
  rw [← α.sat_neg]
  refine (h.sem.val _ hq).mono (h.wf.level_le _) α hα ?_
  intro l hl
  have := h.wf.root_dec hr
  unfold decUpTo at hl; rw [this] at hl; simp at hl

theorem Inv.root_true {O : TheoryOps T} {C : Contract O} {s : Sat T} (h : s.Inv C) (hr : s.root = true) {q : Lit}
    (hq : s.value q = some true) {α} (hα : s.Sol C.Th α) : α.sat q := by
  rw [← value_neg_false] at hq
  have := h.root_false hr hq hα
  rw [α.sat_neg] at this
  exact not_not.1 this

theorem WF.root_level {s : Sat T} {ex} (h : s.WF ex) (hr : s.root = true) (v : Nat) : s.level v = 0 := by
  have := h.level_le v; rw [root_iff] at hr; omega

/-- What `new_clause` guarantees. -/
structure Claused {O : TheoryOps T} (C : Contract O) (s s' : Sat T) (lits : List Lit) (b : Bool) : Prop where
  root : s.root = true
  rng : ∀ l ∈ lits, l.var < s.nvars
  inv : s'.Inv C
  rstep : RStep s s'
  posted : s'.posted = lits :: s.posted
  nv : s'.nvars = s.nvars
  exprs : s'.exprs = s.exprs
  bounds : s'.bounds = s.bounds
  bad : b = false → s'.Unsat C.Th ∧ s'.dead = true
  good : b = true → s'.dead = s.dead ∧ s'.Linked lits
  fix : s.Fix s.okQ → s'.Fix s'.okQ
  quiet : (∃ x ∈ lits, ∃ y ∈ lits, x.var ≠ y.var ∧ s.value x = none ∧ s.value y = none) →
    b = true ∧ s'.assigns = s.assigns ∧ s'.propQ = s.propQ

theorem newClause_spec {E : Env} {O : TheoryOps T} {C : Contract O} {s s' : Sat T} {lits : List Lit} {b : Bool} (h : s.Inv C)
    (hn : s.newClause E lits = .ok (s', b)) : Claused C s s' lits b := by
  unfold newClause at hn
  by_cases hroot : s.root = false
  · rw [if_pos hroot] at hn; cases hn
  rw [if_neg hroot] at hn
  have hroot' : s.root = true := by simpa using hroot
  by_cases hr : s.inRange lits = false
  · rw [if_pos hr] at hn; cases hn
  rw [if_neg hr] at hn
  have hrng : ∀ l ∈ lits, l.var < s.nvars := by
    have : s.inRange lits = true := by simpa using hr
    simpa [inRange] using this
  simp only at hn
  have hP := h.post hrng
  have hRS : RStep s { s with posted := lits :: s.posted } :=
    ⟨Nat.le_refl _, rfl, rfl, rfl, fun _ _ => ⟨rfl, rfl⟩, List.suffix_refl _, fun _ h => h, fun _ h => List.mem_cons_of_mem _ h, fun _ h => h⟩
  have hlim : s.trailLim = [] := by simpa [Sat.root] using hroot'
  match hf : filt true s.value none (E.sortVar lits) with
  | none =>
    simp only [hf] at hn
    injection hn with hn; injection hn with h1 h2; subst h1 h2
    obtain ⟨l, hl, hv⟩ := filt_sorted_none E _ _ _ hf
    refine ⟨hroot', hrng, hP, hRS, rfl, rfl, rfl, rfl, by simp, ?_, fun hF => ⟨hF.nd, hF.fx⟩, fun _ => ⟨rfl, rfl, rfl⟩⟩
    intro _
    refine ⟨rfl, ?_⟩
    rcases hv with hv | hv
    · exact Or.inl ⟨l, hl, hv, h.wf.root_level hroot' _⟩
    · exact Or.inr (Or.inl ⟨l, hl, hv⟩)
  | some out =>
    obtain ⟨a1, a2, a3⟩ := filt_sorted E _ _ _ _ hf
    simp only [Bool.not_true] at a2
    -- the filtered clause is a consequence
    have hent : ({ s with posted := lits :: s.posted } : Sat T).Ent C.Th out := by
      intro α hα
      obtain ⟨l, hl, hs⟩ := hα.2.1 lits (by simp)
      rcases a2 l hl with h1 | h1
      · exact ⟨l, h1, hs⟩
      · exact absurd hs (h.root_false hroot' h1 (hRS.sol hα))
    have hin : ∀ x ∈ lits, s.value x = none → x ∈ out := by
      intro x hx hv
      rcases a2 x hx with h1 | h1
      · exact h1
      · rw [hv] at h1; cases h1
    match out, hn, hf, a1, a3, hent, hin with
    | [], hn, hf, a1, a3, hent, hin =>
      simp only [hf] at hn
      injection hn with hn; injection hn with h1 h2; subst h1 h2
      refine ⟨hroot', hrng, ⟨hP.wf.congr rfl rfl rfl rfl rfl rfl rfl rfl rfl rfl rfl rfl, ⟨hP.sem.cls, hP.sem.val⟩, hP.ti, hP.qr, hP.prng, hP.cache⟩, ⟨hRS.nv, hRS.dec, hRS.lim, hRS.th, hRS.keep, hRS.suf, hRS.sub, hRS.posted, hRS.exprs⟩, rfl, rfl, rfl, rfl, ?_, by simp, fun hF => ⟨hF.nd, hF.fx⟩, ?_⟩
      · intro _
        refine ⟨fun α hα => ?_, rfl⟩
        obtain ⟨l, hl, -⟩ := hent α hα
        cases hl
      · rintro ⟨x, hx, y, hy, hxy, hvx, hvy⟩
        exact absurd (hin x hx hvx) (by simp)
    | [l], hn, hf, a1, a3, hent, hin =>
      simp only [hf] at hn
      obtain ⟨hl, hv⟩ := a1 l (by simp)
      have hv' : ({ s with posted := lits :: s.posted } : Sat T).value l = none := hv
      rw [enqueue_none hv'] at hn
      injection hn with hn; injection hn with h1 h2; subst h1 h2
      have hG := enq_grow (c := none) hv'
      have hWF' := hP.wf.enq (c := none) hv' (hrng l hl) (fun x hx => by cases hx) (fun _ => Or.inl hlim)
      have hSem' := hP.sem.enq hP.wf (r := none) hv' (hP.sem.unit hP.wf (rest := []) hent (by simp))
      refine ⟨hroot', hrng, ⟨hWF', hSem', hP.ti.evo hG.evo rfl rfl, ?_, hP.prng, hP.cache⟩, ?_, rfl, rfl, rfl, rfl, by simp, ?_, ?_, ?_⟩
      · intro hd; exact absurd ((root_iff _).1 hroot') hd
      · refine hRS.trans ⟨Nat.le_refl _, rfl, rfl, rfl, ?_, hG.suf, fun D hD => hD, fun _ h => h, fun _ h => h⟩
        intro v hv; have := hG.same v hv; exact ⟨this.1, this.2.1⟩
      · intro _
        exact ⟨rfl, Or.inl ⟨l, hl, enq_value_self _ _ _, hWF'.root_level hroot' _⟩⟩
      · intro hF
        have hF' : ({ s with posted := lits :: s.posted } : Sat T).Fix ({ s with posted := lits :: s.posted } : Sat T).okQ := ⟨hF.nd, hF.fx⟩
        exact hF'.enq hv'
      · rintro ⟨x, hx, y, hy, hxy, hvx, hvy⟩
        have e1 := hin x hx hvx
        have e2 := hin y hy hvy
        simp at e1 e2
        exact absurd (by rw [e1, e2]) hxy
    | l0 :: l1 :: r, hn, hf, a1, a3, hent, hin =>
      simp only [hf] at hn
      obtain ⟨s1, he1, he2, -⟩ := newClauseObj_eq ({ s with posted := lits :: s.posted } : Sat T) l0 l1 r
      rw [he1] at hn
      simp only at hn
      injection hn with hn; injection hn with h1 h2
      have hs' : s' = ({ s with posted := lits :: s.posted } : Sat T).addC (l0 :: l1 :: r) := by rw [← h1, ← he2]
      subst h2
      rw [hs']
      have hsubl : ∀ l ∈ l0 :: l1 :: r, l ∈ lits := fun l hl => (a1 l hl).1
      have hWF' := hP.wf.addC (l0 := l0) (l1 := l1) (r := r) (fun l hl => hrng l (hsubl l hl)) (fun l hl => strict_no_neg a3 hl)
      have hSem' := hP.sem.addC hP.wf hent
      have hfresh : s.ncls ∉ s.constrs := fun hm => by have := h.wf.clt _ hm; omega
      refine ⟨hroot', hrng, ⟨hWF', hSem', hP.ti, hP.qr, hP.prng, hP.cache⟩, ?_, rfl, rfl, rfl, rfl, by simp, ?_, ?_, fun _ => ⟨rfl, rfl, rfl⟩⟩
      · refine hRS.trans ⟨Nat.le_refl _, rfl, rfl, rfl, fun _ _ => ⟨rfl, rfl⟩, List.suffix_refl _, ?_, fun _ h => h, fun _ h => h⟩
        rintro D ⟨c, hc, hD⟩
        refine ⟨c, by simp [Sat.addC]; exact Or.inl hc, ?_⟩
        simp only [Sat.addC, upd_ne _ _ (fun e => hfresh (e ▸ hc) : c ≠ s.ncls)]
        exact hD
      · intro _
        refine ⟨rfl, Or.inr (Or.inr ⟨s.ncls, by simp [Sat.addC], ?_⟩)⟩
        simp only [Sat.addC, upd_self]; exact hsubl
      · intro hF
        have hF' : ({ s with posted := lits :: s.posted } : Sat T).Fix ({ s with posted := lits :: s.posted } : Sat T).okQ := ⟨hF.nd, hF.fx⟩
        have := hF'.addC hP.wf (l0 := l0) (l1 := l1) (r := r) (.of_nodup _ (strict_nodup a3)) (by
          intro w w' hww hv
          exfalso
          have : w ∈ l0 :: l1 :: r := by rcases hww with ⟨rfl, rfl⟩ | ⟨rfl, rfl⟩ <;> simp
          have h5 := (a1 w this).2
          have h6 : s.value w = some false := hv
          rw [h5] at h6; cases h6)
        exact ⟨this.nd, this.fx⟩

/-- `new_clause` never fails at root level on existing variables. -/
theorem newClause_ok {E : Env} {s : Sat T} {lits : List Lit} (hr : s.root = true) (hv : ∀ l ∈ lits, l.var < s.nvars) :
    ∃ s' b, s.newClause E lits = .ok (s', b) := by
  unfold newClause
  have h1 : s.inRange lits = true := by simpa [inRange] using hv
  simp only [hr, h1, Bool.true_eq_false, if_false]
  match filt true s.value none (E.sortVar lits) with
  | none => exact ⟨_, _, rfl⟩
  | some [] => exact ⟨_, _, rfl⟩
  | some [l] => exact ⟨_, _, rfl⟩
  | some (l0 :: l1 :: r) => exact ⟨_, _, rfl⟩

end Sat
end Semitone
