import Verif.Sat.Post

/-!
# Reified constraints: `new_conj`, `new_disj`, `new_eq`
-/
namespace Semitone
namespace Sat
variable {T : Type}

theorem RStep.hasSub {s s' : Sat T} (h : RStep s s') {D} (hD : s.HasSub D) : s'.HasSub D := h.sub D hD

/-- What posting a list of clauses guarantees. -/
structure PostedAll {O : TheoryOps T} (C : Contract O) (s s' : Sat T) (cls : List (List Lit)) (b : Bool) : Prop where
  inv : s'.Inv C
  rstep : RStep s s'
  nv : s'.nvars = s.nvars
  exprs : s'.exprs = s.exprs
  bounds : s'.bounds = s.bounds
  bad : b = false → s'.Unsat C.Th ∧ s'.dead = true
  good : b = true → s'.dead = s.dead ∧ (∀ D ∈ cls, s'.Linked D) ∧ s'.posted = cls.reverse ++ s.posted
  fix : s.Fix s.okQ → s'.Fix s'.okQ
  quiet : (∀ c ∈ cls, ∃ x ∈ c, ∃ y ∈ c, x.var ≠ y.var ∧ s.value x = none ∧ s.value y = none) →
    b = true ∧ s'.assigns = s.assigns ∧ s'.propQ = s.propQ

theorem postAll_spec {E : Env} {O : TheoryOps T} {C : Contract O} (cls : List (List Lit)) : ∀ (s : Sat T), s.Inv C → s.root = true →
    (∀ c ∈ cls, ∀ l ∈ c, l.var < s.nvars) → ∃ s' b, postAll E cls s = .ok (s', b) ∧ PostedAll C s s' cls b := by
  induction cls with
  | nil =>
    intro s h hr hv
    exact ⟨s, true, rfl, h, RStep.refl s, rfl, rfl, rfl, by simp, by simp, id, fun _ => ⟨rfl, rfl, rfl⟩⟩
  | cons c cls ih =>
    intro s h hr hv
    obtain ⟨s1, b1, h1⟩ := newClause_ok (E := E) hr (hv c (by simp))
    have k := newClause_spec h h1
    cases b1 with
    | false =>
      refine ⟨s1, false, by simp [postAll, h1], k.inv, k.rstep, k.nv, k.exprs, k.bounds, k.bad, by simp, k.fix, ?_⟩
      intro hq
      have := (k.quiet (hq c (by simp))).1; cases this
    | true =>
      have hr1 : s1.root = true := by rw [k.rstep.root]; exact hr
      obtain ⟨s2, b2, h2, k2⟩ := ih s1 k.inv hr1 (by intro c' hc'; rw [k.nv]; exact hv c' (by simp [hc']))
      refine ⟨s2, b2, by simp [postAll, h1, h2], k2.inv, k.rstep.trans k2.rstep, k2.nv.trans k.nv, k2.exprs.trans k.exprs,
        k2.bounds.trans k.bounds, k2.bad, ?_, fun hF => k2.fix (k.fix hF), ?_⟩
      · intro hb
        obtain ⟨a1, a2, a3⟩ := k2.good hb
        refine ⟨a1.trans (k.good rfl).1, ?_, ?_⟩
        · intro D hD
          rcases List.mem_cons.1 hD with rfl | hD
          · exact k2.rstep.linked (k.good rfl).2
          · exact a2 D hD
        · rw [a3, k.posted]; simp
      · intro hq
        obtain ⟨a1, a2, a3⟩ := k.quiet (hq c (by simp))
        obtain ⟨c1, c2, c3⟩ := k2.quiet (by
          intro c' hc'
          obtain ⟨x, hx, y, hy, hxy, hvx, hvy⟩ := hq c' (by simp [hc'])
          refine ⟨x, hx, y, hy, hxy, ?_, ?_⟩
          · rw [value_none, a2, ← value_none]; exact hvx
          · rw [value_none, a2, ← value_none]; exact hvy)
        exact ⟨c1, c2.trans a2, c3.trans a3⟩

theorem Inv.addExpr {O : TheoryOps T} {C : Contract O} {s : Sat T} (h : s.Inv C) {k ls r} (hl : ∀ l ∈ ls, l.var < s.nvars)
    (hr : r.var < s.nvars) (hm : ∀ α, s.Sol C.Th α → mean k α ls r) : (s.addExpr (key k ls) r).Inv C := by
  refine ⟨h.wf.congr rfl rfl rfl rfl rfl rfl rfl rfl rfl rfl rfl rfl, ⟨h.sem.cls, h.sem.val⟩, h.ti, h.qr, h.prng, ?_⟩
  intro k' ls' r' hmem
  rcases List.mem_cons.1 hmem with e | hmem
  · injection e with e1 e2
    obtain ⟨rfl, rfl⟩ := key_inj e1
    subst e2
    exact ⟨hl, hr, hm⟩
  · exact h.cache k' ls' r' hmem

theorem addExpr_rstep (s : Sat T) (k r) : RStep s (s.addExpr k r) :=
  ⟨Nat.le_refl _, rfl, rfl, rfl, fun _ _ => ⟨rfl, rfl⟩, List.suffix_refl _, fun _ h => h, fun _ h => h, fun _ h => List.mem_cons_of_mem _ h⟩

/-- What a defining operation guarantees about the network. -/
structure Defd {O : TheoryOps T} (C : Contract O) (s s' : Sat T) : Prop where
  inv : s'.Inv C
  rstep : RStep s s'
  bounds : s'.bounds = s.bounds
  fix : s.Fix s.okQ → s'.Fix s'.okQ
  link : ∀ D ∈ s'.posted, D ∈ s.posted ∨ s'.Linked D ∨ s'.dead = true
  dead : s.dead = true → s'.dead = true
  bad : s'.dead = true → s.dead = true ∨ s'.Unsat C.Th

theorem Defd.refl {O : TheoryOps T} {C : Contract O} {s : Sat T} (h : s.Inv C) : Defd C s s :=
  ⟨h, RStep.refl s, rfl, id, fun _ h => Or.inl h, id, Or.inl⟩

theorem Defd.trans {O : TheoryOps T} {C : Contract O} {s1 s2 s3 : Sat T} (h1 : Defd C s1 s2) (h2 : Defd C s2 s3) : Defd C s1 s3 where
  inv := h2.inv
  rstep := h1.rstep.trans h2.rstep
  bounds := h2.bounds.trans h1.bounds
  fix := fun hF => h2.fix (h1.fix hF)
  link := fun D hD => by
    rcases h2.link D hD with h | h
    · rcases h1.link D h with h | h | h
      · exact Or.inl h
      · exact Or.inr (Or.inl (h2.rstep.linked h))
      · exact Or.inr (Or.inr (h2.dead h))
    · exact Or.inr h
  dead := fun h => h2.dead (h1.dead h)
  bad := fun h => by
    rcases h2.bad h with h | h
    · rcases h1.bad h with h | h
      · exact Or.inl h
      · exact Or.inr (fun α hα => h α (h2.rstep.sol hα))
    · exact Or.inr h

theorem newVar_defd {O : TheoryOps T} {C : Contract O} {s : Sat T} (h : s.Inv C) : Defd C s s.newVar.1 := by
  obtain ⟨a, b, c, d, e, f, g, i, j, k, l, m⟩ := newVar_spec h
  exact ⟨a, b, k, m, fun D hD => Or.inl (by rw [f] at hD; exact hD), fun h => by rw [g]; exact h, fun h => Or.inl (by rw [g] at h; exact h)⟩

/-- Posting defining clauses that leave at least two literals open: nothing is assigned, and the expression is cached. -/
theorem define_quiet {E : Env} {O : TheoryOps T} {C : Contract O} {s : Sat T} {k ls ctr cls} (h : s.Inv C) (hr : s.root = true)
    (hv : ∀ c ∈ cls, ∀ l ∈ c, l.var < s.nvars) (hc : ctr.var < s.nvars) (hl : ∀ l ∈ ls, l.var < s.nvars)
    (hq : ∀ c ∈ cls, ∃ x ∈ c, ∃ y ∈ c, x.var ≠ y.var ∧ s.value x = none ∧ s.value y = none)
    (hm : ∀ α, s.Sol C.Th α → (∀ c ∈ cls, α.clause c) → mean k α ls ctr) :
    ∃ s', define E s (key k ls) ctr cls = .ok (s', ctr) ∧ Defd C s s' ∧ s'.nvars = s.nvars ∧ s'.posted = cls.reverse ++ s.posted ∧
      s'.assigns = s.assigns ∧ s'.propQ = s.propQ ∧ s'.exprs = (key k ls, ctr) :: s.exprs ∧ s'.dead = s.dead := by
  obtain ⟨s1, b, h1, k1⟩ := postAll_spec (E := E) cls s h hr hv
  obtain ⟨rfl, hass, hpq⟩ := k1.quiet hq
  obtain ⟨g1, g2, g3⟩ := k1.good rfl
  have hinv : (s1.addExpr (key k ls) ctr).Inv C := by
    apply k1.inv.addExpr
    · intro l hl'; rw [k1.nv]; exact hl l hl'
    · rw [k1.nv]; exact hc
    · intro α hα
      apply hm α (k1.rstep.sol hα)
      intro c hcc
      exact hα.2.1 c (by rw [g3]; simp [hcc])
  refine ⟨s1.addExpr (key k ls) ctr, by simp [define, h1], ⟨hinv, k1.rstep.trans (addExpr_rstep _ _ _), k1.bounds, ?_, ?_, ?_, ?_⟩,
    k1.nv, g3, hass, hpq, ?_, g1⟩
  · intro hF; have := k1.fix hF; exact ⟨this.nd, this.fx⟩
  · intro D hD
    have hD' : D ∈ s1.posted := hD
    rw [g3, List.mem_append, List.mem_reverse] at hD'
    rcases hD' with h2 | h2
    · exact Or.inr (Or.inl (g2 D h2))
    · exact Or.inl h2
  · intro hd; show s1.dead = true; rw [g1]; exact hd
  · intro hd; left; have : s1.dead = true := hd; rw [g1] at this; exact this
  · simp [Sat.addExpr, k1.exprs]

theorem findExpr_mem {s : Sat T} {k : String} {r : Lit} (h : s.findExpr k = some r) : (k, r) ∈ s.exprs := by
  unfold findExpr at h
  induction hx : s.exprs with
  | nil => rw [hx] at h; simp at h
  | cons e es ih =>
    rw [hx] at h
    clear ih hx
    induction es generalizing e with
    | nil =>
      obtain ⟨a, b⟩ := e
      simp only [List.lookup] at h
      split at h
      · rename_i he; simp at he h; simp [he, h]
      · cases h
    | cons e' es ih =>
      obtain ⟨a, b⟩ := e
      simp only [List.lookup] at h
      split at h
      · rename_i he; simp at he h; simp [he, h]
      · exact List.mem_cons_of_mem _ (ih e' (by simpa [List.lookup] using h))

/-! ### extending solutions -/

/-- The theories only look at existing variables. -/
def Local (Th : T → Asg → Prop) (s : Sat T) : Prop := ∀ α β : Asg, Asg.agree s.nvars α β → Th s.th α → Th s.th β

theorem Local.mono {Th : T → Asg → Prop} {s s' : Sat T} (h : s.Local Th) (hr : RStep s s') : s'.Local Th := by
  intro α β hab
  rw [hr.th]
  exact h α β (fun v hv => hab v (Nat.lt_of_lt_of_le hv hr.nv))

theorem agree_sat {n : Nat} {α β : Asg} (h : Asg.agree n α β) {l : Lit} (hl : l.var < n) : α.sat l ↔ β.sat l := by
  unfold Asg.sat; rw [h l.var hl]

theorem agree_clause {n : Nat} {α β : Asg} (h : Asg.agree n α β) {c : List Lit} (hl : ∀ l ∈ c, l.var < n) : α.clause c ↔ β.clause c := by
  unfold Asg.clause
  constructor
  · rintro ⟨l, h1, h2⟩; exact ⟨l, h1, (agree_sat h (hl l h1)).1 h2⟩
  · rintro ⟨l, h1, h2⟩; exact ⟨l, h1, (agree_sat h (hl l h1)).2 h2⟩

theorem agree_all {n : Nat} {α β : Asg} (h : Asg.agree n α β) {c : List Lit} (hl : ∀ l ∈ c, l.var < n) : α.all c ↔ β.all c := by
  unfold Asg.all
  exact ⟨fun h1 l h2 => (agree_sat h (hl l h2)).1 (h1 l h2), fun h1 l h2 => (agree_sat h (hl l h2)).2 (h1 l h2)⟩

theorem agree_amo {n : Nat} {α β : Asg} (h : Asg.agree n α β) {c : List Lit} (hl : ∀ l ∈ c, l.var < n) : α.atMostOne c ↔ β.atMostOne c := by
  unfold Asg.atMostOne
  constructor
  · intro h1 x hx y hy a b
    exact h1 x hx y hy ((agree_sat h (hl x hx)).2 a) ((agree_sat h (hl y hy)).2 b)
  · intro h1 x hx y hy a b
    exact h1 x hx y hy ((agree_sat h (hl x hx)).1 a) ((agree_sat h (hl y hy)).1 b)

theorem agree.trans {n m : Nat} {α β γ : Asg} (h1 : Asg.agree n α β) (h2 : Asg.agree m β γ) (hnm : n ≤ m) : Asg.agree n α γ :=
  fun v hv => (h1 v hv).trans (h2 v (Nat.lt_of_lt_of_le hv hnm))

/-- A solution stays a solution when only later variables change. -/
theorem Inv.sol_agree {O : TheoryOps T} {C : Contract O} {s : Sat T} (h : s.Inv C) (hL : s.Local C.Th) {α β : Asg}
    (hab : Asg.agree s.nvars α β) (hα : s.Sol C.Th α) : s.Sol C.Th β := by
  refine ⟨?_, ?_, hL α β hab hα.2.2⟩
  · rw [← hab 0 h.wf.nv]; exact hα.1
  · intro D hD
    exact (agree_clause hab (h.prng D hD)).1 (hα.2.1 D hD)

theorem upd_agree (α : Asg) (n : Nat) (b : Bool) : Asg.agree n α (upd α n b) := by
  intro v hv; rw [upd_ne _ _ (by omega : v ≠ n)]

theorem sat_true_lit {Th : T → Asg → Prop} {s : Sat T} {α} (h : s.Sol Th α) : α.sat TRUE_lit := by
  simp [Asg.sat, TRUE_lit, FALSE_lit, Lit.neg, h.1]

theorem not_sat_false_lit {Th : T → Asg → Prop} {s : Sat T} {α} (h : s.Sol Th α) : ¬ α.sat FALSE_lit := by
  simp [Asg.sat, FALSE_lit, h.1]

/-- In every solution of the resulting network `s'` the relation `R r` between the returned literal and the truth assignment
holds, and the call that led from `s` to `s'` only constrains fresh variables. -/
structure Reifies {O : TheoryOps T} (C : Contract O) (s s' : Sat T) (r : Lit) (R : Lit → Asg → Prop) : Prop where
  defd : Defd C s s'
  var : r.var < s'.nvars
  rel : ∀ α, s'.Sol C.Th α → R r α
  ext : s.Local C.Th → ∀ α, s.Sol C.Th α → ∃ β, Asg.agree s.nvars α β ∧ s'.Sol C.Th β
  assigns : s'.assigns = s.assigns
  propQ : s'.propQ = s.propQ
  isDead : s'.dead = s.dead

theorem reifies_same {O : TheoryOps T} {C : Contract O} {s : Sat T} (h : s.Inv C) {r : Lit} {R : Lit → Asg → Prop} (hr : r.var < s.nvars)
    (hrel : ∀ α, s.Sol C.Th α → R r α) : Reifies C s s r R :=
  ⟨Defd.refl h, hr, hrel, fun _ α hα => ⟨α, fun _ _ => rfl, hα⟩, rfl, rfl, rfl⟩

/-- Introducing a fresh variable defined by clauses: the clauses mean `R`, and giving the variable the value `P` satisfies
them. -/
theorem reify_fresh {E : Env} {O : TheoryOps T} {C : Contract O} {s : Sat T} {k ls} {cls : List (List Lit)} {P : Asg → Prop}
    {R : Lit → Asg → Prop} (h : s.Inv C) (hr : s.root = true)
    (hl : ∀ l ∈ ls, l.var < s.nvars)
    (hv : ∀ c ∈ cls, ∀ l ∈ c, l.var ≤ s.nvars)
    (hq : ∀ c ∈ cls, ∃ x ∈ c, ∃ y ∈ c, x.var = s.nvars ∧ y.var < s.nvars ∧ s.value y = none)
    (hP : ∀ α β, Asg.agree s.nvars α β → (P α ↔ P β))
    (hcls : ∀ α : Asg, (∀ c ∈ cls, α.clause c) ↔ R ⟨s.nvars, true⟩ α)
    (hPR : ∀ α : Asg, (α.sat ⟨s.nvars, true⟩ ↔ P α) → R ⟨s.nvars, true⟩ α)
    (hm : ∀ α : Asg, R ⟨s.nvars, true⟩ α → mean k α ls ⟨s.nvars, true⟩) :
    ∃ s', define E s.newVar.1 (key k ls) ⟨s.nvars, true⟩ cls = .ok (s', ⟨s.nvars, true⟩) ∧ Reifies C s s' ⟨s.nvars, true⟩ R ∧
      (s.Local C.Th → ∀ α, s.Sol C.Th α → ∃ β, Asg.agree s.nvars α β ∧ s'.Sol C.Th β ∧ (β.sat ⟨s.nvars, true⟩ ↔ P α)) ∧
      s'.nvars = s.nvars + 1 ∧ s'.exprs = (key k ls, ⟨s.nvars, true⟩) :: ("b" ++ toString s.nvars, ⟨s.nvars, true⟩) :: s.exprs := by
  obtain ⟨a, b, c, d, e, f, g, i, j, kb, l, m⟩ := newVar_spec h
  have hr1 : s.newVar.1.root = true := by rw [b.root]; exact hr
  obtain ⟨s2, h2, hD, hn2, hp2, ha2, hq2, he2, hd2⟩ := define_quiet (E := E) (k := k) (ls := ls) (ctr := ⟨s.nvars, true⟩) (cls := cls) a hr1
    (by intro c hc x hx; rw [d]; exact Nat.lt_succ_of_le (hv c hc x hx)) (by rw [d]; exact Nat.lt_succ_self _)
    (by intro x hx; rw [d]; exact Nat.lt_succ_of_lt (hl x hx)) (by
      intro c hc
      obtain ⟨x, hx, y, hy, h1, h2, h3⟩ := hq c hc
      refine ⟨x, hx, y, hy, by omega, ?_, ?_⟩
      · rw [value_none, h1]; exact e
      · rw [value_none, i, ← value_none]; exact h3)
    (by intro α _ hc; exact hm α ((hcls α).1 hc))
  have hext : s.Local C.Th → ∀ α, s.Sol C.Th α → ∃ β, Asg.agree s.nvars α β ∧ s2.Sol C.Th β ∧ (β.sat ⟨s.nvars, true⟩ ↔ P α) := by
    intro hL α hα
    classical
    refine ⟨upd α s.nvars (decide (P α)), upd_agree _ _ _, ?_, by simp [Asg.sat]⟩
    have hab := upd_agree α s.nvars (decide (P α))
    have hS := h.sol_agree hL hab hα
    refine ⟨hS.1, ?_, by rw [hD.rstep.th, b.th]; exact hS.2.2⟩
    intro D hDm
    rw [hp2, List.mem_append, List.mem_reverse] at hDm
    rcases hDm with hDm | hDm
    · refine (hcls _).2 (hPR _ ?_) D hDm
      rw [← hP α _ hab]
      simp [Asg.sat]
    · rw [f] at hDm; exact hS.2.1 D hDm
  refine ⟨s2, h2, ⟨(newVar_defd h).trans hD, by rw [hn2, d]; exact Nat.lt_succ_self _, ?_, ?_, by rw [ha2, i], by rw [hq2, j], by rw [hd2, g]⟩, hext,
    by rw [hn2, d], by rw [he2, l]⟩
  · intro α hα
    apply (hcls α).1
    intro c hc
    exact hα.2.1 c (by rw [hp2]; simp [hc])
  · intro hL α hα
    obtain ⟨β, x, y, -⟩ := hext hL α hα
    exact ⟨β, x, y⟩

theorem inRange_true {s : Sat T} {ls : List Lit} (h : ¬ s.inRange ls = false) : ∀ l ∈ ls, l.var < s.nvars := by
  have : s.inRange ls = true := by simpa using h
  simpa [inRange] using this

/-! ### new_conj -/

theorem newConj_spec {E : Env} {O : TheoryOps T} {C : Contract O} {s : Sat T} {ls : List Lit} (h : s.Inv C) (hr : s.root = true)
    (hv : ∀ l ∈ ls, l.var < s.nvars) :
    ∃ s' r, s.newConj E ls = .ok (s', r) ∧ Reifies C s s' r (fun r α => α.sat r ↔ α.all ls) := by
  unfold newConj
  have hin : s.inRange ls = true := by simpa [inRange] using hv
  simp only [hr, hin, Bool.true_eq_false, if_false]
  match hf : filt false s.value none (E.sortVar ls) with
  | none =>
    simp only
    refine ⟨s, FALSE_lit, rfl, reifies_same h h.wf.nv ?_⟩
    intro α hα
    have h1 := not_sat_false_lit hα
    obtain ⟨l, hl, hc⟩ := filt_sorted_none E _ _ _ hf
    refine ⟨fun h2 => absurd h2 h1, fun h2 => ?_⟩
    exfalso
    rcases hc with hc | hc
    · exact h.root_false hr hc hα (h2 l hl)
    · exact (α.sat_neg l).1 (h2 _ hc) (h2 l hl)
  | some out =>
    obtain ⟨a1, a2, a3⟩ := filt_sorted E _ _ _ _ hf
    simp only [Bool.not_false] at a2
    have hall : ∀ α, s.Sol C.Th α → (α.all out ↔ α.all ls) := by
      intro α hα
      constructor
      · intro h1 l hl
        rcases a2 l hl with h2 | h2
        · exact h1 l h2
        · exact h.root_true hr h2 hα
      · intro h1 l hl; exact h1 l (a1 l hl).1
    match out, a1, a2, a3, hall with
    | [], a1, a2, a3, hall =>
      simp only
      refine ⟨s, TRUE_lit, rfl, reifies_same h h.wf.nv ?_⟩
      intro α hα
      rw [← hall α hα]
      exact ⟨fun _ => by simp [Asg.all], fun _ => sat_true_lit hα⟩
    | [l], a1, a2, a3, hall =>
      simp only
      refine ⟨s, l, rfl, reifies_same h (hv l (a1 l (by simp)).1) ?_⟩
      intro α hα
      rw [← hall α hα]; simp [Asg.all]
    | l0 :: l1 :: r, a1, a2, a3, hall =>
      simp only
      have hkey : "&" ++ litsStr (l0 :: l1 :: r) = key .conj (l0 :: l1 :: r) := rfl
      rw [hkey]
      have hrng : ∀ l ∈ l0 :: l1 :: r, l.var < s.nvars := fun l hl => hv l (a1 l hl).1
      match hfe : s.findExpr (key .conj (l0 :: l1 :: r)) with
      | some c =>
        simp only
        obtain ⟨c1, c2, c3⟩ := h.cache _ _ _ (findExpr_mem hfe)
        refine ⟨s, c, rfl, reifies_same h c2 ?_⟩
        intro α hα; rw [← hall α hα]; exact c3 α hα
      | none =>
        simp only
        have hnv : s.newVar.2 = s.nvars := (newVar_spec h).2.2.1
        rw [hnv]
        obtain ⟨s', h1, h2, -⟩ := reify_fresh (E := E) (k := .conj) (ls := l0 :: l1 :: r)
          (cls := (l0 :: l1 :: r).map (fun l => [Lit.neg ⟨s.nvars, true⟩, l]) ++ [⟨s.nvars, true⟩ :: (l0 :: l1 :: r).map Lit.neg])
          (P := fun α => α.all (l0 :: l1 :: r)) (R := fun r' α => α.sat r' ↔ α.all (l0 :: l1 :: r)) h hr hrng (by
            intro c hc l hl
            rw [List.mem_append, List.mem_map, List.mem_singleton] at hc
            rcases hc with ⟨x, hx, rfl⟩ | rfl
            · simp at hl
              rcases hl with rfl | rfl
              · simp
              · exact Nat.le_of_lt (hrng _ hx)
            · rw [List.mem_cons, List.mem_map] at hl
              rcases hl with rfl | ⟨x, hx, rfl⟩
              · simp
              · exact Nat.le_of_lt (hrng x hx)) (by
            intro c hc
            rw [List.mem_append, List.mem_map, List.mem_singleton] at hc
            rcases hc with ⟨x, hx, rfl⟩ | rfl
            · exact ⟨Lit.neg ⟨s.nvars, true⟩, by simp, x, by simp, rfl, hrng x hx, (a1 x hx).2⟩
            · refine ⟨_, List.mem_cons_self, l0.neg, by simp, rfl, hrng l0 (by simp), ?_⟩
              rw [value_neg, (a1 l0 (by simp)).2]; rfl)
          (fun α β hab => agree_all hab hrng) (by
            intro α
            constructor
            · intro hc
              constructor
              · intro hs l hl
                obtain ⟨x, hx, hxs⟩ := hc [Lit.neg ⟨s.nvars, true⟩, l] (by
                  rw [List.mem_append]; left; exact List.mem_map.2 ⟨l, hl, rfl⟩)
                simp at hx
                rcases hx with rfl | rfl
                · exact absurd hs ((α.sat_neg _).1 hxs)
                · exact hxs
              · intro hall
                obtain ⟨x, hx, hxs⟩ := hc (⟨s.nvars, true⟩ :: (l0 :: l1 :: r).map Lit.neg) (by simp)
                rcases List.mem_cons.1 hx with rfl | hx
                · exact hxs
                · obtain ⟨y, hy, rfl⟩ := List.mem_map.1 hx
                  exact absurd (hall y hy) ((α.sat_neg _).1 hxs)
            · intro hiff c hc
              rw [List.mem_append, List.mem_map, List.mem_singleton] at hc
              by_cases hs : α.sat ⟨s.nvars, true⟩
              · rcases hc with ⟨x, hx, rfl⟩ | rfl
                · exact ⟨x, by simp, hiff.1 hs x hx⟩
                · exact ⟨_, List.mem_cons_self, hs⟩
              · rcases hc with ⟨x, hx, rfl⟩ | rfl
                · exact ⟨_, List.mem_cons_self, (α.sat_neg _).2 hs⟩
                · have : ¬ α.all (l0 :: l1 :: r) := fun h => hs (hiff.2 h)
                  unfold Asg.all at this
                  simp only [not_forall] at this
                  obtain ⟨x, hx, hxs⟩ := this
                  exact ⟨x.neg, by rw [List.mem_cons, List.mem_map]; exact Or.inr ⟨x, hx, rfl⟩, (α.sat_neg _).2 hxs⟩)
          (fun α h => h) (fun α h => h)
        refine ⟨s', _, h1, h2.defd, h2.var, ?_, h2.ext, h2.assigns, h2.propQ, h2.isDead⟩
        intro α hα
        rw [← hall α (h2.defd.rstep.sol hα)]
        exact h2.rel α hα

/-! ### new_disj -/

theorem newDisj_spec {E : Env} {O : TheoryOps T} {C : Contract O} {s : Sat T} {ls : List Lit} (h : s.Inv C) (hr : s.root = true)
    (hv : ∀ l ∈ ls, l.var < s.nvars) :
    ∃ s' r, s.newDisj E ls = .ok (s', r) ∧ Reifies C s s' r (fun r α => α.sat r ↔ α.clause ls) := by
  unfold newDisj
  have hin : s.inRange ls = true := by simpa [inRange] using hv
  simp only [hr, hin, Bool.true_eq_false, if_false]
  match hf : filt true s.value none (E.sortVar ls) with
  | none =>
    simp only
    refine ⟨s, TRUE_lit, rfl, reifies_same h h.wf.nv ?_⟩
    intro α hα
    obtain ⟨l, hl, hc⟩ := filt_sorted_none E _ _ _ hf
    refine ⟨fun _ => ?_, fun _ => sat_true_lit hα⟩
    rcases hc with hc | hc
    · exact ⟨l, hl, h.root_true hr hc hα⟩
    · by_cases hs : α.sat l
      · exact ⟨l, hl, hs⟩
      · exact ⟨_, hc, (α.sat_neg l).2 hs⟩
  | some out =>
    obtain ⟨a1, a2, a3⟩ := filt_sorted E _ _ _ _ hf
    simp only [Bool.not_true] at a2
    have hall : ∀ α, s.Sol C.Th α → (α.clause out ↔ α.clause ls) := by
      intro α hα
      constructor
      · rintro ⟨l, hl, hs⟩; exact ⟨l, (a1 l hl).1, hs⟩
      · rintro ⟨l, hl, hs⟩
        rcases a2 l hl with h2 | h2
        · exact ⟨l, h2, hs⟩
        · exact absurd hs (h.root_false hr h2 hα)
    match out, a1, a2, a3, hall with
    | [], a1, a2, a3, hall =>
      simp only
      refine ⟨s, FALSE_lit, rfl, reifies_same h h.wf.nv ?_⟩
      intro α hα
      rw [← hall α hα]
      exact ⟨fun h1 => absurd h1 (not_sat_false_lit hα), fun ⟨x, hx, _⟩ => by cases hx⟩
    | [l], a1, a2, a3, hall =>
      simp only
      refine ⟨s, l, rfl, reifies_same h (hv l (a1 l (by simp)).1) ?_⟩
      intro α hα
      rw [← hall α hα]; simp [Asg.clause]
    | l0 :: l1 :: r, a1, a2, a3, hall =>
      simp only
      have hkey : "|" ++ litsStr (l0 :: l1 :: r) = key .disj (l0 :: l1 :: r) := rfl
      rw [hkey]
      have hrng : ∀ l ∈ l0 :: l1 :: r, l.var < s.nvars := fun l hl => hv l (a1 l hl).1
      match hfe : s.findExpr (key .disj (l0 :: l1 :: r)) with
      | some c =>
        simp only
        obtain ⟨c1, c2, c3⟩ := h.cache _ _ _ (findExpr_mem hfe)
        refine ⟨s, c, rfl, reifies_same h c2 ?_⟩
        intro α hα; rw [← hall α hα]; exact c3 α hα
      | none =>
        simp only
        have hnv : s.newVar.2 = s.nvars := (newVar_spec h).2.2.1
        rw [hnv]
        obtain ⟨s', h1, h2, -⟩ := reify_fresh (E := E) (k := .disj) (ls := l0 :: l1 :: r)
          (cls := (l0 :: l1 :: r).map (fun l => [l.neg, ⟨s.nvars, true⟩]) ++ [Lit.neg ⟨s.nvars, true⟩ :: (l0 :: l1 :: r)])
          (P := fun α => α.clause (l0 :: l1 :: r)) (R := fun r' α => α.sat r' ↔ α.clause (l0 :: l1 :: r)) h hr hrng (by
            intro c hc l hl
            rw [List.mem_append, List.mem_map, List.mem_singleton] at hc
            rcases hc with ⟨x, hx, rfl⟩ | rfl
            · simp at hl
              rcases hl with rfl | rfl
              · exact Nat.le_of_lt (hrng x hx)
              · simp
            · rw [List.mem_cons] at hl
              rcases hl with rfl | hx
              · simp
              · exact Nat.le_of_lt (hrng l hx)) (by
            intro c hc
            rw [List.mem_append, List.mem_map, List.mem_singleton] at hc
            rcases hc with ⟨x, hx, rfl⟩ | rfl
            · refine ⟨⟨s.nvars, true⟩, by simp, x.neg, by simp, rfl, hrng x hx, ?_⟩
              rw [value_neg, (a1 x hx).2]; rfl
            · exact ⟨_, List.mem_cons_self, l0, by simp, rfl, hrng l0 (by simp), (a1 l0 (by simp)).2⟩)
          (fun α β hab => agree_clause hab hrng) (by
            intro α
            constructor
            · intro hc
              constructor
              · intro hs
                obtain ⟨x, hx, hxs⟩ := hc (Lit.neg ⟨s.nvars, true⟩ :: (l0 :: l1 :: r)) (by simp)
                rcases List.mem_cons.1 hx with rfl | hx
                · exact absurd hs ((α.sat_neg _).1 hxs)
                · exact ⟨x, hx, hxs⟩
              · rintro ⟨l, hl, hs⟩
                obtain ⟨x, hx, hxs⟩ := hc [l.neg, ⟨s.nvars, true⟩] (by
                  rw [List.mem_append]; left; exact List.mem_map.2 ⟨l, hl, rfl⟩)
                simp at hx
                rcases hx with rfl | rfl
                · exact absurd hs ((α.sat_neg _).1 hxs)
                · exact hxs
            · intro hiff c hc
              rw [List.mem_append, List.mem_map, List.mem_singleton] at hc
              by_cases hs : α.sat ⟨s.nvars, true⟩
              · rcases hc with ⟨x, hx, rfl⟩ | rfl
                · exact ⟨_, by simp, hs⟩
                · obtain ⟨y, hy, hys⟩ := hiff.1 hs
                  exact ⟨y, List.mem_cons_of_mem _ hy, hys⟩
              · rcases hc with ⟨x, hx, rfl⟩ | rfl
                · refine ⟨x.neg, by simp, (α.sat_neg _).2 (fun hxs => hs (hiff.2 ⟨x, hx, hxs⟩))⟩
                · exact ⟨_, List.mem_cons_self, (α.sat_neg _).2 hs⟩)
          (fun α h => h) (fun α h => h)
        refine ⟨s', _, h1, h2.defd, h2.var, ?_, h2.ext, h2.assigns, h2.propQ, h2.isDead⟩
        intro α hα
        rw [← hall α (h2.defd.rstep.sol hα)]
        exact h2.rel α hα

/-! ### new_eq -/

/-- `new_eq` when no operand is assigned, or both are, or the operands have the same sign: the returned literal implies the
equality and is implied when both operands are true (the code never posts `ctr ∨ left ∨ right`). -/
theorem newEq_spec {E : Env} {O : TheoryOps T} {C : Contract O} {s : Sat T} {a b : Lit} (h : s.Inv C) (hr : s.root = true)
    (hv : ∀ l ∈ [a, b], l.var < s.nvars) (hs : a.sign = b.sign ∨ (s.value a = none ↔ s.value b = none)) :
    ∃ s' r, s.newEq E a b = .ok (s', r) ∧
      Reifies C s s' r (fun r α => (α.sat r → (α.sat a ↔ α.sat b)) ∧ (α.sat a → α.sat b → α.sat r)) ∧
      ((a ≠ b ∧ s.value a = none ∧ s.value b = none) ∨ Reifies C s s' r (fun r α => α.sat r ↔ (α.sat a ↔ α.sat b))) := by
  obtain ⟨U, hU⟩ : ∃ U : Prop, U = (a ≠ b ∧ s.value a = none ∧ s.value b = none) := ⟨_, rfl⟩
  rw [← hU]
  unfold newEq
  have hin : s.inRange [a, b] = true := by simpa [inRange] using hv
  have ha := hv a (by simp)
  have hb := hv b (by simp)
  simp only [hr, hin, Bool.true_eq_false, if_false]
  have wk : ∀ {r : Lit}, Reifies C s s r (fun r α => α.sat r ↔ (α.sat a ↔ α.sat b)) →
      Reifies C s s r (fun r α => (α.sat r → (α.sat a ↔ α.sat b)) ∧ (α.sat a → α.sat b → α.sat r)) ∧
      (U ∨ Reifies C s s r (fun r α => α.sat r ↔ (α.sat a ↔ α.sat b))) := by
    intro r hh
    refine ⟨⟨hh.defd, hh.var, fun α hα => ?_, hh.ext, hh.assigns, hh.propQ, hh.isDead⟩, Or.inr hh⟩
    have := hh.rel α hα
    exact ⟨this.1, fun x y => this.2 ⟨fun _ => y, fun _ => x⟩⟩
  by_cases e : a = b
  · rw [if_pos e]
    refine ⟨s, TRUE_lit, rfl, wk (reifies_same h h.wf.nv ?_)⟩
    intro α hα; rw [e]; exact ⟨fun _ => Iff.rfl, fun _ => sat_true_lit hα⟩
  rw [if_neg e]
  have ht : ∀ {q : Lit} {α}, s.value q = some true → s.Sol C.Th α → α.sat q := fun hq hα => h.root_true hr hq hα
  have hf : ∀ {q : Lit} {α}, s.value q = some false → s.Sol C.Th α → ¬ α.sat q := fun hq hα => h.root_false hr hq hα
  match hva : s.value a, hvb : s.value b with
  | some true, some true =>
    refine ⟨s, TRUE_lit, rfl, wk (reifies_same h h.wf.nv ?_)⟩
    intro α hα; simp [sat_true_lit hα, ht hva hα, ht hvb hα]
  | some true, some false =>
    refine ⟨s, FALSE_lit, rfl, wk (reifies_same h h.wf.nv ?_)⟩
    intro α hα; simp [not_sat_false_lit hα, ht hva hα, hf hvb hα]
  | some true, none =>
    have hs' : a.sign = b.sign := by rcases hs with h1 | h1; exact h1; simp [hva, hvb] at h1
    simp only [hs', if_true]
    refine ⟨s, b, rfl, wk (reifies_same h hb ?_)⟩
    intro α hα; simp [ht hva hα]
  | some false, some true =>
    refine ⟨s, FALSE_lit, rfl, wk (reifies_same h h.wf.nv ?_)⟩
    intro α hα; simp [not_sat_false_lit hα, hf hva hα, ht hvb hα]
  | some false, some false =>
    refine ⟨s, TRUE_lit, rfl, wk (reifies_same h h.wf.nv ?_)⟩
    intro α hα; simp [sat_true_lit hα, hf hva hα, hf hvb hα]
  | some false, none =>
    have hs' : a.sign = b.sign := by rcases hs with h1 | h1; exact h1; simp [hva, hvb] at h1
    simp only [hs', if_true]
    refine ⟨s, b.neg, rfl, wk (reifies_same h hb ?_)⟩
    intro α hα; simp [hf hva hα, Asg.sat_neg]
  | none, some true =>
    have hs' : a.sign = b.sign := by rcases hs with h1 | h1; exact h1; simp [hva, hvb] at h1
    simp only [hs', if_true]
    refine ⟨s, a, rfl, wk (reifies_same h ha ?_)⟩
    intro α hα; simp [ht hvb hα]
  | none, some false =>
    have hs' : a.sign = b.sign := by rcases hs with h1 | h1; exact h1; simp [hva, hvb] at h1
    simp only [hs', if_true]
    refine ⟨s, a.neg, rfl, wk (reifies_same h ha ?_)⟩
    intro α hα; simp [hf hvb hα, Asg.sat_neg]
  | none, none =>
    simp only
    rw [eqKey_eq]
    match hfe : s.findExpr (key .eq (if litLt a b then [a, b] else [b, a])) with
    | some c =>
      simp only
      obtain ⟨c1, c2, c3⟩ := h.cache _ _ _ (findExpr_mem hfe)
      refine ⟨s, c, rfl, reifies_same h c2 ?_, Or.inl (by rw [hU]; exact ⟨e, hva, hvb⟩)⟩
      intro α hα
      have := c3 α hα
      by_cases hlt : litLt a b = true
      · rw [if_pos hlt] at this; exact this a b rfl
      · rw [if_neg hlt] at this
        exact ⟨fun x => ((this b a rfl).1 x).symm, fun x y => (this b a rfl).2 y x⟩
    | none =>
      simp only
      have hnv : s.newVar.2 = s.nvars := (newVar_spec h).2.2.1
      rw [hnv]
      obtain ⟨s', h1, h2, -⟩ := reify_fresh (E := E) (k := .eq) (ls := if litLt a b then [a, b] else [b, a])
        (cls := [[Lit.neg ⟨s.nvars, true⟩, a.neg, b], [Lit.neg ⟨s.nvars, true⟩, a, b.neg], [⟨s.nvars, true⟩, a.neg, b.neg]])
        (P := fun α => α.sat a ↔ α.sat b) (R := fun r α => (α.sat r → (α.sat a ↔ α.sat b)) ∧ (α.sat a → α.sat b → α.sat r)) h hr (by
          intro l hl
          split at hl <;> simp at hl <;> rcases hl with rfl | rfl <;> assumption) (by
          intro c hc l hl
          simp at hc
          rcases hc with rfl | rfl | rfl <;> simp at hl <;> rcases hl with rfl | rfl | rfl <;>
            first | exact Nat.le_refl _ | exact Nat.le_of_lt ha | exact Nat.le_of_lt hb) (by
          intro c hc
          simp at hc
          rcases hc with rfl | rfl | rfl
          · exact ⟨Lit.neg ⟨s.nvars, true⟩, by simp, b, by simp, rfl, hb, hvb⟩
          · exact ⟨Lit.neg ⟨s.nvars, true⟩, by simp, a, by simp, rfl, ha, hva⟩
          · exact ⟨⟨s.nvars, true⟩, by simp, a.neg, by simp, rfl, ha, by rw [value_neg, hva]; rfl⟩)
        (by
          intro α β hab
          rw [agree_sat hab ha, agree_sat hab hb]) (by
          intro α
          simp only [Asg.clause, List.mem_cons, List.not_mem_nil, or_false, forall_eq_or_imp, forall_eq, exists_eq_or_imp, exists_eq_left, Asg.sat_neg]
          by_cases h1 : α.sat a <;> by_cases h2 : α.sat b <;> by_cases h3 : α.sat ⟨s.nvars, true⟩ <;> simp [h1, h2, h3])
        (by
          intro α hα
          exact ⟨hα.1, fun x y => hα.2 ⟨fun _ => y, fun _ => x⟩⟩) (by
          intro α hα x y hxy
          split at hxy
          · simp at hxy; obtain ⟨rfl, rfl⟩ := hxy; exact hα
          · simp at hxy; obtain ⟨rfl, rfl⟩ := hxy
            exact ⟨fun x => (hα.1 x).symm, fun x y => hα.2 y x⟩)
      exact ⟨s', _, h1, h2, Or.inl (by rw [hU]; exact ⟨e, hva, hvb⟩)⟩

end Sat
end Semitone
