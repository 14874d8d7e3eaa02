import Verif.Sat.Frame
import Verif.Sat.Share
import Verif.Sat.HaltOps
import Verif.Sat.PropsB

/-!
# What the literals of the core mean, on every run that does not fail

`Reify`, `Amo` and `Exo` say what the literal returned by a constructor means in every solution of the network, for theories that record clauses that follow. Here the theories may record wrong clauses: a literal means what was
asked in every truth assignment that satisfies the clauses posted by the client and the literals that are true at root level (`Rt`). These assignments only get fewer as the session goes on, and the assignment the core ends with is
one of them.
-/
namespace Semitone
namespace Sat
variable {T : Type} {O : TheoryOps T} {K : Firm O} {E : Env}

/-- The truth assignment makes `FALSE_lit` false and satisfies every clause posted so far and every literal that is true at root level. -/
structure Rt (s : Sat T) (α : Asg) : Prop where
  fls : α 0 = false
  cls : ∀ D ∈ s.posted, α.clause D
  lit : ∀ q, s.tru 0 q → α.sat q

/-- Every remembered expression means what its key says. -/
def Vow (s : Sat T) : Prop := ∀ k ls r, (key k ls, r) ∈ s.exprs → ∀ α, s.Rt α → mean k α ls r

theorem Rt.sat_true {s : Sat T} {α : Asg} (h : s.Rt α) : α.sat TRUE_lit := by
  simp [Asg.sat, TRUE_lit, FALSE_lit, Lit.neg, h.fls]

theorem Rt.not_false {s : Sat T} {α : Asg} (h : s.Rt α) : ¬ α.sat FALSE_lit := by
  simp [Asg.sat, FALSE_lit, h.fls]

theorem Rt.root_true {s : Sat T} {α : Asg} (h : s.Rt α) (hw : s.TW) (hr : s.root = true) {q : Lit} (hq : s.value q = some true) : α.sat q := h.lit q (tru_zero hw hr hq)

theorem Rt.root_false {s : Sat T} {α : Asg} (h : s.Rt α) (hw : s.TW) (hr : s.root = true) {q : Lit} (hq : s.value q = some false) : ¬ α.sat q := by
  have : s.value q.neg = some true := by rw [value_neg, hq]; rfl
  exact (α.sat_neg q).1 (h.root_true hw hr this)

/-- The session goes on: nothing is forgotten. -/
structure Onw (s s' : Sat T) : Prop where
  nv : s.nvars ≤ s'.nvars
  post : ∀ D ∈ s.posted, D ∈ s'.posted
  lit : ∀ q, s.tru 0 q → s'.tru 0 q

theorem Onw.refl (s : Sat T) : Onw s s := ⟨Nat.le_refl _, fun _ h => h, fun _ h => h⟩

theorem Onw.trans {s1 s2 s3 : Sat T} (h1 : Onw s1 s2) (h2 : Onw s2 s3) : Onw s1 s3 :=
  ⟨Nat.le_trans h1.nv h2.nv, fun D h => h2.post D (h1.post D h), fun q h => h2.lit q (h1.lit q h)⟩

theorem Onw.rt {s s' : Sat T} (h : Onw s s') {α : Asg} (hα : s'.Rt α) : s.Rt α := ⟨hα.fls, fun D hD => hα.cls D (h.post D hD), fun q hq => hα.lit q (h.lit q hq)⟩

theorem Vow.onw {s s' : Sat T} (h : s.Vow) (ho : Onw s s') (he : s'.exprs = s.exprs) : s'.Vow := fun k ls r hm α hα => h k ls r (he ▸ hm) α (ho.rt hα)

/-- Constraints were added. -/
structure Grown (K : Firm O) (s s' : Sat T) : Prop extends Onw s s' where
  st : s'.Steady K
  vow : s'.Vow
  lim : s'.trailLim = s.trailLim

theorem Grown.refl {s : Sat T} (h : s.Steady K) (hv : s.Vow) : Grown K s s := ⟨.refl s, h, hv, rfl⟩

theorem Grown.trans {s1 s2 s3 : Sat T} (h1 : Grown K s1 s2) (h2 : Grown K s2 s3) : Grown K s1 s3 := ⟨h1.toOnw.trans h2.toOnw, h2.st, h2.vow, h2.lim.trans h1.lim⟩

theorem Grown.root {s s' : Sat T} (h : Grown K s s') : s'.root = s.root := by simp [Sat.root, h.lim]

theorem Mild.onw {s s' : Sat T} (h : s.Mild s') (hp : ∀ D ∈ s.posted, D ∈ s'.posted) : Onw s s' := ⟨h.nv, hp, fun q => h.up 0 q⟩

/-! ### Posting -/

theorem newClause_posted {s s' : Sat T} {ls b} (h : s.newClause E ls = .ok (s', b)) : s'.posted = ls :: s.posted := by
  unfold newClause at h
  split at h
  · cases h
  split at h
  · cases h
  simp only at h
  split at h
  · injection h with h; injection h with h1 h2; subst h1; rfl
  · injection h with h; injection h with h1 h2; subst h1; rfl
  · next l hf =>
    injection h with h
    have e : (({ s with posted := ls :: s.posted } : Sat T).enqueue l none).1.posted = ls :: s.posted := by unfold enqueue; split <;> rfl
    rw [h] at e; exact e
  · split at h
    · cases h
    · next u c hc =>
      injection h with h; injection h with h1 h2; subst h1
      unfold newClauseObj at hc
      split at hc
      · injection hc with hc; injection hc with h1 h2; subst h1; rfl
      · cases hc

/-- A clause with two unassigned literals over different variables assigns nothing. -/
theorem newClause_still {s s' : Sat T} {ls b} (h : s.newClause E ls = .ok (s', b)) (hq : ∃ x ∈ ls, ∃ y ∈ ls, x.var ≠ y.var ∧ s.value x = none ∧ s.value y = none) : s'.assigns = s.assigns := by
  obtain ⟨x, hx, y, hy, hxy, vx, vy⟩ := hq
  unfold newClause at h
  split at h
  · cases h
  split at h
  · cases h
  simp only at h
  split at h
  · injection h with h; injection h with h1 h2; subst h1; rfl
  · injection h with h; injection h with h1 h2; subst h1; rfl
  · next l hf =>
    obtain ⟨-, a, -⟩ := filt_sorted E _ _ _ _ hf
    rcases a x hx with hx | hx
    · rcases a y hy with hy | hy
      · simp at hx hy; subst hx; subst hy; exact absurd rfl hxy
      · rw [vy] at hy; cases hy
    · rw [vx] at hx; cases hx
  · split at h
    · cases h
    · next u c hc =>
      injection h with h; injection h with h1 h2; subst h1
      unfold newClauseObj at hc
      split at hc
      · injection hc with hc; injection hc with h1 h2; subst h1; rfl
      · cases hc

theorem postAll_posted : ∀ (cls : List (List Lit)) {s s' : Sat T} {b}, postAll E cls s = .ok (s', b) →
    (∀ D ∈ s.posted, D ∈ s'.posted) ∧ (b = true → ∀ c ∈ cls, c ∈ s'.posted) ∧
    ((∀ c ∈ cls, ∃ x ∈ c, ∃ y ∈ c, x.var ≠ y.var ∧ s.value x = none ∧ s.value y = none) → s'.assigns = s.assigns)
  | [], s, s', b, h => by
    injection h with h; injection h with h1 h2; subst h1
    exact ⟨fun _ h => h, (fun _ c hc => by cases hc), fun _ => rfl⟩
  | c :: cls, s, s', b, h => by
    simp only [postAll] at h
    match hc : s.newClause E c with
    | .error e => simp [hc] at h
    | .ok (s1, false) =>
      simp only [hc] at h
      injection h with h; injection h with e1 e2; subst e1 e2
      refine ⟨fun D hD => ?_, (fun hb => by cases hb), fun hq => newClause_still hc (hq c (by simp))⟩
      rw [newClause_posted hc]; exact List.mem_cons_of_mem _ hD
    | .ok (s1, true) =>
      simp only [hc] at h
      obtain ⟨a1, a2, a3⟩ := postAll_posted cls h
      have hp := newClause_posted hc
      refine ⟨fun D hD => a1 D (by rw [hp]; exact List.mem_cons_of_mem _ hD), fun hb d hd => ?_, fun hq => ?_⟩
      · rcases List.mem_cons.1 hd with rfl | hd
        · exact a1 d (by rw [hp]; exact List.mem_cons_self)
        · exact a2 hb d hd
      · have q := newClause_still hc (hq c (by simp))
        rw [← q]
        refine a3 (fun d hd => ?_)
        obtain ⟨x, hx, y, hy, h1, h2, h3⟩ := hq d (by simp [hd])
        exact ⟨x, hx, y, hy, h1, by rw [value_none, q, ← value_none]; exact h2, by rw [value_none, q, ← value_none]; exact h3⟩

/-- Definition of a literal by clauses that give it its meaning. -/
theorem define_vow {s s' : Sat T} {k ls ctr cls r} (h : s.Steady K) (hv : s.Vow) (hr : s.root = true) (he : define E s (key k ls) ctr cls = .ok (s', r))
    (hm : ∀ α, s.Rt α → (∀ c ∈ cls, α.clause c) → mean k α ls ctr) :
    s'.dead = true ∨ (r = ctr ∧ Grown K s s' ∧ (∀ c ∈ cls, c ∈ s'.posted) ∧
      ((∀ c ∈ cls, ∃ x ∈ c, ∃ y ∈ c, x.var ≠ y.var ∧ s.value x = none ∧ s.value y = none) → s'.assigns = s.assigns)) := by
  have hA := define_adds (K := K) he
  rcases hA.ok hr h with hd | ⟨hS, hM⟩
  · exact .inl hd
  unfold define at he
  match hp : postAll E cls s with
  | .error e => simp [hp] at he
  | .ok (u, false) =>
    simp only [hp] at he
    injection he with he; injection he with e1 e2; subst e1
    exact .inl ((postAll_exprs cls hp).2 (.inr rfl))
  | .ok (u, true) =>
    simp only [hp] at he
    injection he with he; injection he with e1 e2; subst e1
    obtain ⟨a1, a2, a3⟩ := postAll_posted cls hp
    have ho : Onw s (u.addExpr (key k ls) ctr) := hM.onw a1
    refine .inr ⟨e2.symm, ⟨ho, hS, ?_, hA.lim⟩, a2 rfl, a3⟩
    intro k' ls' r' hmem α hα
    rcases List.mem_cons.1 hmem with e | hmem
    · injection e with e1 e2
      obtain ⟨rfl, rfl⟩ := key_inj e1
      subst e2
      exact hm α (ho.rt hα) (fun c hc => hα.cls c (a2 rfl c hc))
    · have hmem : (key k' ls', r') ∈ u.exprs := hmem
      rw [(postAll_exprs cls hp).1] at hmem
      exact hv k' ls' r' hmem α (ho.rt hα)

theorem newVar_grown {s : Sat T} (h : s.Steady K) (hv : s.Vow) : Grown K s s.newVar.1 := by
  have ho : Onw s s.newVar.1 := h.tw.newVar_mild.onw (fun _ h => h)
  refine ⟨ho, newVar_steady h, ?_, rfl⟩
  intro k ls r hmem α hα
  rcases List.mem_cons.1 hmem with e | hmem
  · injection e with e1 e2; exact absurd e1 (key_ne_var k ls _)
  · exact hv k ls r hmem α (ho.rt hα)

theorem fresh_none {s : Sat T} (h : s.TW) {v : Nat} (hv : s.nvars ≤ v) : s.assigns v = none := by
  by_contra hx
  exact absurd (h.rng _ hx) (by omega)

/-- A fresh variable defined by clauses, each with a literal of the fresh variable and an unassigned one. -/
theorem define_new {s s' : Sat T} {k ls cls r} (h : s.Steady K) (hv : s.Vow) (hr : s.root = true) (he : define E s.newVar.1 (key k ls) ⟨s.nvars, true⟩ cls = .ok (s', r))
    (hm : ∀ α : Asg, (∀ c ∈ cls, α.clause c) → mean k α ls ⟨s.nvars, true⟩)
    (hq : ∀ c ∈ cls, ∃ x ∈ c, ∃ y ∈ c, x.var = s.nvars ∧ y.var < s.nvars ∧ s.value y = none) :
    s'.dead = true ∨ (r = ⟨s.nvars, true⟩ ∧ Grown K s s' ∧ s'.assigns = s.assigns ∧ ∀ α, s'.Rt α → ∀ c ∈ cls, α.clause c) := by
  have hg := newVar_grown h hv
  have ha := (newVar_assigns h.tw).1
  rcases define_vow hg.st hg.vow (by rw [hg.root]; exact hr) he (fun α _ => hm α) with hd | ⟨e, g, p, q⟩
  · exact .inl hd
  · refine .inr ⟨e, hg.trans g, ?_, fun α hα c hc => hα.cls c (p c hc)⟩
    rw [q, ha]
    intro c hc
    obtain ⟨x, hx, y, hy, h1, h2, h3⟩ := hq c hc
    refine ⟨x, hx, y, hy, by omega, ?_, ?_⟩
    · rw [value_none, ha]; exact fresh_none h.tw (Nat.le_of_eq h1.symm)
    · rw [value_none, ha, ← value_none]; exact h3

/-! ### Conjunctions and disjunctions -/

theorem newConj_vow {s s' : Sat T} {ls : List Lit} {r : Lit} (h : s.Steady K) (hv : s.Vow) (he : s.newConj E ls = .ok (s', r)) :
    s'.dead = true ∨ (Grown K s s' ∧ s'.assigns = s.assigns ∧ ∀ α, s'.Rt α → (α.sat r ↔ α.all ls)) := by
  unfold newConj at he
  split at he
  · cases he
  next hr =>
  have hr : s.root = true := by simpa using hr
  split at he
  · cases he
  next hin =>
  have hin : ∀ l ∈ ls, l.var < s.nvars := inRange_true hin
  match hf : filt false s.value none (E.sortVar ls) with
  | none =>
    simp only [hf] at he
    injection he with he; injection he with e1 e2; subst e1; subst e2
    refine .inr ⟨.refl h hv, rfl, fun α hα => ?_⟩
    obtain ⟨l, hl, hc⟩ := filt_sorted_none E _ _ _ hf
    refine ⟨fun h2 => absurd h2 hα.not_false, fun h2 => ?_⟩
    exfalso
    rcases hc with hc | hc
    · exact hα.root_false h.tw hr hc (h2 l hl)
    · exact (α.sat_neg l).1 (h2 _ hc) (h2 l hl)
  | some out =>
    obtain ⟨a1, a2, a3⟩ := filt_sorted E _ _ _ _ hf
    simp only [Bool.not_false] at a2
    have hall : ∀ α, s.Rt α → (α.all out ↔ α.all ls) := by
      intro α hα
      constructor
      · intro h1 l hl
        rcases a2 l hl with h2 | h2
        · exact h1 l h2
        · exact hα.root_true h.tw hr h2
      · intro h1 l hl; exact h1 l (a1 l hl).1
    match out, a1, a2, a3, hall with
    | [], a1, a2, a3, hall =>
      simp only [hf] at he
      injection he with he; injection he with e1 e2; subst e1; subst e2
      refine .inr ⟨.refl h hv, rfl, fun α hα => ?_⟩
      rw [← hall α hα]
      exact ⟨fun _ => by simp [Asg.all], fun _ => hα.sat_true⟩
    | [l], a1, a2, a3, hall =>
      simp only [hf] at he
      injection he with he; injection he with e1 e2; subst e1; subst e2
      refine .inr ⟨.refl h hv, rfl, fun α hα => ?_⟩
      rw [← hall α hα]; simp [Asg.all]
    | l0 :: l1 :: r', a1, a2, a3, hall =>
      simp only [hf] at he
      have hkey : "&" ++ litsStr (l0 :: l1 :: r') = key .conj (l0 :: l1 :: r') := rfl
      rw [hkey] at he
      match hfe : s.findExpr (key .conj (l0 :: l1 :: r')) with
      | some c =>
        simp only [hfe] at he
        injection he with he; injection he with e1 e2; subst e1; subst e2
        exact .inr ⟨.refl h hv, rfl, fun α hα => by rw [← hall α hα]; exact hv _ _ _ (findExpr_mem hfe) α hα⟩
      | none =>
        simp only [hfe] at he
        have hnv : s.newVar.2 = s.nvars := rfl
        rw [hnv] at he
        have hdef : ∀ α : Asg, (∀ c ∈ (l0 :: l1 :: r').map (fun l => [Lit.neg ⟨s.nvars, true⟩, l]) ++ [⟨s.nvars, true⟩ :: (l0 :: l1 :: r').map Lit.neg], α.clause c) →
            (α.sat ⟨s.nvars, true⟩ ↔ α.all (l0 :: l1 :: r')) := by
          intro α hc
          constructor
          · intro hs l hl
            obtain ⟨x, hx, hxs⟩ := hc [Lit.neg ⟨s.nvars, true⟩, l] (by rw [List.mem_append]; left; exact List.mem_map.2 ⟨l, hl, rfl⟩)
            simp at hx
            rcases hx with rfl | rfl
            · exact absurd hs ((α.sat_neg _).1 hxs)
            · exact hxs
          · intro hall
            obtain ⟨x, hx, hxs⟩ := hc (⟨s.nvars, true⟩ :: (l0 :: l1 :: r').map Lit.neg) (by simp)
            rcases List.mem_cons.1 hx with rfl | hx
            · exact hxs
            · obtain ⟨y, hy, rfl⟩ := List.mem_map.1 hx
              exact absurd (hall y hy) ((α.sat_neg _).1 hxs)
        rcases define_new h hv hr he hdef (by
            intro c hc
            rw [List.mem_append, List.mem_map, List.mem_singleton] at hc
            rcases hc with ⟨x, hx, rfl⟩ | rfl
            · exact ⟨Lit.neg ⟨s.nvars, true⟩, by simp, x, by simp, rfl, hin x (a1 x hx).1, (a1 x hx).2⟩
            · refine ⟨_, List.mem_cons_self, l0.neg, by simp, rfl, hin l0 (a1 l0 (by simp)).1, ?_⟩
              rw [value_neg, (a1 l0 (by simp)).2]; rfl) with hd | ⟨e, g, q, c⟩
        · exact .inl hd
        · refine .inr ⟨g, q, fun α hα => ?_⟩
          rw [e, ← hall α (g.rt hα)]
          exact hdef α (c α hα)

theorem newDisj_vow {s s' : Sat T} {ls : List Lit} {r : Lit} (h : s.Steady K) (hv : s.Vow) (he : s.newDisj E ls = .ok (s', r)) :
    s'.dead = true ∨ (Grown K s s' ∧ s'.assigns = s.assigns ∧ ∀ α, s'.Rt α → (α.sat r ↔ α.clause ls)) := by
  unfold newDisj at he
  split at he
  · cases he
  next hr =>
  have hr : s.root = true := by simpa using hr
  split at he
  · cases he
  next hin =>
  have hin : ∀ l ∈ ls, l.var < s.nvars := inRange_true hin
  match hf : filt true s.value none (E.sortVar ls) with
  | none =>
    simp only [hf] at he
    injection he with he; injection he with e1 e2; subst e1; subst e2
    refine .inr ⟨.refl h hv, rfl, fun α hα => ?_⟩
    obtain ⟨l, hl, hc⟩ := filt_sorted_none E _ _ _ hf
    refine ⟨fun _ => ?_, fun _ => hα.sat_true⟩
    rcases hc with hc | hc
    · exact ⟨l, hl, hα.root_true h.tw hr hc⟩
    · by_cases hs : α.sat l
      · exact ⟨l, hl, hs⟩
      · exact ⟨_, hc, (α.sat_neg l).2 hs⟩
  | some out =>
    obtain ⟨a1, a2, a3⟩ := filt_sorted E _ _ _ _ hf
    simp only [Bool.not_true] at a2
    have hall : ∀ α, s.Rt α → (α.clause out ↔ α.clause ls) := by
      intro α hα
      constructor
      · rintro ⟨l, hl, hs⟩; exact ⟨l, (a1 l hl).1, hs⟩
      · rintro ⟨l, hl, hs⟩
        rcases a2 l hl with h2 | h2
        · exact ⟨l, h2, hs⟩
        · exact absurd hs (hα.root_false h.tw hr h2)
    match out, a1, a2, a3, hall with
    | [], a1, a2, a3, hall =>
      simp only [hf] at he
      injection he with he; injection he with e1 e2; subst e1; subst e2
      refine .inr ⟨.refl h hv, rfl, fun α hα => ?_⟩
      rw [← hall α hα]
      exact ⟨fun h1 => absurd h1 hα.not_false, fun ⟨x, hx, _⟩ => by cases hx⟩
    | [l], a1, a2, a3, hall =>
      simp only [hf] at he
      injection he with he; injection he with e1 e2; subst e1; subst e2
      refine .inr ⟨.refl h hv, rfl, fun α hα => ?_⟩
      rw [← hall α hα]; simp [Asg.clause]
    | l0 :: l1 :: r', a1, a2, a3, hall =>
      simp only [hf] at he
      have hkey : "|" ++ litsStr (l0 :: l1 :: r') = key .disj (l0 :: l1 :: r') := rfl
      rw [hkey] at he
      match hfe : s.findExpr (key .disj (l0 :: l1 :: r')) with
      | some c =>
        simp only [hfe] at he
        injection he with he; injection he with e1 e2; subst e1; subst e2
        exact .inr ⟨.refl h hv, rfl, fun α hα => by rw [← hall α hα]; exact hv _ _ _ (findExpr_mem hfe) α hα⟩
      | none =>
        simp only [hfe] at he
        have hnv : s.newVar.2 = s.nvars := rfl
        rw [hnv] at he
        have hdef : ∀ α : Asg, (∀ c ∈ (l0 :: l1 :: r').map (fun l => [l.neg, ⟨s.nvars, true⟩]) ++ [Lit.neg ⟨s.nvars, true⟩ :: (l0 :: l1 :: r')], α.clause c) →
            (α.sat ⟨s.nvars, true⟩ ↔ α.clause (l0 :: l1 :: r')) := by
          intro α hc
          constructor
          · intro hs
            obtain ⟨x, hx, hxs⟩ := hc (Lit.neg ⟨s.nvars, true⟩ :: (l0 :: l1 :: r')) (by simp)
            rcases List.mem_cons.1 hx with rfl | hx
            · exact absurd hs ((α.sat_neg _).1 hxs)
            · exact ⟨x, hx, hxs⟩
          · rintro ⟨l, hl, hs⟩
            obtain ⟨x, hx, hxs⟩ := hc [l.neg, ⟨s.nvars, true⟩] (by rw [List.mem_append]; left; exact List.mem_map.2 ⟨l, hl, rfl⟩)
            simp at hx
            rcases hx with rfl | rfl
            · exact absurd hs ((α.sat_neg _).1 hxs)
            · exact hxs
        rcases define_new h hv hr he hdef (by
            intro c hc
            rw [List.mem_append, List.mem_map, List.mem_singleton] at hc
            rcases hc with ⟨x, hx, rfl⟩ | rfl
            · refine ⟨⟨s.nvars, true⟩, by simp, x.neg, by simp, rfl, hin x (a1 x hx).1, ?_⟩
              rw [value_neg, (a1 x hx).2]; rfl
            · exact ⟨_, List.mem_cons_self, l0, by simp, rfl, hin l0 (a1 l0 (by simp)).1, (a1 l0 (by simp)).2⟩) with hd | ⟨e, g, q, c⟩
        · exact .inl hd
        · refine .inr ⟨g, q, fun α hα => ?_⟩
          rw [e, ← hall α (g.rt hα)]
          exact hdef α (c α hα)

/-! ### Equalities -/

/-- `new_eq`: what the code guarantees (see C15 for what it does not). -/
theorem newEq_vow {s s' : Sat T} {a b r : Lit} (h : s.Steady K) (hv : s.Vow) (he : s.newEq E a b = .ok (s', r)) :
    s'.dead = true ∨ (Grown K s s' ∧ s'.assigns = s.assigns ∧ ((a.sign = b.sign ∨ (s.value a = none ↔ s.value b = none)) → ∀ α, s'.Rt α →
      (α.sat r → (α.sat a ↔ α.sat b)) ∧ (α.sat a → α.sat b → α.sat r) ∧ (¬ (s.value a = none ∧ s.value b = none) → (α.sat r ↔ (α.sat a ↔ α.sat b))))) := by
  unfold newEq at he
  split at he
  · cases he
  next hr =>
  have hr : s.root = true := by simpa using hr
  split at he
  · cases he
  next hin =>
  have hin : ∀ l ∈ [a, b], l.var < s.nvars := inRange_true hin
  have ha := hin a (by simp)
  have hb := hin b (by simp)
  have wk : ∀ {u : Sat T} {q : Lit}, u = s → q = r → ((a.sign = b.sign ∨ (s.value a = none ↔ s.value b = none)) → ∀ α, s.Rt α → (α.sat q ↔ (α.sat a ↔ α.sat b))) →
      u.dead = true ∨ (Grown K s u ∧ u.assigns = s.assigns ∧ ((a.sign = b.sign ∨ (s.value a = none ↔ s.value b = none)) → ∀ α, u.Rt α →
      (α.sat r → (α.sat a ↔ α.sat b)) ∧ (α.sat a → α.sat b → α.sat r) ∧ (¬ (s.value a = none ∧ s.value b = none) → (α.sat r ↔ (α.sat a ↔ α.sat b))))) := by
    intro u q e1 e2 hx
    subst e1; subst e2
    exact .inr ⟨.refl h hv, rfl, fun hs α hα => ⟨(hx hs α hα).1, fun x y => (hx hs α hα).2 ⟨fun _ => y, fun _ => x⟩, fun _ => hx hs α hα⟩⟩
  split at he
  · next e =>
    injection he with he; injection he with e1 e2
    refine wk e1.symm e2 (fun _ α hα => ?_)
    rw [e]; exact ⟨fun _ => Iff.rfl, fun _ => hα.sat_true⟩
  next hne =>
  have ht : ∀ {q : Lit} {α : Asg}, s.value q = some true → s.Rt α → α.sat q := fun hq hα => hα.root_true h.tw hr hq
  have hf : ∀ {q : Lit} {α : Asg}, s.value q = some false → s.Rt α → ¬ α.sat q := fun hq hα => hα.root_false h.tw hr hq
  split at he
  · next va vb =>
    injection he with he; injection he with e1 e2
    exact wk e1.symm e2 (fun _ α hα => by simp [hα.sat_true, ht va hα, ht vb hα])
  · next va vb =>
    injection he with he; injection he with e1 e2
    exact wk e1.symm e2 (fun _ α hα => by simp [hα.not_false, ht va hα, hf vb hα])
  · next va vb =>
    injection he with he; injection he with e1 e2
    refine wk e1.symm e2 (fun hs α hα => ?_)
    have hs' : a.sign = b.sign := by rcases hs with h1 | h1; exact h1; simp [va, vb] at h1
    simp [hs', ht va hα]
  · next va vb =>
    injection he with he; injection he with e1 e2
    exact wk e1.symm e2 (fun _ α hα => by simp [hα.not_false, hf va hα, ht vb hα])
  · next va vb =>
    injection he with he; injection he with e1 e2
    exact wk e1.symm e2 (fun _ α hα => by simp [hα.sat_true, hf va hα, hf vb hα])
  · next va vb =>
    injection he with he; injection he with e1 e2
    refine wk e1.symm e2 (fun hs α hα => ?_)
    have hs' : a.sign = b.sign := by rcases hs with h1 | h1; exact h1; simp [va, vb] at h1
    simp [hs', hf va hα, Asg.sat_neg]
  · next va vb =>
    injection he with he; injection he with e1 e2
    refine wk e1.symm e2 (fun hs α hα => ?_)
    have hs' : a.sign = b.sign := by rcases hs with h1 | h1; exact h1; simp [va, vb] at h1
    simp [hs', ht vb hα]
  · next va vb =>
    injection he with he; injection he with e1 e2
    refine wk e1.symm e2 (fun hs α hα => ?_)
    have hs' : a.sign = b.sign := by rcases hs with h1 | h1; exact h1; simp [va, vb] at h1
    simp [hs', hf vb hα, Asg.sat_neg]
  · next va vb =>
    rw [eqKey_eq] at he
    have sym : ∀ {α : Asg} {q : Lit}, mean .eq α (if litLt a b then [a, b] else [b, a]) q → (α.sat q → (α.sat a ↔ α.sat b)) ∧ (α.sat a → α.sat b → α.sat q) := by
      intro α q hx
      by_cases hlt : litLt a b = true
      · rw [if_pos hlt] at hx; exact hx a b rfl
      · rw [if_neg hlt] at hx
        exact ⟨fun x => ((hx b a rfl).1 x).symm, fun x y => (hx b a rfl).2 y x⟩
    match hfe : s.findExpr (key .eq (if litLt a b then [a, b] else [b, a])) with
    | some c =>
      simp only [hfe] at he
      injection he with he; injection he with e1 e2; subst e1; subst e2
      exact .inr ⟨.refl h hv, rfl, fun _ α hα => ⟨(sym (hv _ _ _ (findExpr_mem hfe) α hα)).1, (sym (hv _ _ _ (findExpr_mem hfe) α hα)).2, fun hx => absurd ⟨va, vb⟩ hx⟩⟩
    | none =>
      simp only [hfe] at he
      have hnv : s.newVar.2 = s.nvars := rfl
      rw [hnv] at he
      have hdef : ∀ α : Asg, (∀ c ∈ [[Lit.neg ⟨s.nvars, true⟩, a.neg, b], [Lit.neg ⟨s.nvars, true⟩, a, b.neg], [⟨s.nvars, true⟩, a.neg, b.neg]], α.clause c) →
          mean .eq α (if litLt a b then [a, b] else [b, a]) ⟨s.nvars, true⟩ := by
        intro α hα x y hxy
        have : (α.sat ⟨s.nvars, true⟩ → (α.sat a ↔ α.sat b)) ∧ (α.sat a → α.sat b → α.sat ⟨s.nvars, true⟩) := by
          simp only [Asg.clause, List.mem_cons, List.not_mem_nil, or_false, forall_eq_or_imp, forall_eq, exists_eq_or_imp, exists_eq_left, Asg.sat_neg] at hα
          revert hα
          by_cases h1 : α.sat a <;> by_cases h2 : α.sat b <;> by_cases h3 : α.sat ⟨s.nvars, true⟩ <;> simp [h1, h2, h3]
        split at hxy
        · simp at hxy; obtain ⟨rfl, rfl⟩ := hxy; exact this
        · simp at hxy; obtain ⟨rfl, rfl⟩ := hxy
          exact ⟨fun x => (this.1 x).symm, fun x y => this.2 y x⟩
      rcases define_new h hv hr he hdef (by
          intro c hc
          simp at hc
          rcases hc with rfl | rfl | rfl
          · exact ⟨Lit.neg ⟨s.nvars, true⟩, by simp, b, by simp, rfl, hb, vb⟩
          · exact ⟨Lit.neg ⟨s.nvars, true⟩, by simp, a, by simp, rfl, ha, va⟩
          · exact ⟨⟨s.nvars, true⟩, by simp, a.neg, by simp, rfl, ha, by rw [value_neg, va]; rfl⟩) with hd | ⟨e, g, q, c⟩
      · exact .inl hd
      · refine .inr ⟨g, q, fun _ α hα => ?_⟩
        have := sym (hdef α (c α hα))
        rw [e]
        exact ⟨this.1, this.2, fun hx => absurd ⟨va, vb⟩ hx⟩

end Sat
end Semitone
