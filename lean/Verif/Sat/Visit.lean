import Verif.Sat.Cut

/-!
# Semantic invariant, watch invariant, and the propagation of one literal through the clauses
-/
namespace Semitone
namespace Sat
variable {T : Type}

/-! ### entailment -/

section
variable {Th : T → Asg → Prop}

theorem decUpTo_sub (s : Sat T) {n m : Nat} (h : n ≤ m) : ∀ l ∈ s.decUpTo n, l ∈ s.decUpTo m := by
  intro l hl
  unfold decUpTo at *
  have : s.decisions.length - n = (s.decisions.length - m) + ((s.decisions.length - n) - (s.decisions.length - m)) := by
    omega
  rw [this, ← List.drop_drop] at hl
  exact List.mem_of_mem_drop hl

theorem EntD.mono {s : Sat T} {n m : Nat} {p : Lit} (h : s.EntD Th n p) (hnm : n ≤ m) : s.EntD Th m p :=
  fun α hα hd => h α hα (fun l hl => hd l (decUpTo_sub s hnm l hl))

theorem Sol.congr {s s' : Sat T} (hp : s'.posted = s.posted) (ht : ∀ α, Th s'.th α ↔ Th s.th α) (α : Asg) :
    s'.Sol Th α ↔ s.Sol Th α := by
  constructor
  · intro h; exact ⟨h.1, hp ▸ h.2.1, (ht α).1 h.2.2⟩
  · intro h; exact ⟨h.1, hp ▸ h.2.1, (ht α).2 h.2.2⟩

end

/-- Semantic invariant: the stored clauses are consequences, and every assigned literal is a consequence of the decisions up
to its level. -/
structure Sem {O : TheoryOps T} (C : Contract O) (s : Sat T) : Prop where
  cls : ∀ c ∈ s.constrs, s.Ent C.Th (s.db c)
  val : ∀ q, s.value q = some true → s.EntD C.Th (s.level q.var) q

/-- Everything the core looks at is unchanged except the assignment, which has grown, and the order of the literals in the
clauses. -/
structure Grow (s s' : Sat T) : Prop where
  suf : s.trail <:+ s'.trail
  lim : s'.trailLim = s.trailLim
  dec : s'.decisions = s.decisions
  nv : s'.nvars = s.nvars
  posted : s'.posted = s.posted
  th : s'.th = s.th
  constrs : s'.constrs = s.constrs
  ncls : s'.ncls = s.ncls
  exprs : s'.exprs = s.exprs
  bounds : s'.bounds = s.bounds
  dead : s'.dead = s.dead
  db : ∀ c, (s'.db c).Perm (s.db c)
  same : ∀ v, s.assigns v ≠ none → s'.assigns v = s.assigns v ∧ s'.level v = s.level v ∧ s'.reason v = s.reason v
  que : ∃ new, s'.propQ = s.propQ ++ new ∧ s'.trail = new.reverse ++ s.trail ∧ ∀ v, s'.assigns v ≠ none → s.assigns v ≠ none ∨ ∃ q ∈ new, q.var = v
  new : ∀ v, s.assigns v = none → s'.assigns v ≠ none → s'.level v = s.trailLim.length

theorem Grow.refl (s : Sat T) : Grow s s :=
  ⟨List.suffix_refl _, rfl, rfl, rfl, rfl, rfl, rfl, rfl, rfl, rfl, rfl, fun _ => List.Perm.refl _,
    fun _ _ => ⟨rfl, rfl, rfl⟩, ⟨[], by simp, by simp, fun _ h => Or.inl h⟩, fun _ h h' => absurd h h'⟩

theorem Grow.trans {s1 s2 s3 : Sat T} (h1 : Grow s1 s2) (h2 : Grow s2 s3) : Grow s1 s3 where
  suf := h1.suf.trans h2.suf
  lim := h2.lim.trans h1.lim
  dec := h2.dec.trans h1.dec
  nv := h2.nv.trans h1.nv
  posted := h2.posted.trans h1.posted
  th := h2.th.trans h1.th
  constrs := h2.constrs.trans h1.constrs
  ncls := h2.ncls.trans h1.ncls
  exprs := h2.exprs.trans h1.exprs
  bounds := h2.bounds.trans h1.bounds
  dead := h2.dead.trans h1.dead
  db := fun c => (h2.db c).trans (h1.db c)
  same := fun v hv => by
    have a := h1.same v hv
    have b := h2.same v (by rw [a.1]; exact hv)
    exact ⟨b.1.trans a.1, b.2.1.trans a.2.1, b.2.2.trans a.2.2⟩
  que := by
    obtain ⟨n1, a1, b1, c1⟩ := h1.que
    obtain ⟨n2, a2, b2, c2⟩ := h2.que
    refine ⟨n1 ++ n2, by rw [a2, a1, List.append_assoc], by rw [b2, b1]; simp, fun v hv => ?_⟩
    rcases c2 v hv with h | ⟨q, hq, e⟩
    · rcases c1 v h with h | ⟨q, hq, e⟩
      · exact Or.inl h
      · exact Or.inr ⟨q, by simp [hq], e⟩
    · exact Or.inr ⟨q, by simp [hq], e⟩
  new := fun v hv hv' => by
    by_cases h : s2.assigns v = none
    · rw [h2.new v h hv', h1.lim]
    · rw [(h2.same v h).2.1]; exact h1.new v hv h

theorem Grow.value {s s' : Sat T} (h : Grow s s') {q : Lit} {b} (hq : s.value q = some b) : s'.value q = some b := by
  rw [value_eq] at hq ⊢
  rw [(h.same q.var (by rw [hq]; simp)).1]; exact hq

theorem Grow.level {s s' : Sat T} (h : Grow s s') {q : Lit} {b} (hq : s.value q = some b) :
    s'.level q.var = s.level q.var := by
  rw [value_eq] at hq
  exact (h.same q.var (by rw [hq]; simp)).2.1

theorem Grow.dl {s s' : Sat T} (h : Grow s s') : s'.dl = s.dl := by simp [Sat.dl, h.lim]

theorem enq_grow {s : Sat T} {p : Lit} {c} (hp : s.value p = none) : Grow s (s.enq p c) where
  suf := List.suffix_cons _ _
  lim := rfl
  dec := rfl
  nv := rfl
  posted := rfl
  th := rfl
  constrs := rfl
  ncls := rfl
  exprs := rfl
  bounds := rfl
  dead := rfl
  db := fun _ => List.Perm.refl _
  same := fun v hv => by
    have e : v ≠ p.var := by intro e; rw [value_none, ← e] at hp; exact hv hp
    simp [enq, upd_ne _ _ e]
  que := ⟨[p], by simp [enq], by simp [enq], fun v hv => by
    by_cases e : v = p.var
    · exact Or.inr ⟨p, by simp, e.symm⟩
    · simp [enq, upd_ne _ _ e] at hv; exact Or.inl hv⟩
  new := fun v hv hv' => by
    by_cases e : v = p.var
    · simp [enq, e, dl]
    · simp [enq, upd_ne _ _ e] at hv'; exact absurd hv hv'

/-! ### the watch invariant -/

/-- The literal is false at root level. -/
def rootF (s : Sat T) (a : Lit) : Prop := s.value a = some false ∧ s.level a.var = 0

/-- Repetitions in a clause: only literals false at root level, and the two watched literals are different. -/
def Distinct (s : Sat T) (l : List Lit) : Prop := l.Pairwise (fun a b => a = b → s.rootF a) ∧ ∀ w r, l ≠ w :: w :: r

theorem Distinct.of_nodup (s : Sat T) {l : List Lit} (h : l.Nodup) : s.Distinct l := by
  refine ⟨h.imp (fun h e => absurd e h), ?_⟩
  rintro w r rfl
  simp at h

theorem Distinct.mono {s s' : Sat T} {l : List Lit} (h : s.Distinct l) (hm : ∀ a ∈ l, s.rootF a → s'.rootF a) : s'.Distinct l := by
  refine ⟨?_, h.2⟩
  have := h.1
  rw [List.pairwise_iff_forall_sublist] at this ⊢
  intro a b hab e
  exact hm a (hab.subset (by simp)) (this hab e)

theorem Distinct.perm {s : Sat T} {l l' : List Lit} (h : s.Distinct l) (hp : l'.Perm l) (h2 : ∀ w r, l' ≠ w :: w :: r) : s.Distinct l' := by
  refine ⟨hp.symm.pairwise h.1 ?_, h2⟩
  intro a b hab e
  exact e ▸ hab e.symm

theorem Distinct.ne {s : Sat T} {a b : Lit} {r l} (h : s.Distinct l) (hl : l = a :: b :: r ∨ l = b :: a :: r) : a ≠ b := by
  rintro rfl
  rcases hl with e | e <;> exact h.2 a r e

theorem enq_rootF {s : Sat T} {p : Lit} {c} (hp : s.value p = none) {a : Lit} (h : s.rootF a) : (s.enq p c).rootF a := by
  have e : a.var ≠ p.var := by
    intro e
    have := h.1
    rw [value_false, e] at this
    rw [value_none, this] at hp
    cases hp
  exact ⟨by rw [enq_value_ne e]; exact h.1, by simp [enq, upd_ne _ _ e]; exact h.2⟩

/-- Watch invariant: a false watch either is excused by `ok` or the other watch is true, at a level that is not higher. -/
structure Fix (s : Sat T) (ok : Lit → Nat → Prop) : Prop where
  nd : ∀ c ∈ s.constrs, s.Distinct (s.db c)
  fx : ∀ c ∈ s.constrs, ∀ w w' r, (s.db c = w :: w' :: r ∨ s.db c = w' :: w :: r) → s.value w = some false →
    ok w c ∨ (s.value w' = some true ∧ s.level w'.var ≤ s.level w.var)

/-- Excuse while the watchers `cs` of `p` are still to be visited. -/
def okV (s : Sat T) (p : Lit) (cs : List Nat) (w : Lit) (c : Nat) : Prop := w.neg ∈ s.propQ ∨ (w.neg = p ∧ c ∈ cs)
/-- Excuse in a conflict. -/
def okC (s : Sat T) (w : Lit) (_ : Nat) : Prop := s.level w.var = s.dl
/-- Excuse between two iterations. -/
def okQ (s : Sat T) (w : Lit) (_ : Nat) : Prop := w.neg ∈ s.propQ

theorem Fix.weaken {s : Sat T} {ok ok' : Lit → Nat → Prop} (h : s.Fix ok)
    (hw : ∀ c ∈ s.constrs, ∀ w, s.value w = some false → ok w c → ok' w c) : s.Fix ok' :=
  ⟨h.nd, fun c hc w w' r hd hv => (h.fx c hc w w' r hd hv).imp_left (hw c hc w hv)⟩

theorem Sem.enq {O : TheoryOps T} {C : Contract O} {s : Sat T} {ex} (hw : s.WF ex) (h : s.Sem C) {p : Lit} {r}
    (hp : s.value p = none) (he : s.EntD C.Th s.dl p) : (s.enq p r).Sem C where
  cls := h.cls
  val := fun q hq => by
    by_cases e : q.var = p.var
    · have : q = p := by
        rcases Lit.eq_or_neg e with e | e
        · exact e
        · rw [e, value_neg_true, enq_value_self] at hq; cases hq
      subst this
      have : (s.enq q r).level q.var = s.dl := by simp [Sat.enq]
      rw [this]; exact he
    · rw [enq_value_ne e] at hq
      have : (s.enq p r).level q.var = s.level q.var := by simp [Sat.enq, upd_ne _ _ e]
      rw [this]; exact h.val q hq

/-- A clause all of whose literals but the first are false implies the first, under the current decisions. -/
theorem Sem.unit {O : TheoryOps T} {C : Contract O} {s : Sat T} {ex} (hw : s.WF ex) (h : s.Sem C) {a : Lit} {rest : List Lit}
    (hc : s.Ent C.Th (a :: rest)) (hf : ∀ q ∈ rest, s.value q = some false) : s.EntD C.Th s.dl a := by
  intro α hα hd
  obtain ⟨l, hl, hs⟩ := hc α hα
  rcases List.mem_cons.1 hl with rfl | hl
  · exact hs
  · exfalso
    have h1 := hf l hl
    rw [← value_neg_true] at h1
    have h2 := (h.val _ h1).mono (hw.level_le _) α hα hd
    exact ((α.sat_neg l).1 h2) hs

/-- A clause all of whose literals are false is inconsistent with the current decisions. -/
theorem Sem.conflict {O : TheoryOps T} {C : Contract O} {s : Sat T} {ex} (hw : s.WF ex) (h : s.Sem C) {cl : List Lit}
    (hc : s.Ent C.Th cl) (hf : ∀ q ∈ cl, s.value q = some false) : s.UnsatWith C.Th s.decisions := by
  intro α hα hd
  obtain ⟨l, hl, hs⟩ := hc α hα
  have h1 := hf l hl
  rw [← value_neg_true] at h1
  have h2 := (h.val _ h1).mono (hw.level_le _) α hα (by
    intro x hx
    exact hd x (List.mem_of_mem_drop hx))
  exact ((α.sat_neg l).1 h2) hs

/-! ### reordering a clause and watching another literal -/

/-- The state after the clause `c` has been reordered to `lits` and is watched through `m`. -/
def rew (s : Sat T) (c : Nat) (lits : List Lit) (m : Lit) : Sat T :=
  { s with db := upd s.db c lits, watches := upd s.watches m (s.watches m ++ [c]) }

theorem WF.rew {s : Sat T} {p c cs lits m} (h : s.WF (exAt p (c :: cs)))
    (hp : lits.Perm (s.db c)) (hr : ∀ v, s.reason v = some c → lits = s.db c)
    (hwc : ∀ m', wc lits m' + (if m' = p then 1 else 0) = wc (s.db c) m' + (if m' = m then 1 else 0)) :
    (s.rew c lits m).WF (exAt p cs) := by
  constructor
  case nv => exact h.nv
  case fv => exact h.fv
  case fvt => exact h.fvt
  case rng => exact h.rng
  case tval => exact h.tval
  case tnd => exact h.tnd
  case off => exact h.off
  case rsn =>
    intro v x hx
    have hx' : s.reason v = some x := hx
    have := h.rsn v x hx'
    by_cases e : x = c
    · subst e
      have e2 := hr v hx'
      simp only [Sat.rew, upd_self, e2]; exact this
    · simp only [Sat.rew, upd_ne _ _ e]; exact this
  case trs =>
    intro q tr hs x rest hx hdb y hy
    have hx' : s.reason q.var = some x := hx
    refine h.trs q tr hs x rest hx' ?_ y hy
    by_cases e : x = c
    · subst e
      simp only [Sat.rew, upd_self] at hdb
      rw [← hr _ hx', hdb]
    · simpa [Sat.rew, upd_ne _ _ e] using hdb
  case tlv => exact h.tlv
  case tdc => exact h.tdc
  case lims => exact h.lims
  case limle => exact h.limle
  case dec => exact h.dec
  case que => exact h.que
  case cnd => exact h.cnd
  case clt => exact h.clt
  case cln =>
    intro x hx
    by_cases e : x = c
    · subst e
      obtain ⟨l0, l1, r, he⟩ := h.cln x hx
      have hl := hp.length_eq
      simp only [Sat.rew, upd_self]
      rw [he] at hl
      match lits, hl with
      | a :: b :: r', _ => exact ⟨a, b, r', rfl⟩
    · simp only [Sat.rew, upd_ne _ _ e]; exact h.cln x hx
  case crng =>
    intro x hx l hl
    by_cases e : x = c
    · subst e
      simp only [Sat.rew, upd_self] at hl
      exact h.crng x hx l (hp.mem_iff.1 hl)
    · simp only [Sat.rew, upd_ne _ _ e] at hl; exact h.crng x hx l hl
  case cnc =>
    intro x hx l hl
    by_cases e : x = c
    · subst e
      simp only [Sat.rew, upd_self] at hl ⊢
      rw [hp.mem_iff] at hl ⊢
      exact h.cnc x hx l hl
    · simp only [Sat.rew, upd_ne _ _ e] at hl ⊢; exact h.cnc x hx l hl
  case wat =>
    intro x m'
    have h1 := h.wat x m'
    have hcm : c ∈ s.constrs := by
      have h2 := h.wat c p
      by_contra hn
      simp [exAt, hn] at h2
    have e1 : ((s.rew c lits m).watches m').count x = (s.watches m').count x + (if m' = m then [c].count x else 0) := by
      by_cases e : m' = m
      · subst e; simp [Sat.rew, List.count_append]
      · simp [Sat.rew, upd_ne _ _ e, e]
    rw [e1]
    by_cases e : x = c
    · subst e
      have h3 := hwc m'
      simp only [hcm, if_true] at h1 ⊢
      simp only [Sat.rew, upd_self, hcm, if_true]
      simp only [exAt] at h1 ⊢
      have e4 : [x].count x = 1 := by simp
      rw [e4]
      by_cases e2 : m' = p
      · simp only [e2, if_true] at h1 h3 ⊢
        rw [List.count_cons_self] at h1
        omega
      · simp only [e2, if_false, List.count_nil] at h1 h3 ⊢
        omega
    · have e2 : [c].count x = 0 := by simp [List.count_singleton]; exact fun h => e h.symm
      simp only [Sat.rew, upd_ne _ _ e]
      rw [e2]
      simp only [exAt] at h1 ⊢
      by_cases e2 : m' = p
      · simp only [e2, if_true] at h1 ⊢
        rw [List.count_cons_of_ne (fun h => e h.symm)] at h1
        simpa using h1
      · simpa [e2] using h1

theorem rew_grow {s : Sat T} {c lits m} (hp : lits.Perm (s.db c)) : Grow s (s.rew c lits m) where
  suf := List.suffix_refl _
  lim := rfl
  dec := rfl
  nv := rfl
  posted := rfl
  th := rfl
  constrs := rfl
  ncls := rfl
  exprs := rfl
  bounds := rfl
  dead := rfl
  db := fun x => by
    by_cases e : x = c
    · subst e; simpa [Sat.rew] using hp
    · simp [Sat.rew, upd_ne _ _ e]
  same := fun v _ => ⟨rfl, rfl, rfl⟩
  que := ⟨[], by simp [Sat.rew], by simp [Sat.rew], fun _ h => Or.inl h⟩
  new := fun _ h h' => absurd h h'

theorem Asg.clause_perm {α : Asg} {a b : List Lit} (h : a.Perm b) : α.clause a ↔ α.clause b := by
  unfold Asg.clause
  constructor
  · rintro ⟨l, hl, hs⟩; exact ⟨l, h.mem_iff.1 hl, hs⟩
  · rintro ⟨l, hl, hs⟩; exact ⟨l, h.mem_iff.2 hl, hs⟩

theorem Sem.rew {O : TheoryOps T} {C : Contract O} {s : Sat T} {c lits m} (h : s.Sem C) (hp : lits.Perm (s.db c)) :
    (s.rew c lits m).Sem C where
  cls := fun x hx α hα => by
    by_cases e : x = c
    · subst e
      simp only [Sat.rew, upd_self]
      exact (Asg.clause_perm hp).2 (h.cls x hx α hα)
    · simp only [Sat.rew, upd_ne _ _ e]; exact h.cls x hx α hα
  val := h.val

theorem findNonFalse_spec (val : Lit → Option Bool) : ∀ l : List Lit,
    match findNonFalse val l with
    | none => ∀ x ∈ l, val x = some false
    | some (pre, x, post) => l = pre ++ x :: post ∧ val x ≠ some false ∧ ∀ y ∈ pre, val y = some false := by
  intro l
  induction l with
  | nil => simp [findNonFalse]
  | cons y ys ih =>
    unfold findNonFalse
    by_cases h : val y = some false
    · simp only [h, ne_eq, not_true_eq_false, if_false]
      match hf : findNonFalse val ys with
      | none => rw [hf] at ih; simp only at ih ⊢; intro x hx; rcases List.mem_cons.1 hx with rfl | hx
                · exact h
                · exact ih x hx
      | some (pre, x, post) =>
        rw [hf] at ih; simp only at ih ⊢
        refine ⟨by rw [ih.1]; rfl, ih.2.1, ?_⟩
        intro z hz
        rcases List.mem_cons.1 hz with rfl | hz
        · exact h
        · exact ih.2.2 z hz
    · simp [h]

/-- What `clause::propagate` does, in terms of `rew` and `enq`. -/
inductive PropShape (s : Sat T) (c : Nat) (p : Lit) : Except Err (Sat T × Bool) → Prop
  /-- the other watch is true -/
  | keep (a b : Lit) (r : List Lit) (hp : (a :: b :: r).Perm (s.db c)) (hb : b = p.neg) (ha : s.value a = some true)
      (hold : s.db c = a :: b :: r ∨ s.db c = b :: a :: r) :
      PropShape s c p (.ok (s.rew c (a :: b :: r) p, true))
  /-- another literal is watched -/
  | move (a x : Lit) (r r' : List Lit) (hp : (a :: x :: r).Perm (s.db c)) (hx : s.value x ≠ some false)
      (ha : s.value a ≠ some true) (hold : s.db c = a :: p.neg :: r' ∨ s.db c = p.neg :: a :: r') :
      PropShape s c p (.ok (s.rew c (a :: x :: r) x.neg, true))
  /-- the clause is unit -/
  | unit (a b : Lit) (r : List Lit) (hp : (a :: b :: r).Perm (s.db c)) (hb : b = p.neg) (ha : s.value a = none)
      (hf : ∀ q ∈ b :: r, s.value q = some false) (hold : s.db c = a :: b :: r ∨ s.db c = b :: a :: r) :
      PropShape s c p (.ok ((s.rew c (a :: b :: r) p).enq a (some c), true))
  /-- the clause is conflicting -/
  | confl (a b : Lit) (r : List Lit) (hp : (a :: b :: r).Perm (s.db c)) (hb : b = p.neg)
      (hf : ∀ q ∈ a :: b :: r, s.value q = some false) (hold : s.db c = a :: b :: r ∨ s.db c = b :: a :: r) :
      PropShape s c p (.ok (s.rew c (a :: b :: r) p, false))

theorem WF.head {s : Sat T} {p c cs} (h : s.WF (exAt p (c :: cs))) :
    c ∈ s.constrs ∧ ∃ l0 l1 r, s.db c = l0 :: l1 :: r ∧ (l0 = p.neg ∨ l1 = p.neg) := by
  have h2 := h.wat c p
  have hcm : c ∈ s.constrs := by
    by_contra hn
    simp [exAt, hn] at h2
  refine ⟨hcm, ?_⟩
  obtain ⟨l0, l1, r, he⟩ := h.cln c hcm
  refine ⟨l0, l1, r, he, ?_⟩
  by_contra hn
  rw [not_or] at hn
  simp [exAt, hcm, he, wc, hn.1, hn.2] at h2

theorem clausePropagate_shape {s : Sat T} {p c cs} (h : s.WF (exAt p (c :: cs))) (hp : s.value p = some true) :
    PropShape s c p (s.clausePropagate c p) := by
  obtain ⟨hcm, l0, l1, r, he, hw⟩ := h.head
  have hpf : s.value p.neg = some false := by rw [value_neg_false]; exact hp
  have key : ∀ a b : Lit, b = p.neg → (s.db c = a :: b :: r ∨ s.db c = b :: a :: r) →
      PropShape s c p (s.clausePropagateAB c p a b r) := by
    intro a b hb hold
    have hperm : (a :: b :: r).Perm (s.db c) := by
      rcases hold with e | e
      · rw [e]
      · rw [e]; exact List.Perm.swap _ _ _
    unfold clausePropagateAB
    by_cases ha : s.value a = some true
    · simp only [ha, if_true]; exact .keep a b r hperm hb ha hold
    · simp only [ha, if_false]
      have hsp := findNonFalse_spec s.value (b :: r)
      match hf : findNonFalse s.value (b :: r) with
      | some ([], x, post) =>
        rw [hf] at hsp
        simp only [List.nil_append] at hsp
        have : b = x := by have := hsp.1; simp at this; exact this.1
        exfalso; apply hsp.2.1; rw [← this, hb]; exact hpf
      | some (b' :: pre, x, post) =>
        rw [hf] at hsp
        simp only at hsp ⊢
        have e1 : b = b' ∧ r = pre ++ x :: post := by have := hsp.1; simpa using this
        refine .move a x (pre ++ b' :: post) r ?_ hsp.2.1 ha (by rw [← hb]; exact hold)
        refine List.Perm.trans ?_ hperm
        rw [e1.1, e1.2]
        refine List.Perm.cons a ?_
        -- x :: pre ++ b' :: post ~ b' :: pre ++ x :: post
        have p1 : (x :: (pre ++ b' :: post)).Perm (b' :: x :: (pre ++ post)) :=
          (List.Perm.cons x List.perm_middle).trans (List.Perm.swap _ _ _)
        have p2 : (b' :: (pre ++ x :: post)).Perm (b' :: x :: (pre ++ post)) := List.Perm.cons b' List.perm_middle
        exact p1.trans p2.symm
      | none =>
        rw [hf] at hsp
        simp only at hsp ⊢
        match hva : s.value a with
        | none =>
          have : (s.rew c (a :: b :: r) p).value a = none := hva
          have e := enqueue_none (c := some c) this
          simp only [Sat.rew] at e
          rw [e]
          exact .unit a b r hperm hb hva hsp hold
        | some true => exact absurd hva ha
        | some false =>
          have : (s.rew c (a :: b :: r) p).value a = some false := hva
          have e := enqueue_some (c := some c) this
          simp only [Sat.rew] at e
          rw [e]
          refine .confl a b r hperm hb ?_ hold
          intro q hq
          rcases List.mem_cons.1 hq with rfl | hq
          · exact hva
          · exact hsp q hq
  unfold clausePropagate
  rw [he]
  simp only
  by_cases e : l0.var = p.var
  · have h0 : l0 = p.neg := by
      rcases Lit.eq_or_neg e with e | e
      · rcases hw with e2 | e2
        · exact e2
        · exfalso
          refine h.cnc c hcm l0 (by rw [he]; simp) ?_
          rw [he, e, ← e2]; simp
      · exact e
    have := key l1 l0 h0 (Or.inr he)
    rw [if_pos e]; exact this
  · have h1 : l1 = p.neg := by
      rcases hw with e2 | e2
      · exfalso; apply e; rw [e2]; rfl
      · exact e2
    have := key l0 l1 h1 (Or.inl he)
    rw [if_neg e]; exact this

/-- In the shapes other than `keep`, and in `keep` when the order changes, the clause is not a reason. -/
theorem not_reason {s : Sat T} {ex c a b r} (h : s.WF ex) (hold : s.db c = a :: b :: r ∨ s.db c = b :: a :: r)
    (ha : s.value a ≠ some true) (hb : s.value b = some false) : ∀ v, s.reason v ≠ some c := by
  intro v hv
  obtain ⟨_, b', rest, hass, hd⟩ := h.rsn v c hv
  rcases hold with e | e
  · rw [e] at hd
    have : a = ⟨v, b'⟩ := by simp at hd; exact hd.1
    apply ha; rw [value_true, this]; exact hass
  · rw [e] at hd
    have : b = ⟨v, b'⟩ := by simp at hd; exact hd.1
    have h2 : s.value b = some true := by rw [value_true, this]; exact hass
    rw [h2] at hb; cases hb

theorem keep_order {s : Sat T} {ex c a b r} (h : s.WF ex) (hold : s.db c = a :: b :: r ∨ s.db c = b :: a :: r)
    (hb : s.value b = some false) : ∀ v, s.reason v = some c → a :: b :: r = s.db c := by
  intro v hv
  rcases hold with e | e
  · exact e.symm
  · exfalso
    obtain ⟨_, b', rest, hass, hd⟩ := h.rsn v c hv
    rw [e] at hd
    have : b = ⟨v, b'⟩ := by simp at hd; exact hd.1
    have h2 : s.value b = some true := by rw [value_true, this]; exact hass
    rw [h2] at hb; cases hb

theorem wc_keep {d : List Lit} {a b r} (hold : d = a :: b :: r ∨ d = b :: a :: r) (m' : Lit) : wc (a :: b :: r) m' = wc d m' := by
  rcases hold with e | e <;> rw [e] <;> simp [wc]; omega

theorem Fix.rew_enq {s : Sat T} {p c cs} (hw : s.WF (exAt p (c :: cs))) (hp : s.value p = some true) (hl : s.level p.var = s.dl)
    (h : s.Fix (s.okV p (c :: cs))) {res} (hs : PropShape s c p res) {s' b} (hr : res = .ok (s', b)) :
    (b = true → s'.Fix (s'.okV p cs)) ∧ (b = false → s'.Fix s'.okC) := by
  obtain ⟨hcm, -⟩ := hw.head
  have hpf : s.value p.neg = some false := by rw [value_neg_false]; exact hp
  have hqueue : ∀ w : Lit, w.neg ∈ s.propQ → s.level w.var = s.dl := fun w hw' => (hw.que _ hw').2
  have nd' : ∀ (lits : List Lit) (m : Lit), lits.Perm (s.db c) → (∀ w r, lits ≠ w :: w :: r) → ∀ x ∈ s.constrs, s.Distinct ((s.rew c lits m).db x) := by
    intro lits m hp h2 x hx
    by_cases e : x = c
    · subst e; simp only [Sat.rew, upd_self]; exact (h.nd x hx).perm hp h2
    · simp only [Sat.rew, upd_ne _ _ e]; exact h.nd x hx
  have ndk : ∀ {a b : Lit} {r}, (s.db c = a :: b :: r ∨ s.db c = b :: a :: r) → ∀ w r', a :: b :: r ≠ w :: w :: r' := by
    intro a b r hold w r' e
    simp at e
    exact (h.nd c hcm).ne hold (e.1.trans e.2.1.symm)
  -- other clauses
  have other : ∀ (lits : List Lit) (m : Lit), ∀ x ∈ s.constrs, x ≠ c → ∀ w w' r,
      ((s.rew c lits m).db x = w :: w' :: r ∨ (s.rew c lits m).db x = w' :: w :: r) → s.value w = some false →
      (s.okV p cs w x) ∨ (s.value w' = some true ∧ s.level w'.var ≤ s.level w.var) := by
    intro lits m x hx e w w' r hd hv
    simp only [Sat.rew, upd_ne _ _ e] at hd
    rcases h.fx x hx w w' r hd hv with h1 | h1
    · left
      rcases h1 with h1 | ⟨h1, h2⟩
      · exact Or.inl h1
      · rcases List.mem_cons.1 h2 with h2 | h2
        · exact absurd h2 e
        · exact Or.inr ⟨h1, h2⟩
    · exact Or.inr h1
  cases hs with
  | keep a b0 r hperm hb ha hold =>
    injection hr with hr; injection hr with h1 h2; subst h1 h2
    refine ⟨fun _ => ⟨nd' _ _ hperm (ndk hold), ?_⟩, fun h => by cases h⟩
    intro x hx w w' r' hd hv
    by_cases e : x = c
    · subst e
      simp only [Sat.rew, upd_self] at hd
      right
      rcases hd with hd | hd
      · simp at hd; obtain ⟨rfl, rfl, rfl⟩ := hd
        rw [show (s.rew x _ p).value _ = s.value _ from rfl] at hv
        rw [ha] at hv; cases hv
      · simp at hd; obtain ⟨rfl, rfl, rfl⟩ := hd
        refine ⟨ha, ?_⟩
        have e1 : (s.rew x (a :: b0 :: r) p).level b0.var = s.dl := by
          rw [hb]; exact hl
        rw [e1]; exact hw.level_le _
    · exact other _ _ x hx e w w' r' hd hv
  | move a x0 r r' hperm hx0 ha hold =>
    injection hr with hr; injection hr with h1 h2; subst h1 h2
    have hax : ∀ w r', a :: x0 :: r ≠ w :: w :: r' := by
      intro w r' e
      simp at e
      have hd := ((h.nd c hcm).1.perm hperm.symm (fun {a b} hab e => e ▸ hab e.symm))
      have := List.rel_of_pairwise_cons hd (a' := x0) (by simp) (e.1.trans e.2.1.symm)
      rw [e.1, ← e.2.1] at this
      exact hx0 this.1
    refine ⟨fun _ => ⟨nd' _ _ hperm hax, ?_⟩, fun h => by cases h⟩
    intro x hx w w' r'' hd hv
    by_cases e : x = c
    · subst e
      simp only [Sat.rew, upd_self] at hd
      left
      rcases hd with hd | hd
      · simp at hd; obtain ⟨rfl, rfl, rfl⟩ := hd
        -- the other watch was false already
        have hnd := h.nd x hx
        have := h.fx x hx a p.neg r' hold hv
        rcases this with h1 | h1
        · rcases h1 with h1 | ⟨h1, _⟩
          · exact Or.inl h1
          · exfalso
            have : a = p.neg := by rw [← h1]; simp
            exact hnd.ne hold this
        · rw [hpf] at h1; cases h1.1
      · simp at hd; obtain ⟨rfl, rfl, rfl⟩ := hd
        exact absurd hv hx0
    · exact other _ _ x hx e w w' r'' hd hv
  | unit a b0 r hperm hb ha hf hold =>
    injection hr with hr; injection hr with h1 h2; subst h1 h2
    have hav : (s.rew c (a :: b0 :: r) p).value a = none := ha
    refine ⟨fun _ => ⟨fun x hx => (nd' _ p hperm (ndk hold) x hx).mono (s' := (s.rew c (a :: b0 :: r) p).enq a (some c)) (fun _ _ hr => enq_rootF hav hr), ?_⟩, fun h => by cases h⟩
    intro x hx w w' r'' hd hv
    by_cases ew : w.var = a.var
    · -- newly falsified watch
      have hwn : w.neg = a := by
        rcases Lit.eq_or_neg ew with e | e
        · rw [e, enq_value_self] at hv; cases hv
        · rw [e]; simp
      left; left; rw [hwn]; simp [Sat.enq]
    · rw [enq_value_ne ew] at hv
      by_cases e : x = c
      · subst e
        simp only [Sat.enq, Sat.rew, upd_self] at hd
        right
        rcases hd with hd | hd
        · simp at hd; exact absurd (by rw [hd.1]) ew
        · simp at hd; obtain ⟨rfl, rfl, rfl⟩ := hd
          refine ⟨enq_value_self _ _ _, ?_⟩
          have e1 : ((s.rew x (a :: b0 :: r) p).enq a (some x)).level b0.var = s.dl := by
            simp only [Sat.enq, upd_ne _ _ ew]
            rw [hb]; exact hl
          rw [e1]; simp [Sat.enq, Sat.rew, dl]
      · rcases other _ p x hx e w w' r'' hd hv with h1 | h1
        · left
          rcases h1 with h1 | h1
          · left; simp [Sat.enq, Sat.rew, h1]
          · exact Or.inr h1
        · right
          have hne : w'.var ≠ a.var := by
            intro e2; rw [value_true, e2] at h1; rw [value_none] at ha; rw [ha] at h1; cases h1.1
          refine ⟨enq_value_of hav h1.1, ?_⟩
          simp only [Sat.enq, upd_ne _ _ hne, upd_ne _ _ ew]
          exact h1.2
  | confl a b0 r hperm hb hf hold =>
    injection hr with hr; injection hr with h1 h2; subst h1 h2
    refine ⟨(fun h => by cases h), fun _ => ⟨nd' _ p hperm (ndk hold), ?_⟩⟩
    intro x hx w w' r'' hd hv
    by_cases e : x = c
    · subst e
      simp only [Sat.rew, upd_self] at hd
      left
      show s.level w.var = s.dl
      rcases hd with hd | hd
      · simp at hd; obtain ⟨rfl, rfl, rfl⟩ := hd
        rcases h.fx x hx a b0 r hold hv with h1 | h1
        · rcases h1 with h1 | ⟨h1, _⟩
          · exact hqueue _ h1
          · have : a = p.neg := by rw [← h1]; simp
            rw [this]; exact hl
        · rw [hf b0 (by simp)] at h1; cases h1.1
      · simp at hd; obtain ⟨rfl, rfl, rfl⟩ := hd
        rw [hb]; exact hl
    · rcases other _ p x hx e w w' r'' hd hv with h1 | h1
      · left
        rcases h1 with h1 | ⟨h1, _⟩
        · exact hqueue _ h1
        · show s.level w.var = s.dl
          have : w = p.neg := by rw [← h1]; simp
          rw [this]; exact hl
      · exact Or.inr h1

/-- Specification of `clause::propagate`. -/
theorem clausePropagate_spec {O : TheoryOps T} (C : Contract O) {s : Sat T} {p c cs} (h : s.WF (exAt p (c :: cs)))
    (hp : s.value p = some true) (hl : s.level p.var = s.dl) :
    ∃ s' b, s.clausePropagate c p = .ok (s', b) ∧ s'.WF (exAt p cs) ∧ Grow s s' ∧
      (s.Sem C → s'.Sem C) ∧
      (s.Fix (s.okV p (c :: cs)) → (b = true → s'.Fix (s'.okV p cs)) ∧ (b = false → s'.Fix s'.okC)) ∧
      (b = false → c ∈ s'.constrs ∧ (∀ q ∈ s'.db c, s'.value q = some false) ∧ p.neg ∈ s'.db c) := by
  have hs := clausePropagate_shape h hp
  have hpf : s.value p.neg = some false := by rw [value_neg_false]; exact hp
  obtain ⟨hcm, -⟩ := h.head
  cases hres : s.clausePropagate c p with
  | error e => rw [hres] at hs; cases hs
  | ok x =>
    obtain ⟨s', b⟩ := x
    refine ⟨s', b, rfl, ?_⟩
    rw [hres] at hs
    have hfix := fun hF => Fix.rew_enq h hp hl hF hs rfl
    generalize hgen : (Except.ok (s', b) : Except Err (Sat T × Bool)) = res at hs
    cases hs with
    | keep a b0 r hperm hb ha hold =>
      injection hgen with hr; injection hr with h1 h2; subst h1 h2
      refine ⟨?_, rew_grow hperm, fun hS => hS.rew hperm, hfix, by simp⟩
      apply h.rew hperm
      · exact keep_order h hold (by rw [hb]; exact hpf)
      · intro m'; rw [wc_keep hold]
    | move a x0 r r' hperm hx0 ha hold =>
      injection hgen with hr; injection hr with h1 h2; subst h1 h2
      refine ⟨?_, rew_grow hperm, fun hS => hS.rew hperm, hfix, by simp⟩
      apply h.rew hperm
      · intro v hv; exact absurd hv (not_reason h hold ha hpf v)
      · intro m'
        have e1 : (p.neg = m'.neg) ↔ (m' = p) := ⟨fun h => (Lit.neg_inj.1 h).symm, fun h => by rw [h]⟩
        have e2 : (x0 = m'.neg) ↔ (m' = x0.neg) := by
          constructor
          · intro h; rw [h]; simp
          · intro h; rw [h]; simp
        rcases hold with e | e <;> rw [e] <;> simp only [wc, e1, e2] <;> omega
    | unit a b0 r hperm hb ha hf hold =>
      injection hgen with hr; injection hr with h1 h2; subst h1 h2
      have hW : (s.rew c (a :: b0 :: r) p).WF (exAt p cs) := by
        apply h.rew hperm
        · exact keep_order h hold (by rw [hb]; exact hpf)
        · intro m'; rw [wc_keep hold]
      have hav : (s.rew c (a :: b0 :: r) p).value a = none := ha
      refine ⟨?_, (rew_grow hperm).trans (enq_grow hav), ?_, hfix, by simp⟩
      · apply hW.enq hav
        · exact h.crng c hcm a (hperm.mem_iff.1 (by simp))
        · intro x hx
          injection hx with hx; subst hx
          exact ⟨hcm, b0 :: r, by simp [Sat.rew], hf⟩
        · intro hx; cases hx
      · intro hS
        have hS1 := hS.rew (m := p) hperm
        refine hS1.enq hW hav ?_
        apply hS1.unit hW (rest := b0 :: r)
        · have := hS1.cls c hcm
          simpa only [Sat.rew, upd_self] using this
        · exact hf
    | confl a b0 r hperm hb hf hold =>
      injection hgen with hr; injection hr with h1 h2; subst h1 h2
      refine ⟨?_, rew_grow hperm, fun hS => hS.rew hperm, hfix, ?_⟩
      · apply h.rew hperm
        · exact keep_order h hold (by rw [hb]; exact hpf)
        · intro m'; rw [wc_keep hold]
      · intro _
        refine ⟨hcm, ?_, ?_⟩
        · simp only [Sat.rew, upd_self]; exact hf
        · simp only [Sat.rew, upd_self]; rw [hb]; simp

end Sat
end Semitone
