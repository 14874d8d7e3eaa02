import Verif.LRA.Free
import Verif.Sat.StackT

/-!
# Linear arithmetic in a stack of cores (C80)
-/
namespace Semitone
namespace LRA
open Lin
variable {E : LEnv} {t t' : LRA}

/-- What the theory has been asked for so far: the number of variables, the expressions and the assertions that exist, and the literals remembered for them. -/
structure Asked where
  n : Nat
  exprs : List (Lin × Nat)
  defs : List (Nat × Lin)
  sas : List ((Bool × Nat × IQ) × Lit)
  vas : Nat → Option Asrt
  aw : Nat → List Asrt

def reg (t : LRA) : Asked := ⟨t.n, t.exprs, t.defs, t.sas, t.vas, t.aw⟩

theorem update_reg {x : Nat} {v : IQ} (h : t.update E x v = .ok t') : t'.reg = t.reg := by
  unfold update at h
  split at h
  · cases h
  · split at h
    · cases h
    · cases h; exact rfl

theorem pivot_reg {xi xj : Nat} (h : t.pivot E xi xj = .ok t') : t'.reg = t.reg := by
  unfold pivot at h
  split at h
  · cases h
  · simp only at h
    split at h
    · cases h
    · split at h
      · cases h
      · cases h; exact rfl

theorem pivotAndUpdate_reg {xi xj : Nat} {v : IQ} (h : t.pivotAndUpdate E xi xj v = .ok t') : t'.reg = t.reg := by
  unfold pivotAndUpdate at h
  split at h
  · cases h
  · split at h
    · cases h
    · simp only at h
      split at h
      · cases h
      · have := pivot_reg h
        exact this.trans rfl

theorem checkStep_reg (h : t.checkStep E = .next t') : t'.reg = t.reg := by
  unfold checkStep at h
  split at h
  · cases h
  · split at h
    · cases h
    · split at h
      · split at h
        · cases h
        · split at h
          · split at h
            · cases h
            · next h1 => cases h; exact pivotAndUpdate_reg h1
          · cases h
      · split at h
        · cases h
        · split at h
          · split at h
            · cases h
            · next h1 => cases h; exact pivotAndUpdate_reg h1
          · cases h

theorem checkLoop_reg : ∀ (f : Nat) {t t' : LRA} {r}, checkLoop E f t = .ok (t', r) → t'.reg = t.reg
  | 0, _, _, _, h => by cases h
  | f + 1, t, t', r, h => by
    unfold checkLoop at h
    split at h
    · cases h; rfl
    · cases h; rfl
    · cases h
    · next h1 => exact (checkLoop_reg f h).trans (checkStep_reg h1)

theorem assertLower_reg {val : Lit → Option Bool} {x : Nat} {v : IQ} {p : Lit} {r : Option (List Lit)} (h : (t.assertLower E val x v p).Final t' r) : t'.reg = t.reg := by
  unfold assertLower at h
  split at h
  · cases h
  · split at h
    · cases h
    · split at h
      · cases h; rfl
      · split at h
        · cases h; rfl
        · simp only at h
          split at h
          · cases h
          · next t1 h1 =>
            split at h
            · cases h
            · rw [emit_final _ _ h]
              split at h1
              · exact (update_reg h1).trans rfl
              · cases h1; rfl

theorem assertUpper_reg {val : Lit → Option Bool} {x : Nat} {v : IQ} {p : Lit} {r : Option (List Lit)} (h : (t.assertUpper E val x v p).Final t' r) : t'.reg = t.reg := by
  unfold assertUpper at h
  split at h
  · cases h
  · split at h
    · cases h
    · split at h
      · cases h; rfl
      · split at h
        · cases h; rfl
        · simp only at h
          split at h
          · cases h
          · next t1 h1 =>
            split at h
            · cases h
            · rw [emit_final _ _ h]
              split at h1
              · exact (update_reg h1).trans rfl
              · cases h1; rfl

theorem propagate_reg {val : Lit → Option Bool} {p : Lit} {r : Option (List Lit)} (h : (t.propagate E val p).Final t' r) : t'.reg = t.reg := by
  unfold propagate at h
  split at h
  · cases h
  · split at h
    · split at h
      · exact assertUpper_reg h
      · exact assertLower_reg h
    · split at h
      · exact assertLower_reg h
      · exact assertUpper_reg h
    · cases h; rfl

theorem pop_reg (h : t.pop = .ok t') : t'.reg = t.reg := by
  obtain ⟨L, Ls, hl, e⟩ := pop_cases h
  subst e
  rfl

/-! ### The bounds of the first `k` variables, level by level -/

/-- The bounds of the variables below `k`. -/
def Bd.cut (k : Nat) (b : Bd) : Bd :=
  ⟨fun v => if v < k then b.lo v else ⊥, fun v => if v < k then b.loR v else TRUE_lit, fun v => if v < k then b.hi v else ⊤, fun v => if v < k then b.hiR v else TRUE_lit⟩

theorem Bd.cut_restore {k : Nat} {b c : Bd} (h : b.cut k = c.cut k) (L : LLayer) : (b.restore L).cut k = (c.restore L).cut k := by
  have h1 := fun v => congrFun (congrArg Bd.lo h) v
  have h2 := fun v => congrFun (congrArg Bd.loR h) v
  have h3 := fun v => congrFun (congrArg Bd.hi h) v
  have h4 := fun v => congrFun (congrArg Bd.hiR h) v
  simp only [Bd.cut] at h1 h2 h3 h4
  unfold Bd.cut Bd.restore
  congr 1
  · funext v; by_cases hv : v < k
    · have := h1 v; simp only [hv, if_true] at this ⊢; rw [this]
    · simp [hv]
  · funext v; by_cases hv : v < k
    · have := h2 v; simp only [hv, if_true] at this ⊢; rw [this]
    · simp [hv]
  · funext v; by_cases hv : v < k
    · have := h3 v; simp only [hv, if_true] at this ⊢; rw [this]
    · simp [hv]
  · funext v; by_cases hv : v < k
    · have := h4 v; simp only [hv, if_true] at this ⊢; rw [this]
    · simp [hv]

theorem stackOf_cut {k : Nat} : ∀ (Ls : List LLayer) {b c : Bd}, b.cut k = c.cut k → (stackOf b Ls).map (Bd.cut k) = (stackOf c Ls).map (Bd.cut k)
  | [], b, c, h => by simp [stackOf, h]
  | L :: Ls, b, c, h => by simp only [stackOf, List.map_cons, h, stackOf_cut Ls (Bd.cut_restore h L)]

/-- The bounds of the variables below `k` at every level. -/
def views (k : Nat) (t : LRA) : List Bd := t.stack.map (Bd.cut k)

theorem views_ne (k : Nat) (t : LRA) : t.views k = t.bd.cut k :: (t.views k).tail := by
  unfold views LRA.stack
  rw [stackOf_ne]; rfl

theorem views_tail {k : Nat} (h : t'.stack.tail = t.stack.tail) : ∃ v w l, t.views k = v :: l ∧ t'.views k = w :: l := by
  refine ⟨t.bd.cut k, t'.bd.cut k, (t.views k).tail, views_ne k t, ?_⟩
  rw [views_ne k t']
  congr 1
  unfold views
  rw [← List.map_tail, ← List.map_tail, h]

theorem views_same {k : Nat} (h : t'.views k = t.views k) : ∃ v w l, t.views k = v :: l ∧ t'.views k = w :: l :=
  ⟨_, _, (t.views k).tail, views_ne k t, h.trans (views_ne k t)⟩

theorem views_bd {k : Nat} (h : t'.views k = t.views k) {v : Nat} (hv : v < k) : t'.lo v = t.lo v ∧ t'.loR v = t.loR v ∧ t'.hi v = t.hi v ∧ t'.hiR v = t.hiR v := by
  rw [views_ne, views_ne k t] at h
  injection h with h _
  have h1 := congrFun (congrArg Bd.lo h) v
  have h2 := congrFun (congrArg Bd.loR h) v
  have h3 := congrFun (congrArg Bd.hi h) v
  have h4 := congrFun (congrArg Bd.hiR h) v
  simp only [Bd.cut, hv, if_true] at h1 h2 h3 h4
  exact ⟨h1, h2, h3, h4⟩

/-- The levels of the theory are undone one by one; `P` is anything that depends on what the theory has been asked for only. -/
theorem layered (L : LEnv) (k : Nat) {P : LRA → Prop} (hP : ∀ t t', t'.reg = t.reg → P t → P t') : Sat.Layered (ops L) P (views k) where
  prop := fun hp h => ⟨hP _ _ (propagate_reg h) hp, views_tail (propagate_tail h)⟩
  check := fun hp h => ⟨hP _ _ (checkLoop_reg _ h) hp, by unfold views; rw [(checkLoop_sameB _ h).stack]⟩
  push := fun hp => ⟨hP _ _ (by rfl) hp, _, rfl⟩
  pop := @fun t u hp h => ⟨hP _ _ (pop_reg h) hp, t.bd.cut k, by
    rw [views_ne]
    congr 1
    unfold views
    rw [pop_stack h, List.map_tail]⟩

/-! ### The interface of the theory -/

/-- The calls of the theory's own interface on the theory attached to the top core (`lra_theory.h`): variables, definitions, relations, bounds, listeners. -/
inductive Api (E : Env) (L : LEnv) : Sat LRA → Sat LRA → Prop
  | newVar {s} : Api E L s { s with th := s.th.newVar.1 }
  | newVarL {s l t x} : s.th.newVarL s.root l = .ok (t, x) → Api E L s { s with th := t }
  | rel {s R l r s' p} : newRel R s l r = .ok (s', p) → Api E L s s'
  | eq {s l r s' p} : newEqL E s l r = .ok (s', p) → Api E L s s'
  | lb {s x v p s' c} : setLbC E L s x v p = .ok (s', c) → Api E L s s'
  | ub {s x v p s' c} : setUbC E L s x v p = .ok (s', c) → Api E L s s'
  | listen {s v l t} : s.th.listen v l = .ok t → Api E L s { s with th := t }

theorem views_newVar {k : Nat} (hk : k ≤ t.n) : t.newVar.1.views k = t.views k := by
  refine stackOf_cut t.layers ?_
  unfold Bd.cut
  congr 1 <;> (funext v; exact dite (v < k) (fun hv => by simp [hv, bd, LRA.newVar, upd_ne _ _ (show v ≠ t.n by omega)]) (fun hv => by simp [hv]))

theorem views_newVarL {k : Nat} {root : Bool} {l : Lin} {x : Nat} (hk : k ≤ t.n) (h : t.newVarL root l = .ok (t', x)) : k ≤ t'.n ∧ t'.views k = t.views k := by
  rcases newVarL_bd h with rfl | ⟨_, h1, h2, h3⟩
  · exact ⟨hk, rfl⟩
  · refine ⟨by omega, ?_⟩
    unfold views LRA.stack
    rw [h2]
    refine stackOf_cut t.layers ?_
    unfold Bd.cut
    congr 1 <;> (funext v; exact dite (v < k) (fun hv => by simp [hv, bd, h3 v (by omega)]) (fun hv => by simp [hv]))

theorem newRel_shallow {k : Nat} {R : Rel4} {s s' : Sat LRA} {l r : Lin} {p : Lit} (hk : k ≤ s.th.n) (h : newRel R s l r = .ok (s', p)) :
    k ≤ s'.th.n ∧ s'.dl = s.dl ∧ s'.th.views k = s.th.views k := by
  unfold newRel at h
  simp only at h
  split at h
  · cases h
  split at h
  · injection h with h; injection h with e1 e2; subst e1; exact ⟨hk, rfl, rfl⟩
  · injection h with h; injection h with e1 e2; subst e1; exact ⟨hk, rfl, rfl⟩
  split at h
  · cases h
  next t x hn =>
  have := views_newVarL hk hn
  split at h
  · injection h with h; injection h with e1 e2; subst e1; exact ⟨this.1, rfl, this.2⟩
  · injection h with h; injection h with e1 e2; subst e1; exact ⟨this.1, rfl, this.2⟩
  split at h
  · injection h with h; injection h with e1 e2; subst e1; exact ⟨this.1, rfl, this.2⟩
  · injection h with h; injection h with e1 e2; subst e1; exact ⟨this.1, rfl, this.2⟩

theorem api_shallow {Ev : Env} (L : LEnv) (k : Nat) : Sat.Shallow (fun t : LRA => k ≤ t.n) (views k) (Api Ev L) := by
  intro s s' hk h
  cases h with
  | newVar => exact ⟨Nat.le_succ_of_le hk, rfl, views_same (views_newVar hk)⟩
  | newVarL h => exact ⟨(views_newVarL hk h).1, rfl, views_same (views_newVarL hk h).2⟩
  | rel h =>
    obtain ⟨a, b, c⟩ := newRel_shallow hk h
    exact ⟨a, b, views_same c⟩
  | eq h =>
    unfold newEqL at h
    split at h
    · cases h
    next s1 p1 h1 =>
    split at h
    · cases h
    next s2 p2 h2 =>
    obtain ⟨a, b, c⟩ := newRel_shallow hk h1
    obtain ⟨a', b', c'⟩ := newRel_shallow a h2
    have f := Sat.newConj_flat h
    refine ⟨by rw [f.th]; exact a', ?_, views_same (by rw [f.th, c', c])⟩
    rw [← b, ← b']
    unfold Sat.dl
    rw [f.lim]
  | lb h =>
    obtain ⟨a, b⟩ := Sat.runAct_final _ h
    have e := congrArg Asked.n (assertLower_reg a)
    have e : s'.th.n = s.th.n := e
    have k1 : s'.th.stack.tail = s.th.stack.tail := (assertLower_tail a).trans rfl
    exact ⟨show k ≤ s'.th.n by rw [e]; exact hk, by unfold Sat.dl; rw [b]; rfl, views_tail k1⟩
  | ub h =>
    obtain ⟨a, b⟩ := Sat.runAct_final _ h
    have e := congrArg Asked.n (assertUpper_reg a)
    have e : s'.th.n = s.th.n := e
    have k1 : s'.th.stack.tail = s.th.stack.tail := (assertUpper_tail a).trans rfl
    exact ⟨show k ≤ s'.th.n by rw [e]; exact hk, by unfold Sat.dl; rw [b]; rfl, views_tail k1⟩
  | listen h =>
    obtain ⟨f, e⟩ := listen_eq h
    subst e
    exact ⟨hk, rfl, views_same rfl⟩

/-- C80, linear arithmetic: in every state of the stack (reachable or not), after `push`, any calls of the core and of the theory on the top core that lead back to its root level, and the matching `pop`,
the bounds of every variable that existed before `push`, and the reasons of the bounds, are those from before `push`; so are the cores below. -/
theorem C80_lra_bounds_partial {Ev : Env} {L : LEnv} {c d u c' : Sat LRA} {rest below rest' : List (Sat LRA)} (hpush : Sat.pushTop Ev (ops L) (c :: rest) = .ok (d :: below))
    (hw : Sat.Works Ev (ops L) (Api Ev L) d u) (hr : u.root = true) (hpop : Sat.popTop (ops L) (u :: below) = .ok (c' :: rest')) :
    (∀ v < c.th.n, c'.th.lo v = c.th.lo v ∧ c'.th.loR v = c.th.loR v ∧ c'.th.hi v = c.th.hi v ∧ c'.th.hiR v = c.th.hiR v) ∧ c'.th.layers.length = c.th.layers.length ∧
      rest' = rest ∧ c' = { c with th := c'.th, notes := c'.notes } := by
  obtain ⟨-, h1, h2, h3⟩ := (layered L c.th.n (P := fun t => c.th.n ≤ t.n) (fun t t' e h => by
    have := congrArg Asked.n e
    exact (show t'.n = t.n from this) ▸ h)).restores (api_shallow L c.th.n) (Nat.le_refl _) hpush hw hr hpop
  refine ⟨fun v hv => views_bd h1 hv, ?_, h2, h3⟩
  have := congrArg List.length h1
  unfold views LRA.stack at this
  rw [List.length_map, List.length_map, stackOf_length, stackOf_length] at this
  omega

/-- C80, linear arithmetic, when the top core is used but nothing new is asked of the theory: the theory answers as before, that is all its bounds, its variables, its expressions, its assertions and the
literals it remembers for them are those from before `push`. -/
theorem C80_lra_core_partial {Ev : Env} {L : LEnv} {c d u c' : Sat LRA} {rest below rest' : List (Sat LRA)} (hpush : Sat.pushTop Ev (ops L) (c :: rest) = .ok (d :: below))
    (hw : Sat.Works Ev (ops L) (fun _ _ => False) d u) (hr : u.root = true) (hpop : Sat.popTop (ops L) (u :: below) = .ok (c' :: rest')) :
    c'.th.n = c.th.n ∧ c'.th.exprs = c.th.exprs ∧ c'.th.defs = c.th.defs ∧ c'.th.sas = c.th.sas ∧ c'.th.vas = c.th.vas ∧ c'.th.aw = c.th.aw ∧
      c'.th.lo = c.th.lo ∧ c'.th.loR = c.th.loR ∧ c'.th.hi = c.th.hi ∧ c'.th.hiR = c.th.hiR ∧ rest' = rest ∧ c' = { c with th := c'.th, notes := c'.notes } := by
  have key : ∀ k, c'.th.reg = c.th.reg ∧ c'.th.views k = c.th.views k ∧ rest' = rest ∧ c' = { c with th := c'.th, notes := c'.notes } := fun k =>
    (layered L k (P := fun t => t.reg = c.th.reg) (fun t t' e h => e.trans h)).restores (X := fun _ _ => False) (fun _ _ _ h => h.elim) rfl hpush hw hr hpop
  obtain ⟨h1, -, h2, h3⟩ := key 0
  refine ⟨congrArg Asked.n h1, congrArg Asked.exprs h1, congrArg Asked.defs h1, congrArg Asked.sas h1, congrArg Asked.vas h1, congrArg Asked.aw h1, ?_, ?_, ?_, ?_, h2, h3⟩
  · funext v; exact (views_bd (key (v + 1)).2.1 (Nat.lt_succ_self v)).1
  · funext v; exact (views_bd (key (v + 1)).2.1 (Nat.lt_succ_self v)).2.1
  · funext v; exact (views_bd (key (v + 1)).2.1 (Nat.lt_succ_self v)).2.2.1
  · funext v; exact (views_bd (key (v + 1)).2.1 (Nat.lt_succ_self v)).2.2.2

end LRA
end Semitone
