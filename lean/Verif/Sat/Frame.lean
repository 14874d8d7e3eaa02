import Verif.Sat.SteadyOps

/-!
# What the calls that search leave alone

The calls that propagate, decide and retract never touch the expressions the core remembers nor the number of variables, and forget no clause the client posted. No hypothesis is needed: this holds of any theory and of
any state.
-/
namespace Semitone
namespace Sat
variable {T : Type} {O : TheoryOps T} {E : Env}

/-- The same variables and expressions, and at least the same posted clauses. -/
structure Fx (s s' : Sat T) : Prop where
  nv : s'.nvars = s.nvars
  ex : s'.exprs = s.exprs
  post : ∀ D ∈ s.posted, D ∈ s'.posted

theorem Fx.refl (s : Sat T) : Fx s s := ⟨rfl, rfl, fun _ h => h⟩

theorem Fx.trans {s1 s2 s3 : Sat T} (h1 : Fx s1 s2) (h2 : Fx s2 s3) : Fx s1 s3 := ⟨h2.nv.trans h1.nv, h2.ex.trans h1.ex, fun D h => h2.post D (h1.post D h)⟩

theorem enqueue_fx (s : Sat T) (p : Lit) (c : Option Nat) : Fx s (s.enqueue p c).1 := by
  unfold enqueue
  split <;> exact ⟨rfl, rfl, fun _ h => h⟩

theorem popOne_fx (s : Sat T) : Fx s s.popOne := by
  unfold popOne
  split <;> exact ⟨rfl, rfl, fun _ h => h⟩

theorem popN_fx : ∀ (n : Nat) (s : Sat T), Fx s (popN n s)
  | 0, s => .refl s
  | n + 1, s => (popOne_fx s).trans (popN_fx n s.popOne)

theorem pop_fx {s s' : Sat T} (h : s.pop O = .ok s') : Fx s s' := by
  unfold pop at h
  split at h
  · simp only at h
    split at h
    · cases h
    · injection h with h; subst h
      have := popN_fx (s.trail.length - by assumption) s
      exact ⟨this.nv, this.ex, this.post⟩
  · cases h

theorem popLevels_fx : ∀ (n : Nat) {s s' : Sat T}, popLevels O n s = .ok s' → Fx s s'
  | 0, s, s', h => by injection h with h; subst h; exact .refl s
  | n + 1, s, s', h => by
    simp only [popLevels] at h
    split at h
    · cases h
    · next s1 h1 => exact (pop_fx h1).trans (popLevels_fx n h)

theorem newClauseObj_fx {s s' : Sat T} {ls c} (h : s.newClauseObj ls = .ok (s', c)) : Fx s s' := by
  unfold newClauseObj at h
  split at h
  · injection h with h; injection h with h1 h2; subst h1; exact ⟨rfl, rfl, fun _ h => h⟩
  · cases h

theorem record_fx {s s' : Sat T} {ls} (h : s.record E ls = .ok s') : Fx s s' := by
  unfold record at h
  split at h
  · cases h
  split at h
  · cases h
  split at h
  · split at h
    · split at h
      · injection h with h; subst h; exact enqueue_fx _ _ _
      · cases h
    · split at h
      · cases h
      · next s1 c hc =>
        injection h with h; subst h
        refine (newClauseObj_fx hc).trans (Fx.trans (enqueue_fx s1 _ (some c)) ⟨rfl, rfl, fun _ h => h⟩)
  · cases h

theorem clausePropagateAB_fx {s s' : Sat T} {c p a b rest ok} (h : s.clausePropagateAB c p a b rest = .ok (s', ok)) : Fx s s' := by
  unfold clausePropagateAB at h
  split at h
  · injection h with h; injection h with h1 h2; subst h1; exact ⟨rfl, rfl, fun _ h => h⟩
  split at h
  · injection h with h; injection h with h1 h2; subst h1; exact ⟨rfl, rfl, fun _ h => h⟩
  · injection h with h; injection h with h1 h2; subst h1; exact ⟨rfl, rfl, fun _ h => h⟩
  · injection h with h
    have := enqueue_fx ({ s with db := upd s.db c (a :: b :: rest), watches := upd s.watches p (s.watches p ++ [c]) } : Sat T) a (some c)
    rw [h] at this
    exact ⟨this.nv, this.ex, this.post⟩

theorem clausePropagate_fx {s s' : Sat T} {c p ok} (h : s.clausePropagate c p = .ok (s', ok)) : Fx s s' := by
  unfold clausePropagate at h
  split at h
  · split at h
    · exact clausePropagateAB_fx h
    · exact clausePropagateAB_fx h
  · cases h

theorem visit_fx (p : Lit) : ∀ (cs : List Nat) {s s' : Sat T} {r}, visit p cs s = .ok (s', r) → Fx s s'
  | [], s, s', r, h => by injection h with h; injection h with h1 h2; subst h1; exact .refl s
  | c :: cs, s, s', r, h => by
    simp only [visit] at h
    split at h
    · cases h
    · next s1 h1 => exact (clausePropagate_fx h1).trans (visit_fx p cs h)
    · next s1 h1 =>
      injection h with h; injection h with e1 e2; subst e1
      have := clausePropagate_fx h1
      exact ⟨this.nv, this.ex, this.post⟩

theorem analyzeGo_fx (n : Nat) : ∀ {s s' : Sat T} {a : An} {pr ng : List Lit} {bt : Nat}, analyzeGo n s a pr = .ok (s', ng, bt) → Fx s s' := by
  induction n with
  | zero => intro s s' a pr ng bt h; cases h
  | succ n ih =>
    intro s s' a pr ng bt h
    simp only [analyzeGo] at h
    split at h
    · cases h
    split at h
    · cases h
    split at h
    · cases h
    split at h
    · split at h
      · split at h
        · cases h
        · exact (popOne_fx s).trans (ih h)
      · split at h
        · injection h with h; injection h with h1 h2; subst h1; exact popOne_fx s
        · cases h
    · exact (popOne_fx s).trans (ih h)

theorem analyze_fx {s s' : Sat T} {ls ng : List Lit} {bt : Nat} (h : s.analyze ls = .ok (s', ng, bt)) : Fx s s' := by
  unfold analyze at h
  split at h
  · cases h
  split at h
  · cases h
  exact analyzeGo_fx _ h

theorem resolveConflict_fx {s s' : Sat T} {cl : List Lit} (h : s.resolveConflict E O cl = .ok s') : Fx s s' := by
  unfold resolveConflict at h
  split at h
  · cases h
  next s1 ng bt h1 =>
  split at h
  · cases h
  next s2 h2 => exact (analyze_fx h1).trans ((popLevels_fx _ h2).trans (record_fx h))

theorem analyzeAndBackjump_fx {s s' : Sat T} {cl : List Lit} (h : s.analyzeAndBackjump E O cl = .ok s') : Fx s s' := by
  unfold analyzeAndBackjump at h
  split at h
  · split at h
    · exact resolveConflict_fx h
    · cases h
  · cases h

theorem runAct_fx : ∀ (act : TAct T) {s s' : Sat T} {r}, runAct E act s = .ok (s', r) → Fx s s'
  | .ok t, s, s', r, h => by injection h with h; injection h with h1 h2; subst h1; exact ⟨rfl, rfl, fun _ h => h⟩
  | .confl t cl, s, s', r, h => by injection h with h; injection h with h1 h2; subst h1; exact ⟨rfl, rfl, fun _ h => h⟩
  | .fail e, s, s', r, h => by cases h
  | .record cl k, s, s', r, h => by
    simp only [runAct] at h
    split at h
    · cases h
    · next s1 h1 => exact (record_fx h1).trans (runAct_fx _ h)

theorem runBinds_fx (p : Lit) : ∀ (is : List Nat) {s s' : Sat T} {r}, runBinds E O p is s = .ok (s', r) → Fx s s'
  | [], s, s', r, h => by injection h with h; injection h with h1 h2; subst h1; exact .refl s
  | i :: is, s, s', r, h => by
    simp only [runBinds] at h
    split at h
    · cases h
    · next s1 cl h1 => injection h with h; injection h with h2 h3; subst h2; exact runAct_fx _ h1
    · next s1 h1 => exact (runAct_fx _ h1).trans (runBinds_fx p is h)

theorem runChecks_fx {is : List Nat} {s s' : Sat T} {r} (h : runChecks O is s = .ok (s', r)) : Fx s s' := by
  obtain ⟨t, rfl, -⟩ := runChecks_th is h
  exact ⟨rfl, rfl, fun _ h => h⟩

theorem propLoop_fx (n : Nat) : ∀ {s s' : Sat T} {b}, propLoop E O n s = .ok (s', b) → Fx s s' := by
  induction n with
  | zero => intro s s' b h; cases h
  | succ n ih =>
    intro s s' b h
    unfold propLoop at h
    split at h
    · next p q hq =>
      simp only at h
      split at h
      · cases h
      · next s1 c h1 =>
        have k1 := visit_fx _ _ h1
        have k1 : Fx s s1 := ⟨k1.nv, k1.ex, k1.post⟩
        split at h
        · injection h with h; injection h with h2 h3; subst h2; exact ⟨k1.nv, k1.ex, k1.post⟩
        · split at h
          · cases h
          · next s2 h2 => exact Fx.trans (s2 := { s1 with propQ := [] }) ⟨k1.nv, k1.ex, k1.post⟩ ((resolveConflict_fx h2).trans (ih h))
      · next s1 h1 =>
        have k1 := visit_fx _ _ h1
        have k1 : Fx s s1 := ⟨k1.nv, k1.ex, k1.post⟩
        split at h
        · cases h
        · next s2 cl h2 =>
          have k2 := k1.trans (runBinds_fx _ _ h2)
          split at h
          · injection h with h; injection h with h2 h3; subst h2; exact ⟨k2.nv, k2.ex, k2.post⟩
          · split at h
            · cases h
            · next s3 h3 => exact Fx.trans (s2 := { s2 with propQ := [] }) ⟨k2.nv, k2.ex, k2.post⟩ ((analyzeAndBackjump_fx h3).trans (ih h))
        · next s2 h2 =>
          have k2 := k1.trans (runBinds_fx _ _ h2)
          have k3 := ih h
          refine k2.trans ?_
          split at k3
          · exact ⟨k3.nv, k3.ex, k3.post⟩
          · exact k3
    · split at h
      · cases h
      · next s1 h1 => injection h with h; injection h with h2 h3; subst h2; exact runChecks_fx h1
      · next s1 cl h1 =>
        have k1 := runChecks_fx h1
        split at h
        · injection h with h; injection h with h2 h3; subst h2; exact ⟨k1.nv, k1.ex, k1.post⟩
        · split at h
          · cases h
          · next s3 h3 => exact k1.trans ((analyzeAndBackjump_fx h3).trans (ih h))

theorem propagate_fx {s s' : Sat T} {b} (h : s.propagate E O = .ok (s', b)) : Fx s s' := propLoop_fx _ h

theorem assume_fx {s s' : Sat T} {p b} (h : s.assume E O p = .ok (s', b)) : Fx s s' := by
  unfold assume at h
  split at h
  · cases h
  split at h
  · cases h
  simp only at h
  have k := enqueue_fx ({ s with trailLim := s.trail.length :: s.trailLim, decisions := p :: s.decisions, th := O.push s.th } : Sat T) p none
  split at h
  · next s1 h1 =>
    rw [h1] at k
    have k2 := propagate_fx h
    exact Fx.trans ⟨k.nv, k.ex, k.post⟩ k2
  · next s1 h1 =>
    rw [h1] at k
    injection h with h; injection h with h2 h3; subst h2
    exact ⟨k.nv, k.ex, k.post⟩

theorem next_fx {s s' : Sat T} {b} (h : s.next E O = .ok (s', b)) : Fx s s' := by
  unfold next at h
  split at h
  · injection h with h; injection h with h2 h3; subst h2; exact .refl s
  · simp only at h
    split at h
    · cases h
    next s1 h1 =>
    split at h
    · cases h
    next s2 h2 =>
    have k := record_fx h2
    refine (pop_fx h1).trans (Fx.trans ?_ (propagate_fx h))
    exact ⟨k.nv, k.ex, fun D hD => k.post D (List.mem_cons_of_mem _ hD)⟩

theorem checkGo_fx (rl : Nat) : ∀ (ps : List Lit) {s s' : Sat T} {b}, checkGo E O rl ps s = .ok (s', b) → Fx s s'
  | [], s, s', b, h => by injection h with h; injection h with h2 h3; subst h2; exact .refl s
  | p :: ps, s, s', b, h => by
    simp only [checkGo] at h
    split at h
    · cases h
    · next s1 h1 =>
      split at h
      · cases h
      · next s2 h2 => injection h with h; injection h with h3 h4; subst h3; exact (assume_fx h1).trans (popLevels_fx _ h2)
    · next s1 h1 =>
      split at h
      · cases h
      next s2 c h2 =>
      have k := (assume_fx h1).trans (propagate_fx h2)
      split at h
      · split at h
        · cases h
        · next s3 h3 => injection h with h; injection h with h4 h5; subst h4; exact k.trans (popLevels_fx _ h3)
      · exact k.trans (checkGo_fx rl ps h)

theorem check_fx {s s' : Sat T} {ls b} (h : s.check E O ls = .ok (s', b)) : Fx s s' := by
  unfold check at h
  simp only at h
  split at h
  · cases h
  · next s1 h1 => injection h with h; injection h with h4 h5; subst h4; exact checkGo_fx _ _ h1
  · next s1 h1 =>
    split at h
    · cases h
    · split at h
      · cases h
      · next s3 h3 => injection h with h; injection h with h4 h5; subst h4; exact (checkGo_fx _ _ h1).trans (popLevels_fx _ h3)

theorem simplifyGo_fx (n : Nat) : ∀ (s : Sat T) (kept act rem : List Nat), Fx s (simplifyGo n s kept act rem).1 := by
  induction n with
  | zero => intro s kept act rem; exact .refl s
  | succ n ih =>
    intro s kept act rem
    cases act with
    | nil => exact .refl s
    | cons c act =>
      simp only [simplifyGo]
      split
      · exact Fx.trans (s2 := { s with db := upd s.db c (simplifyLits s.value (s.db c) [] (s.db c)).2 }) ⟨rfl, rfl, fun _ h => h⟩ (ih _ _ _ _)
      · exact Fx.trans (s2 := { s with db := upd s.db c (simplifyLits s.value (s.db c) [] (s.db c)).2 }) ⟨rfl, rfl, fun _ h => h⟩ (ih _ _ _ _)

theorem deleteClause_fx {s s' : Sat T} {c : Nat} (h : s.deleteClause c = .ok s') : Fx s s' := by
  unfold deleteClause at h
  split at h
  · split at h
    · simp only at h
      split at h
      · injection h with h; subst h; exact ⟨rfl, rfl, fun _ h => h⟩
      · cases h
    · cases h
  · cases h

theorem deleteAll_fx : ∀ (cs : List Nat) {s s' : Sat T}, deleteAll cs s = .ok s' → Fx s s'
  | [], s, s', h => by injection h with h; subst h; exact .refl s
  | c :: cs, s, s', h => by
    simp only [deleteAll] at h
    split at h
    · cases h
    · next s1 h1 => exact (deleteClause_fx h1).trans (deleteAll_fx cs h)

theorem simplifyDb_fx {s s' : Sat T} {b} (h : s.simplifyDb E O = .ok (s', b)) : Fx s s' := by
  unfold simplifyDb at h
  split at h
  · cases h
  split at h
  · cases h
  · next s1 h1 => injection h with h; injection h with h4 h5; subst h4; exact propagate_fx h1
  · next s1 h1 =>
    simp only at h
    split at h
    · cases h
    · next s2 h2 =>
      injection h with h; injection h with h4 h5; subst h4
      have := (propagate_fx h1).trans ((simplifyGo_fx _ s1 _ _ _).trans (deleteAll_fx _ h2))
      exact ⟨this.nv, this.ex, this.post⟩

end Sat
end Semitone
