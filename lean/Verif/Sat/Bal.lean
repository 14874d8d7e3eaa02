import Verif.Sat.Frame
import Verif.LRA.Hist

/-!
# The calls a core makes of its theories are balanced with its decision level

Every `push` of a theory comes with one more decision level, every `pop` with one less, and nothing else changes the decision level. No hypothesis is needed: this holds of any theory and
of any state, reachable or not.
-/
namespace Semitone

/-- The calls that a core makes of its theories (`propagate` for any literal and any values, with any answers of the core to the clauses that are recorded; `check`; `push`; `pop`), with the number of
levels that are open. -/
inductive TCalls {T : Type} (O : TheoryOps T) (n : Nat) (t : T) : Nat → T → Prop
  | refl : TCalls O n t n t
  | prop {m u v i val p r} : TCalls O n t m u → (O.propagate i u val p).Final v r → TCalls O n t m v
  | check {m u v i val r} : TCalls O n t m u → O.check i u val = .ok (v, r) → TCalls O n t m v
  | push {m u} : TCalls O n t m u → TCalls O n t (m + 1) (O.push u)
  | pop {m u v} : TCalls O n t (m + 1) u → O.pop u = .ok v → TCalls O n t m v

theorem TCalls.trans {T : Type} {O : TheoryOps T} {n m k : Nat} {t u v : T} (h : TCalls O n t m u) (h' : TCalls O m u k v) : TCalls O n t k v := by
  induction h' with
  | refl => exact h
  | prop _ a ih => exact .prop ih a
  | check _ a ih => exact .check ih a
  | push _ ih => exact .push ih
  | pop _ a ih => exact .pop ih a

namespace Sat
variable {T : Type} {O : TheoryOps T} {E : Env}

/-- The same theories and the same levels. -/
structure Flat (s s' : Sat T) : Prop where
  th : s'.th = s.th
  lim : s'.trailLim = s.trailLim

theorem Flat.refl (s : Sat T) : Flat s s := ⟨rfl, rfl⟩
theorem Flat.trans {s1 s2 s3 : Sat T} (h1 : Flat s1 s2) (h2 : Flat s2 s3) : Flat s1 s3 := ⟨h2.th.trans h1.th, h2.lim.trans h1.lim⟩

/-- What the core has made the theories do. -/
def TC (O : TheoryOps T) (s s' : Sat T) : Prop := TCalls O s.dl s.th s'.dl s'.th

theorem TC.refl (s : Sat T) : TC O s s := TCalls.refl
theorem TC.trans {s1 s2 s3 : Sat T} (h1 : TC O s1 s2) (h2 : TC O s2 s3) : TC O s1 s3 := TCalls.trans h1 h2
theorem Flat.tc {s s' : Sat T} (h : Flat s s') : TC O s s' := by
  unfold TC Sat.dl
  rw [h.th, h.lim]
  exact .refl

theorem enqueue_flat (s : Sat T) (p : Lit) (c : Option Nat) : Flat s (s.enqueue p c).1 := by
  unfold enqueue
  split <;> exact ⟨rfl, rfl⟩

theorem popOne_flat (s : Sat T) : Flat s s.popOne := by
  unfold popOne
  split <;> exact ⟨rfl, rfl⟩

theorem popN_flat : ∀ (n : Nat) (s : Sat T), Flat s (popN n s)
  | 0, s => .refl s
  | n + 1, s => (popOne_flat s).trans (popN_flat n s.popOne)

theorem pop_tc {s s' : Sat T} (h : s.pop O = .ok s') : TC O s s' := by
  have ht := pop_th h
  unfold pop at h
  split at h
  · next lim lims d ds h1 h2 =>
    simp only at h
    split at h
    · cases h
    · injection h with h; subst h
      have e : s.dl = lims.length + 1 := by unfold Sat.dl; rw [h1]; rfl
      unfold TC
      rw [e]
      exact .pop .refl ht
  · cases h

theorem popLevels_tc : ∀ (n : Nat) {s s' : Sat T}, popLevels O n s = .ok s' → TC O s s'
  | 0, s, s', h => by injection h with h; subst h; exact .refl s
  | n + 1, s, s', h => by
    simp only [popLevels] at h
    split at h
    · cases h
    · next s1 h1 => exact (pop_tc h1).trans (popLevels_tc n h)

theorem newClauseObj_flat {s s' : Sat T} {ls c} (h : s.newClauseObj ls = .ok (s', c)) : Flat s s' := by
  unfold newClauseObj at h
  split at h
  · injection h with h; injection h with h1 h2; subst h1; exact ⟨rfl, rfl⟩
  · cases h

theorem record_flat {s s' : Sat T} {ls} (h : s.record E ls = .ok s') : Flat s s' := by
  unfold record at h
  split at h
  · cases h
  split at h
  · cases h
  split at h
  · split at h
    · split at h
      · injection h with h; subst h; exact enqueue_flat _ _ _
      · cases h
    · split at h
      · cases h
      · next s1 c hc =>
        injection h with h; subst h
        refine (newClauseObj_flat hc).trans (Flat.trans (enqueue_flat s1 _ (some c)) ⟨rfl, rfl⟩)
  · cases h

theorem clausePropagateAB_flat {s s' : Sat T} {c p a b rest ok} (h : s.clausePropagateAB c p a b rest = .ok (s', ok)) : Flat s s' := by
  unfold clausePropagateAB at h
  split at h
  · injection h with h; injection h with h1 h2; subst h1; exact ⟨rfl, rfl⟩
  split at h
  · injection h with h; injection h with h1 h2; subst h1; exact ⟨rfl, rfl⟩
  · injection h with h; injection h with h1 h2; subst h1; exact ⟨rfl, rfl⟩
  · injection h with h
    have := enqueue_flat ({ s with db := upd s.db c (a :: b :: rest), watches := upd s.watches p (s.watches p ++ [c]) } : Sat T) a (some c)
    rw [h] at this
    exact ⟨this.th, this.lim⟩

theorem clausePropagate_flat {s s' : Sat T} {c p ok} (h : s.clausePropagate c p = .ok (s', ok)) : Flat s s' := by
  unfold clausePropagate at h
  split at h
  · split at h
    · exact clausePropagateAB_flat h
    · exact clausePropagateAB_flat h
  · cases h

theorem visit_flat (p : Lit) : ∀ (cs : List Nat) {s s' : Sat T} {r}, visit p cs s = .ok (s', r) → Flat s s'
  | [], s, s', r, h => by injection h with h; injection h with h1 h2; subst h1; exact .refl s
  | c :: cs, s, s', r, h => by
    simp only [visit] at h
    split at h
    · cases h
    · next s1 h1 => exact (clausePropagate_flat h1).trans (visit_flat p cs h)
    · next s1 h1 =>
      injection h with h; injection h with e1 e2; subst e1
      have := clausePropagate_flat h1
      exact ⟨this.th, this.lim⟩

theorem analyzeGo_flat (n : Nat) : ∀ {s s' : Sat T} {a : An} {pr ng : List Lit} {bt : Nat}, analyzeGo n s a pr = .ok (s', ng, bt) → Flat s s' := by
  induction n with
  | zero => intro s s' a pr ng bt h; cases h
  | succ n ih =>
    intro s s' a pr ng bt h
    simp only [analyzeGo] at h
    split at h
    · cases h
    split at h
    · cases h
    split at h
    · cases h
    split at h
    · split at h
      · split at h
        · cases h
        · exact (popOne_flat s).trans (ih h)
      · split at h
        · injection h with h; injection h with h1 h2; subst h1; exact popOne_flat s
        · cases h
    · exact (popOne_flat s).trans (ih h)

theorem analyze_flat {s s' : Sat T} {ls ng : List Lit} {bt : Nat} (h : s.analyze ls = .ok (s', ng, bt)) : Flat s s' := by
  unfold analyze at h
  split at h
  · cases h
  split at h
  · cases h
  exact analyzeGo_flat _ h

theorem resolveConflict_tc {s s' : Sat T} {cl : List Lit} (h : s.resolveConflict E O cl = .ok s') : TC O s s' := by
  unfold resolveConflict at h
  split at h
  · cases h
  next s1 ng bt h1 =>
  split at h
  · cases h
  next s2 h2 => exact (analyze_flat h1).tc.trans ((popLevels_tc _ h2).trans (record_flat h).tc)

theorem analyzeAndBackjump_tc {s s' : Sat T} {cl : List Lit} (h : s.analyzeAndBackjump E O cl = .ok s') : TC O s s' := by
  unfold analyzeAndBackjump at h
  split at h
  · split at h
    · exact resolveConflict_tc h
    · cases h
  · cases h

/-- Running what a theory does leaves the theory in one of the states that this leads to, and opens and closes no level. -/
theorem runAct_final : ∀ (act : TAct T) {s s' : Sat T} {r}, runAct E act s = .ok (s', r) → act.Final s'.th r ∧ s'.trailLim = s.trailLim
  | .ok t, s, s', r, h => by injection h with h; injection h with h1 h2; subst h1; subst h2; exact ⟨.ok, rfl⟩
  | .confl t cl, s, s', r, h => by injection h with h; injection h with h1 h2; subst h1; subst h2; exact ⟨.confl, rfl⟩
  | .fail e, s, s', r, h => by cases h
  | .record cl k, s, s', r, h => by
    simp only [runAct] at h
    split at h
    · cases h
    · next s1 h1 =>
      obtain ⟨a, b⟩ := runAct_final _ h
      exact ⟨.record a, b.trans (record_flat h1).lim⟩

theorem runProp_tc {i : Nat} {val : Lit → Option Bool} {p : Lit} {s s' : Sat T} {r} (h : runAct E (O.propagate i s.th val p) s = .ok (s', r)) : TC O s s' := by
  obtain ⟨a, b⟩ := runAct_final _ h
  have e : s'.dl = s.dl := by unfold Sat.dl; rw [b]
  unfold TC
  rw [e]
  exact .prop .refl a

theorem runBinds_tc (p : Lit) : ∀ (is : List Nat) {s s' : Sat T} {r}, runBinds E O p is s = .ok (s', r) → TC O s s'
  | [], s, s', r, h => by injection h with h; injection h with h1 h2; subst h1; exact .refl s
  | i :: is, s, s', r, h => by
    simp only [runBinds] at h
    split at h
    · cases h
    · next s1 cl h1 => injection h with h; injection h with h2 h3; subst h2; exact runProp_tc h1
    · next s1 h1 => exact (runProp_tc h1).trans (runBinds_tc p is h)

theorem runChecks_tc : ∀ (is : List Nat) {s s' : Sat T} {r}, runChecks O is s = .ok (s', r) → TC O s s'
  | [], s, s', r, h => by injection h with h; injection h with h1 h2; subst h1; exact .refl s
  | i :: is, s, s', r, h => by
    simp only [runChecks] at h
    split at h
    · cases h
    · next t cl h1 => injection h with h; injection h with h2 h3; subst h2; exact TCalls.check .refl h1
    · next t h1 => exact TC.trans (s2 := { s with th := t }) (TCalls.check .refl h1) (runChecks_tc is h)

theorem propLoop_tc (n : Nat) : ∀ {s s' : Sat T} {b}, propLoop E O n s = .ok (s', b) → TC O s s' := by
  induction n with
  | zero => intro s s' b h; cases h
  | succ n ih =>
    intro s s' b h
    unfold propLoop at h
    split at h
    · next p q hq =>
      simp only at h
      split at h
      · cases h
      · next s1 c h1 =>
        have k1 := visit_flat _ _ h1
        have k1 : TC O s s1 := Flat.tc (s := s) ⟨k1.th, k1.lim⟩
        split at h
        · injection h with h; injection h with h2 h3; subst h2; exact k1
        · split at h
          · cases h
          · next s2 h2 => exact TC.trans (s2 := { s1 with propQ := [] }) k1 ((resolveConflict_tc h2).trans (ih h))
      · next s1 h1 =>
        have k1 := visit_flat _ _ h1
        have k1 : TC O s s1 := Flat.tc (s := s) ⟨k1.th, k1.lim⟩
        split at h
        · cases h
        · next s2 cl h2 =>
          have k2 := k1.trans (runBinds_tc _ _ h2)
          split at h
          · injection h with h; injection h with h2 h3; subst h2; exact k2
          · split at h
            · cases h
            · next s3 h3 => exact TC.trans (s2 := { s2 with propQ := [] }) k2 ((analyzeAndBackjump_tc h3).trans (ih h))
        · next s2 h2 =>
          have k2 := k1.trans (runBinds_tc _ _ h2)
          have k3 := ih h
          refine k2.trans ?_
          split at k3
          · exact k3
          · exact k3
    · split at h
      · cases h
      · next s1 h1 => injection h with h; injection h with h2 h3; subst h2; exact runChecks_tc _ h1
      · next s1 cl h1 =>
        have k1 := runChecks_tc _ h1
        split at h
        · injection h with h; injection h with h2 h3; subst h2; exact k1
        · split at h
          · cases h
          · next s3 h3 => exact k1.trans ((analyzeAndBackjump_tc h3).trans (ih h))

theorem propagate_tc {s s' : Sat T} {b} (h : s.propagate E O = .ok (s', b)) : TC O s s' := propLoop_tc _ h

theorem assume_tc {s s' : Sat T} {p b} (h : s.assume E O p = .ok (s', b)) : TC O s s' := by
  unfold assume at h
  split at h
  · cases h
  split at h
  · cases h
  simp only at h
  have k0 : TC O s { s with trailLim := s.trail.length :: s.trailLim, decisions := p :: s.decisions, th := O.push s.th } := TCalls.push .refl
  have k := enqueue_flat ({ s with trailLim := s.trail.length :: s.trailLim, decisions := p :: s.decisions, th := O.push s.th } : Sat T) p none
  split at h
  · next s1 h1 =>
    rw [h1] at k
    exact (k0.trans k.tc).trans (propagate_tc h)
  · next s1 h1 =>
    rw [h1] at k
    injection h with h; injection h with h2 h3; subst h2
    exact k0.trans k.tc

theorem next_tc {s s' : Sat T} {b} (h : s.next E O = .ok (s', b)) : TC O s s' := by
  unfold next at h
  split at h
  · injection h with h; injection h with h2 h3; subst h2; exact .refl s
  · simp only at h
    split at h
    · cases h
    next s1 h1 =>
    split at h
    · cases h
    next s2 h2 =>
    have k := record_flat h2
    refine (pop_tc h1).trans (TC.trans ?_ (propagate_tc h))
    exact Flat.tc (s := s1) ⟨k.th, k.lim⟩

theorem checkGo_tc (rl : Nat) : ∀ (ps : List Lit) {s s' : Sat T} {b}, checkGo E O rl ps s = .ok (s', b) → TC O s s'
  | [], s, s', b, h => by injection h with h; injection h with h2 h3; subst h2; exact .refl s
  | p :: ps, s, s', b, h => by
    simp only [checkGo] at h
    split at h
    · cases h
    · next s1 h1 =>
      split at h
      · cases h
      · next s2 h2 => injection h with h; injection h with h3 h4; subst h3; exact (assume_tc h1).trans (popLevels_tc _ h2)
    · next s1 h1 =>
      split at h
      · cases h
      next s2 c h2 =>
      have k := (assume_tc h1).trans (propagate_tc h2)
      split at h
      · split at h
        · cases h
        · next s3 h3 => injection h with h; injection h with h4 h5; subst h4; exact k.trans (popLevels_tc _ h3)
      · exact k.trans (checkGo_tc rl ps h)

theorem check_tc {s s' : Sat T} {ls b} (h : s.check E O ls = .ok (s', b)) : TC O s s' := by
  unfold check at h
  simp only at h
  split at h
  · cases h
  · next s1 h1 => injection h with h; injection h with h4 h5; subst h4; exact checkGo_tc _ _ h1
  · next s1 h1 =>
    split at h
    · cases h
    · split at h
      · cases h
      · next s3 h3 => injection h with h; injection h with h4 h5; subst h4; exact (checkGo_tc _ _ h1).trans (popLevels_tc _ h3)

theorem simplifyGo_flat (n : Nat) : ∀ (s : Sat T) (kept act rem : List Nat), Flat s (simplifyGo n s kept act rem).1 := by
  induction n with
  | zero => intro s kept act rem; exact .refl s
  | succ n ih =>
    intro s kept act rem
    cases act with
    | nil => exact .refl s
    | cons c act =>
      simp only [simplifyGo]
      split
      · exact Flat.trans (s2 := { s with db := upd s.db c (simplifyLits s.value (s.db c) [] (s.db c)).2 }) ⟨rfl, rfl⟩ (ih _ _ _ _)
      · exact Flat.trans (s2 := { s with db := upd s.db c (simplifyLits s.value (s.db c) [] (s.db c)).2 }) ⟨rfl, rfl⟩ (ih _ _ _ _)

theorem deleteClause_flat {s s' : Sat T} {c : Nat} (h : s.deleteClause c = .ok s') : Flat s s' := by
  unfold deleteClause at h
  split at h
  · split at h
    · simp only at h
      split at h
      · injection h with h; subst h; exact ⟨rfl, rfl⟩
      · cases h
    · cases h
  · cases h

theorem deleteAll_flat : ∀ (cs : List Nat) {s s' : Sat T}, deleteAll cs s = .ok s' → Flat s s'
  | [], s, s', h => by injection h with h; subst h; exact .refl s
  | c :: cs, s, s', h => by
    simp only [deleteAll] at h
    split at h
    · cases h
    · next s1 h1 => exact (deleteClause_flat h1).trans (deleteAll_flat cs h)

theorem simplifyDb_tc {s s' : Sat T} {b} (h : s.simplifyDb E O = .ok (s', b)) : TC O s s' := by
  unfold simplifyDb at h
  split at h
  · cases h
  split at h
  · cases h
  · next s1 h1 => injection h with h; injection h with h4 h5; subst h4; exact propagate_tc h1
  · next s1 h1 =>
    simp only at h
    split at h
    · cases h
    · next s2 h2 =>
      injection h with h; injection h with h4 h5; subst h4
      have := (propagate_tc h1).trans ((simplifyGo_flat _ s1 _ _ _).tc.trans (deleteAll_flat _ h2).tc)
      exact this


/-! ### The calls that build -/

theorem newVar_flat (s : Sat T) : Flat s s.newVar.1 := ⟨rfl, rfl⟩

theorem newClause_flat {s s' : Sat T} {ls b} (h : s.newClause E ls = .ok (s', b)) : Flat s s' := by
  unfold newClause at h
  split at h
  · cases h
  split at h
  · cases h
  simp only at h
  split at h
  · injection h with h; injection h with h1 h2; subst h1; exact ⟨rfl, rfl⟩
  · injection h with h; injection h with h1 h2; subst h1; exact ⟨rfl, rfl⟩
  · injection h with h
    have k := enqueue_flat ({ s with posted := ls :: s.posted } : Sat T) (by assumption) none
    rw [h] at k
    exact ⟨k.th, k.lim⟩
  · split at h
    · cases h
    · next s1 c h1 =>
      injection h with h; injection h with h1 h2; subst h1
      have k := newClauseObj_flat (by assumption)
      exact ⟨k.th, k.lim⟩

theorem postAll_flat : ∀ (cs : List (List Lit)) {s s' : Sat T} {b}, postAll E cs s = .ok (s', b) → Flat s s'
  | [], s, s', b, h => by injection h with h; injection h with h1 h2; subst h1; exact .refl s
  | c :: cs, s, s', b, h => by
    simp only [postAll] at h
    split at h
    · cases h
    · next s1 h1 => injection h with h; injection h with h2 h3; subst h2; exact newClause_flat h1
    · next s1 h1 => exact (newClause_flat h1).trans (postAll_flat cs h)

theorem define_flat {s s' : Sat T} {k ctr cls l} (h : define E s k ctr cls = .ok (s', l)) : Flat s s' := by
  unfold define at h
  split at h
  · cases h
  · next s1 h1 => injection h with h; injection h with h2 h3; subst h2; exact postAll_flat _ h1
  · next s1 h1 =>
    injection h with h; injection h with h2 h3; subst h2
    have := postAll_flat _ h1
    exact ⟨this.th, this.lim⟩

theorem newEq_flat {s s' : Sat T} {a b l} (h : s.newEq E a b = .ok (s', l)) : Flat s s' := by
  unfold newEq at h
  split at h
  · cases h
  split at h
  · cases h
  split at h
  · injection h with h; injection h with h1 h2; subst h1; exact .refl s
  split at h
  iterate 8 (· injection h with h; injection h with h1 h2; subst h1; exact .refl s)
  split at h
  · injection h with h; injection h with h1 h2; subst h1; exact .refl s
  · exact (newVar_flat s).trans (define_flat h)

theorem newConj_flat {s s' : Sat T} {ls l} (h : s.newConj E ls = .ok (s', l)) : Flat s s' := by
  unfold newConj at h
  split at h
  · cases h
  split at h
  · cases h
  split at h
  iterate 3 (· injection h with h; injection h with h1 h2; subst h1; exact .refl s)
  split at h
  · injection h with h; injection h with h1 h2; subst h1; exact .refl s
  · exact (newVar_flat s).trans (define_flat h)

theorem newDisj_flat {s s' : Sat T} {ls l} (h : s.newDisj E ls = .ok (s', l)) : Flat s s' := by
  unfold newDisj at h
  split at h
  · cases h
  split at h
  · cases h
  split at h
  iterate 3 (· injection h with h; injection h with h1 h2; subst h1; exact .refl s)
  split at h
  · injection h with h; injection h with h1 h2; subst h1; exact .refl s
  · exact (newVar_flat s).trans (define_flat h)

theorem newVars_flat : ∀ (n : Nat) (s : Sat T), Flat s (newVars n s).1
  | 0, s => .refl s
  | n + 1, s => (newVar_flat s).trans (newVars_flat n s.newVar.1)

theorem newAMOGo_flat : ∀ (f : Nat) {s s' : Sat T} {ls l}, newAMOGo E f s ls = .ok (s', l) → Flat s s'
  | 0, s, s', ls, l, h => by cases h
  | f + 1, s, s', ls, l, h => by
    unfold newAMOGo at h
    split at h
    · cases h
    split at h
    · cases h
    split at h
    iterate 3 (· injection h with h; injection h with h1 h2; subst h1; exact .refl s)
    split at h
    · injection h with h; injection h with h1 h2; subst h1; exact .refl s
    split at h
    · exact (newVar_flat s).trans (define_flat h)
    · simp only at h
      split at h
      · cases h
      next s1 au h1 =>
      split at h
      · cases h
      next s2 av h2 =>
      split at h
      · cases h
      next s3 ctr h3 =>
      exact (newVars_flat _ s).trans ((newVars_flat _ _).trans ((newAMOGo_flat f h1).trans ((newAMOGo_flat f h2).trans ((newConj_flat h3).trans (define_flat h)))))

theorem newEXO_flat {s s' : Sat T} {ls l} (h : s.newEXO E ls = .ok (s', l)) : Flat s s' := by
  unfold newEXO at h
  split at h
  · cases h
  split at h
  · cases h
  split at h
  iterate 2 (· injection h with h; injection h with h1 h2; subst h1; exact .refl s)
  split at h
  · injection h with h; injection h with h1 h2; subst h1; exact .refl s
  split at h
  · injection h with h; injection h with h1 h2; subst h1; exact .refl s
  split at h
  · cases h
  next s1 ctr h1 => exact (newAMOGo_flat _ h1).trans (define_flat h)

/-- Every call of the core: the calls it makes of its theories are balanced with the levels it opens and closes. -/
theorem step_tc {s s' : Sat T} {op : Op} {out : Out} (h : s.step E O op = .ok (s', out)) : TC O s s' := by
  cases op with
  | newVar => injection h with h; injection h with h1 h2; subst h1; exact (newVar_flat s).tc
  | newClause ls => obtain ⟨r, h1, h2⟩ := map_ok h; injection h2 with e1 e2; subst e1; exact (newClause_flat h1).tc
  | newEq a b => obtain ⟨r, h1, h2⟩ := map_ok h; injection h2 with e1 e2; subst e1; exact (newEq_flat h1).tc
  | newConj ls => obtain ⟨r, h1, h2⟩ := map_ok h; injection h2 with e1 e2; subst e1; exact (newConj_flat h1).tc
  | newDisj ls => obtain ⟨r, h1, h2⟩ := map_ok h; injection h2 with e1 e2; subst e1; exact (newDisj_flat h1).tc
  | newAMO ls => obtain ⟨r, h1, h2⟩ := map_ok h; injection h2 with e1 e2; subst e1; exact (newAMOGo_flat _ h1).tc
  | newEXO ls => obtain ⟨r, h1, h2⟩ := map_ok h; injection h2 with e1 e2; subst e1; exact (newEXO_flat h1).tc
  | assume p => obtain ⟨r, h1, h2⟩ := map_ok h; injection h2 with e1 e2; subst e1; exact assume_tc h1
  | pop => obtain ⟨r, h1, h2⟩ := map_ok h; injection h2 with e1 e2; subst e1; exact pop_tc h1
  | propagate => obtain ⟨r, h1, h2⟩ := map_ok h; injection h2 with e1 e2; subst e1; exact propagate_tc h1
  | next => obtain ⟨r, h1, h2⟩ := map_ok h; injection h2 with e1 e2; subst e1; exact next_tc h1
  | check ls => obtain ⟨r, h1, h2⟩ := map_ok h; injection h2 with e1 e2; subst e1; exact check_tc h1
  | simplify => obtain ⟨r, h1, h2⟩ := map_ok h; injection h2 with e1 e2; subst e1; exact simplifyDb_tc h1
  | bind v i => injection h with h; injection h with h1 h2; subst h1; exact Flat.tc ⟨rfl, rfl⟩
  | listen v l =>
    injection h with h; injection h with h1 h2; subst h1
    unfold listen
    split
    · exact Flat.tc ⟨rfl, rfl⟩
    · exact .refl s

end Sat
end Semitone
