import Verif.Sat.HaltOps
import Verif.Mix.PlayDemo
import Verif.DL.PlayDemo
import Verif.LRA.Play

/-!
# Every call returns, and the client that searches stops: C72, C73

In the model a loop that does not end is `Err.fuel`: the walk along the predecessors of an explanation, the loop of the simplex, the loops of the analysis and of the propagation. In the sessions of
C62, C56 and C68 (unsafe propagations included) it never comes out, neither from a single call nor from a client that decides until all variables are assigned.
-/
namespace Semitone

/-- The theory does not run forever. -/
def TAct.Halts {T : Type} : TAct T → Prop
  | .ok _ => True
  | .confl _ _ => True
  | .record _ k => ∀ v, (k v).Halts
  | .fail e => e ≠ .fuel

theorem Sat.runAct_halts {T : Type} {E : Env} : ∀ {a : TAct T} {s : Sat T}, a.Halts → runAct E a s ≠ .error .fuel
  | .ok t, s, _ => by simp [runAct]
  | .confl t cl, s, _ => by simp [runAct]
  | .fail e, s, h => by simp only [runAct]; intro he; injection he with he; exact h he
  | .record cl k, s, h => by
    simp only [runAct]
    split
    · next e hr => intro he; injection he with he; subst he; exact record_fuel s cl hr
    · exact runAct_halts (h _)

namespace DL
variable {W : Type} [AddCommGroup W] [LinearOrder W] [IsOrderedAddMonoid W] [Dom W]
variable {E : Env} {s s' : Sat (DL W)}

theorem assertD_vd {t t' : DL W} {dd : Dist W} {sg : Bool} {cu : List (Nat × Nat)} (h : t.assertD dd sg = .update t' cu) : t'.vd = t.vd := by
  unfold assertD at h
  split at h
  · split at h
    · cases h
    · split at h
      · injection h with h1 h2
        subst h1
        exact (keep_relaxEdge _ _ _ _).vd
      · cases h
  · split at h
    · cases h
    · split at h
      · injection h with h1 h2
        subst h1
        exact (keep_relaxEdge _ _ _ _).vd
      · cases h

theorem emit_all {P : DL W → Prop} {t : DL W} (ht : P t) : ∀ (ds : List (Dist W)) (val : Lit → Option Bool), (t.emit ds val).All P
  | [], _ => ht
  | dd :: ds, val => by
    unfold emit
    split
    · split
      · split
        · trivial
        · exact fun v => emit_all ht ds v
      · split
        · split
          · trivial
          · exact fun v => emit_all ht ds v
        · exact emit_all ht ds val
    · exact emit_all ht ds val

/-- The theory registers no constraint by itself. -/
theorem keeps_vd (V : Nat → Option (Dist W)) : Keeps (ops (W := W)) (fun t => t.vd = V) where
  prop := fun i t val p h => by
    show (t.propagate val p).All _
    unfold propagate
    split
    · trivial
    · split
      · exact h
      · split
        · split
          · split
            · trivial
            · exact h
          · exact h
          · next ha =>
            split
            · trivial
            · exact emit_all (P := fun t => t.vd = V) ((assertD_vd ha).trans h) _ _
        · trivial
  check := fun i t val t' r h hc => by
    have hc : (if t.checkOk val then Except.ok (t, none) else Except.error Err.assert) = .ok (t', r) := hc
    split at hc
    · injection hc with hc; injection hc with e1 e2; subst e1; exact h
    · cases hc
  push := fun t h => h
  pop := fun t t' h hp => by
    obtain ⟨L, Ls, -, rfl⟩ := pop_cases (show t.pop = .ok t' from hp)
    exact h

theorem newDistance_fuel (s : Sat (DL W)) (i j : Nat) (w : W) : newDistance s i j w ≠ .error .fuel := by
  unfold newDistance
  split
  · split
    · simp
    · split <;> simp
  · simp

theorem newRel_fuel (s : Sat (DL W)) (R : Rel) (l r : Lin) : newRel E R s l r ≠ .error .fuel := by
  have two : ∀ i j i' j' (w w' : W), (match newDistance s i j w with
        | .error e => .error e
        | .ok (s, l1) =>
          match newDistance s i' j' w' with
          | .error e => .error e
          | .ok (s, l2) => s.newConj E [l1, l2]) ≠ Except.error Err.fuel := by
    intro i j i' j' w w'
    cases h1 : newDistance s i j w with
    | error e => intro he; injection he with he; subst he; exact newDistance_fuel _ _ _ _ h1
    | ok v1 =>
      obtain ⟨s1, l1⟩ := v1
      simp only
      cases h2 : newDistance s1 i' j' w' with
      | error e => intro he; injection he with he; subst he; exact newDistance_fuel _ _ _ _ h2
      | ok v2 => exact Sat.newConj_fuel _ _
  cases hf : form (W := W) (l.sub r) with
  | none => rw [newRel_invalid hf]; simp
  | some f =>
    cases f with
    | const k => cases R <;> simp [newRel, newLt, newLeq, newEqD, newGeq, newGt, hf]
    | diff ng a b k =>
      cases R with
      | lt => cases ng <;> simp only [newRel, newLt, hf] <;> exact newDistance_fuel _ _ _ _
      | leq => cases ng <;> simp only [newRel, newLeq, hf] <;> exact newDistance_fuel _ _ _ _
      | geq => cases ng <;> simp only [newRel, newGeq, hf] <;> exact newDistance_fuel _ _ _ _
      | gt =>
        cases ng with
        | true => simp only [newRel, newGt, hf]; exact newDistance_fuel _ _ _ _
        | false =>
          simp only [newRel, newGt, hf]
          split
          · exact two _ _ _ _ _ _
          · exact newDistance_fuel _ _ _ _
      | eq =>
        simp only [newRel, newEqD, hf]
        split
        · split
          · exact two _ _ _ _ _ _
          · simp
        · simp

/-- C72 (difference logic): in every session, unsafe propagations included, every legal call of the core, `new_distance` and every relational constructor return: no loop runs forever. -/
theorem C72_dl_returns (h : Play E s) :
    (∀ op, s.Legal op → s.step E ops op ≠ .error .fuel) ∧
    (∀ i j w, newDistance s i j w ≠ .error .fuel) ∧ (∀ R l r, newRel E R s l r ≠ .error .fuel) :=
  ⟨fun _ hl => Sat.step_fuel (h.calm.resolve_left (by rw [hl.1]; simp)) hl, fun i j w => newDistance_fuel s i j w, fun R l r => newRel_fuel s R l r⟩

/-- C73 (difference logic): in every session, unsafe propagations included, whatever the heuristic, the client that decides until all variables are assigned stops within the given number of
decisions; if it answers true, the assignment it found together with any positions that satisfy the decided literals (there are some) is a solution of the network it was given. -/
theorem C73_dl_stops (h : Play E s) (hd : s.dead = false) {pick : Sat (DL W) → Option Lit} (hh : Sat.Heuristic pick) {k : Nat} (hk : (s.nvars + 2) ^ (s.dl + s.nvars + 1) ≤ k) :
    Sat.solve E ops pick k s ≠ .error .fuel ∧
    ∀ s', Sat.solve E ops pick k s = .ok (s', true) →
      (∀ v, v < s.nvars → s'.assigns v ≠ none) ∧ (∃ X, Fits s' X) ∧ ∀ X, Fits s' X → Model s (fun v => s'.assigns v = some true) X := by
  have hc := (h.calm.resolve_left (by rw [hd]; simp)).with (keeps_vd s.th.vd) rfl
  obtain ⟨a, b⟩ := Sat.solve_halts (E := E) _ hh hc hk
  refine ⟨a, fun s' hs => ?_⟩
  obtain ⟨b1, b2, -, b4, b5, b6⟩ := b s' hs
  obtain ⟨c1, c2⟩ := b1.without
  exact ⟨fun v hv => b6 v (by rw [b5]; exact hv), (positions c1 b2).1, fun X hX => (model_vd c2 b4 _ X).mp (solution c1 b2 b6 hX)⟩

end DL

namespace LRA
open Lin
variable {E : Env} {L : LEnv} {s s' : Sat LRA} {U : List Fact}

theorem updRows_fuel (t : LRA) (x : Nat) (v : IQ) : ∀ (rs : List Nat) a, updRows t x v rs a ≠ .error .fuel
  | [], a => by simp [updRows]
  | r :: rs, a => by
    unfold updRows
    split
    · simp
    · exact updRows_fuel t x v rs _

theorem update_fuel (t : LRA) (x : Nat) (v : IQ) : t.update L x v ≠ .error .fuel := by
  unfold update
  split
  · simp
  · split
    · next e he => intro h; injection h with h; subst h; exact updRows_fuel _ _ _ _ _ he
    · simp

theorem rowsJobs_fuel {f : Nat → Except Err (List (Lit × List Lit))} (hf : ∀ r, f r ≠ .error .fuel) : ∀ rs, rowsJobs f rs ≠ .error .fuel
  | [] => by simp [rowsJobs]
  | r :: rs => by
    unfold rowsJobs
    split
    · next e he => intro h; injection h with h; subst h; exact hf r he
    · split
      · next e he => intro h; injection h with h; subst h; exact rowsJobs_fuel hf rs he
      · simp

theorem rowJobs_fuel (t : LRA) (x r : Nat) : t.rowJobsLb x r ≠ .error .fuel ∧ t.rowJobsUb x r ≠ .error .fuel := by
  constructor
  · unfold rowJobsLb
    split
    · simp
    · split
      · simp
      · split <;> split <;> simp
  · unfold rowJobsUb
    split
    · simp
    · split
      · simp
      · split <;> split <;> simp

theorem emit_halts (t : LRA) : ∀ (js : List (Lit × List Lit)) (val : Lit → Option Bool), (emit t js val).Halts
  | [], _ => trivial
  | (q, L) :: js, val => by
    unfold emit
    split
    · trivial
    · exact fun v => emit_halts t js v
    · exact emit_halts t js val

theorem assertLower_halts (t : LRA) (val : Lit → Option Bool) (x : Nat) (v : IQ) (p : Lit) : (t.assertLower L val x v p).Halts := by
  unfold assertLower
  split
  · simp [TAct.Halts]
  split
  · simp [TAct.Halts]
  split
  · trivial
  split
  · trivial
  simp only
  split
  · next e he =>
    intro h
    subst h
    split at he
    · exact update_fuel _ _ _ he
    · cases he
  · split
    · next e he => intro h; subst h; exact rowsJobs_fuel (fun r => (rowJobs_fuel _ _ r).1) _ he
    · exact emit_halts _ _ _

theorem assertUpper_halts (t : LRA) (val : Lit → Option Bool) (x : Nat) (v : IQ) (p : Lit) : (t.assertUpper L val x v p).Halts := by
  unfold assertUpper
  split
  · simp [TAct.Halts]
  split
  · simp [TAct.Halts]
  split
  · trivial
  split
  · trivial
  simp only
  split
  · next e he =>
    intro h
    subst h
    split at he
    · exact update_fuel _ _ _ he
    · cases he
  · split
    · next e he => intro h; subst h; exact rowsJobs_fuel (fun r => (rowJobs_fuel _ _ r).2) _ he
    · exact emit_halts _ _ _

theorem newVarL_fuel (t : LRA) (root : Bool) (l : Lin) : t.newVarL root l ≠ .error .fuel := by
  unfold newVarL
  split
  · simp
  · split
    · simp
    · split
      · simp
      · split <;> simp

theorem newRel_fuel (R : Rel4) (s : Sat LRA) (l r : Lin) : newRel R s l r ≠ .error .fuel := by
  unfold newRel
  simp only
  split
  · simp
  · split
    · simp
    · simp
    · split
      · next e he => intro h; injection h with h; subst h; exact newVarL_fuel _ _ _ he
      · split
        · simp
        · simp
        · split <;> simp

theorem newEqL_fuel (s : Sat LRA) (l r : Lin) : newEqL E s l r ≠ .error .fuel := by
  unfold newEqL
  split
  · next e he => intro h; injection h with h; subst h; exact newRel_fuel _ _ _ _ he
  · split
    · next e he => intro h; injection h with h; subst h; exact newRel_fuel _ _ _ _ he
    · exact Sat.newConj_fuel _ _

/-- C72 (linear arithmetic): in every session, decisions taken before the imposed bounds are propagated included, every legal call of the core, `new_var(l)`, the relational constructors, `set_lb` and
`set_ub` return: no loop runs forever; in particular the simplex ends. -/
theorem C72_lra_returns (h : Play E L s U) :
    (∀ op, s.Legal op → s.step E (ops L) op ≠ .error .fuel) ∧
    (∀ l, s.th.newVarL s.root l ≠ .error .fuel) ∧ (∀ R l r, newRel R s l r ≠ .error .fuel) ∧ (∀ l r, newEqL E s l r ≠ .error .fuel) ∧
    (∀ x v p, setLbC E L s x v p ≠ .error .fuel) ∧ (∀ x v p, setUbC E L s x v p ≠ .error .fuel) :=
  ⟨fun _ hl => Sat.step_fuel (h.calm.resolve_left (by rw [hl.1]; simp)) hl, fun l => newVarL_fuel _ _ l, fun R l r => newRel_fuel R s l r, fun l r => newEqL_fuel s l r,
    fun _ _ _ => Sat.runAct_halts (assertLower_halts _ _ _ _ _), fun _ _ _ => Sat.runAct_halts (assertUpper_halts _ _ _ _ _)⟩

/-- The theory with what is registered fixed. -/
def firmAt (L : LEnv) (U : List Fact) (S0 : Sig) : Firm (ops L) :=
  Firm.ofLive (C := lraContract L) (live L) (fun S => S = S0 ∧ ∀ f ∈ U, f ∈ S.facts) (fun t => ∀ v, InB (t.lo v) (t.hi v) (t.vals v)) (fun _ _ h => h) (fun _ _ h => h)

theorem calm_at (h : s.Calm (firm L U)) : s.Calm (firmAt L U (sig s.th)) := by
  obtain ⟨S, h1, h2, h3⟩ := h.li
  have h3' : TI S s.th s.dl s.tru := h3
  exact h.sound.calm ⟨S, ⟨h3'.sig.symm, h1⟩, h2, h3⟩

theorem calm_of_at {S0 : Sig} (h : s.Calm (firmAt L U S0)) : s.Calm (firm L U) ∧ sig s.th = S0 := by
  obtain ⟨S, h1, h2, h3⟩ := h.li
  have h3' : TI S s.th s.dl s.tru := h3
  exact ⟨h.sound.calm ⟨S, h1.2, h2, h3⟩, h3'.sig.trans h1.1⟩

theorem calm_model (hc : s.Calm (firm L U)) (hq : s.propQ = []) (hin : ∀ v, InB (s.th.lo v) (s.th.hi v) (s.th.vals v)) (hall : ∀ v, v < s.nvars → s.assigns v ≠ none) :
    ∃ δ0 : ℚ, 0 < δ0 ∧ ∀ δ, 0 < δ → δ ≤ δ0 → Model s U (fun v => s.assigns v = some true) (withEps δ s.th.vals) := by
  obtain ⟨-, δ0, h0, f⟩ := calm_backed hc hq hin
  refine ⟨δ0, h0, fun δ h1 h2 => ?_⟩
  have hx := f δ h1 h2
  obtain ⟨Fs, -, -, g, -⟩ := (calm_li hc).fs
  refine ⟨by simp [hc.tw.fv], hc.sat hq hall, fun b a hb' => ?_, hx.defs, fun g hg => hx.user g hg _, trivial⟩
  obtain ⟨sg, hsg⟩ : ∃ sg, s.assigns b = some sg := Option.ne_none_iff_exists'.mp (hall b (g.lt b a hb'))
  rw [← hx.lits b a sg hb' hsg]; simp only [hsg]
  cases sg <;> simp

/-- C73 (linear arithmetic): in every session, whatever the heuristic, the client that decides until all variables are assigned stops within the given number of decisions; if it answers true,
the assignment and the values it found are a solution of the network it was given. (`C57_lra_decides`, for the sessions of C55, also says that it does not fail and that an answer false is right.) -/
theorem C73_lra_stops (h : Play E L s U) (hd : s.dead = false) {pick : Sat LRA → Option Lit} (hh : Sat.Heuristic pick) {k : Nat} (hk : (s.nvars + 2) ^ (s.dl + s.nvars + 1) ≤ k) :
    Sat.solve E (ops L) pick k s ≠ .error .fuel ∧
    ∀ s', Sat.solve E (ops L) pick k s = .ok (s', true) →
      (∀ v, v < s.nvars → s'.assigns v ≠ none) ∧ ∃ δ0 : ℚ, 0 < δ0 ∧ ∀ δ, 0 < δ → δ ≤ δ0 → Model s U (fun v => s'.assigns v = some true) (withEps δ s'.th.vals) := by
  have hc := calm_at (h.calm.resolve_left (by rw [hd]; simp))
  obtain ⟨a, b⟩ := Sat.solve_halts (E := E) _ hh hc hk
  refine ⟨a, fun s' hs => ?_⟩
  obtain ⟨b1, b2, b3, b4, b5, b6⟩ := b s' hs
  obtain ⟨c1, c2⟩ := calm_of_at b1
  obtain ⟨δ0, h0, f⟩ := calm_model c1 b2 b3 b6
  exact ⟨fun v hv => b6 v (by rw [b5]; exact hv), δ0, h0, fun δ h1 h2 => (model_sig c2 b4 _ _).mp (f δ h1 h2)⟩

end LRA

namespace Mix
open Lin
variable {W : Type} [AddCommGroup W] [LinearOrder W] [IsOrderedAddMonoid W] [Dom W]
variable {E : Env} {L : LEnv} {S S' : Sat (LRA × DL W)} {U : List Fact}

/-- C72 (both theories on the same core): in every session, every legal call of the core returns, and so do the constructors of both theories, `set_lb` and `set_ub`. -/
theorem C72_mix_returns (h : Play E L S U) :
    (∀ op, S.Legal op → S.step E (ops L) op ≠ .error .fuel) ∧
    (∀ l, S.th.1.newVarL S.root l ≠ .error .fuel) ∧ (∀ R l r, LRA.newRel R (S.left 1) l r ≠ .error .fuel) ∧ (∀ l r, LRA.newEqL E (S.left 1) l r ≠ .error .fuel) ∧
    (∀ x v p, LRA.setLbC E L (S.left 1) x v p ≠ .error .fuel) ∧ (∀ x v p, LRA.setUbC E L (S.left 1) x v p ≠ .error .fuel) ∧
    (∀ i j w, DL.newDistance (S.right 1) i j w ≠ .error .fuel) ∧ (∀ R l r, DL.newRel E R (S.right 1) l r ≠ .error .fuel) :=
  ⟨fun _ hl => Sat.step_fuel (h.calm.resolve_left (by rw [hl.1]; simp)) hl, fun l => LRA.newVarL_fuel _ _ l, fun R l r => LRA.newRel_fuel R _ l r, fun l r => LRA.newEqL_fuel _ l r,
    fun _ _ _ => Sat.runAct_halts (LRA.assertLower_halts _ _ _ _ _), fun _ _ _ => Sat.runAct_halts (LRA.assertUpper_halts _ _ _ _ _),
    fun i j w => DL.newDistance_fuel _ i j w, fun R l r => DL.newRel_fuel _ R l r⟩

/-- The two theories with what is registered fixed. -/
abbrev firmAt (L : LEnv) (U : List Fact) (S0 : LRA.Sig) (V : Nat → Option (Dist W)) : Firm (ops (W := W) L) := (LRA.firmAt L U S0).prod 1 (DL.firm.with (DL.keeps_vd V)) (live_ids L)

theorem calm_at (h : S.Calm (firm L U)) : S.Calm (firmAt L U (LRA.sig S.th.1) S.th.2.vd) :=
  h.sound.calm ⟨(LRA.calm_at h.left).li, ⟨h.li.2.1, rfl⟩, h.li.2.2⟩

theorem calm_of_at {S0 : LRA.Sig} {V : Nat → Option (Dist W)} (h : S.Calm (firmAt L U S0 V)) : S.Calm (firm L U) ∧ LRA.sig S.th.1 = S0 ∧ S.th.2.vd = V :=
  ⟨h.sound.calm ⟨(LRA.calm_of_at h.left).1.li, h.li.2.1.1, h.li.2.2⟩, (LRA.calm_of_at h.left).2, h.li.2.1.2⟩

/-- C73 (both theories on the same core): in every session, whatever the heuristic, the client that decides until all variables are assigned stops within the given number of decisions; if it
answers true, the assignment and the values it found, with any positions that satisfy the decided distance literals (there are some), are a solution of the network it was given. -/
theorem C73_mix_stops (h : Play E L S U) (hd : S.dead = false) {pick : Sat (LRA × DL W) → Option Lit} (hh : Sat.Heuristic pick) {k : Nat} (hk : (S.nvars + 2) ^ (S.dl + S.nvars + 1) ≤ k) :
    Sat.solve E (ops L) pick k S ≠ .error .fuel ∧
    ∀ S', Sat.solve E (ops L) pick k S = .ok (S', true) →
      (∀ v, v < S.nvars → S'.assigns v ≠ none) ∧ ∃ δ0 : ℚ, 0 < δ0 ∧ (∃ X, DL.Fits (S'.right 1) X) ∧
        ∀ δ, 0 < δ → δ ≤ δ0 → ∀ X, DL.Fits (S'.right 1) X → Model S U (fun v => S'.assigns v = some true) (LRA.withEps δ S'.th.1.vals) X := by
  have hc := calm_at (h.calm.resolve_left (by rw [hd]; simp))
  obtain ⟨a, b⟩ := Sat.solve_halts (E := E) _ hh hc hk
  refine ⟨a, fun S' hs => ?_⟩
  obtain ⟨b1, b2, b3, b4, b5, b6⟩ := b S' hs
  obtain ⟨c1, c2, c3⟩ := calm_of_at b1
  obtain ⟨δ0, h0, f⟩ := LRA.calm_model c1.left b2 b3.1 b6
  refine ⟨fun v hv => b6 v (by rw [b5]; exact hv), δ0, h0, (DL.positions c1.right b2).1, fun δ h1 h2 X hX => ?_⟩
  have m1 := f δ h1 h2
  have m2 := DL.solution c1.right b2 b6 hX
  exact model_eq c2 c3 b4 ⟨m1.zero, m1.posted, m1.lits, m1.defs, m1.user, m2.2.2⟩

end Mix

/-! ### Concrete cases -/

/-- Difference logic: the session `hist62` with an unsafe propagation and a wrong clause recorded: the hypotheses of `C72_dl_returns` and `C73_dl_stops` are met, and the client answers true. -/
example : DL.Play stdEnv (DL.made DL.hist62).1 ∧ (DL.made DL.hist62).1.dead = false ∧ Sat.Heuristic (T := DL ℤ) firstFree ∧
    (Sat.solve stdEnv DL.ops firstFree 10 (DL.made DL.hist62).1).toOption.map (fun r => (r.2, (List.range r.1.nvars).map r.1.assigns)) =
      some (true, [some false, some true, some true, some false]) :=
  ⟨DL.made_play (by decide +kernel), by decide +kernel, firstFree_heuristic, by decide +kernel⟩

/-- Linear arithmetic: the session `sess56`, with an imposed bound that is not propagated: the client answers true. -/
example : (LRA.session LRA.sess56).map (fun r => (r.1.1.dead, (Sat.solve stdEnv (LRA.ops LRA.stdL) firstFree 10 r.1.1).toOption.map (fun r => (r.2, (List.range r.1.nvars).map r.1.assigns)))) =
    some (false, some (true, [some false, some true, some true])) := by decide +kernel

/-- Both theories: the session `hist68`, with an unsafe propagation and a wrong clause recorded. -/
example : Mix.Play stdEnv LRA.stdL (Mix.made Mix.hist68).1 (Mix.made Mix.hist68).2 ∧ (Mix.made Mix.hist68).1.dead = false ∧
    (Sat.solve stdEnv (Mix.ops LRA.stdL) firstFree 10 (Mix.made Mix.hist68).1).toOption.map (fun r => (r.2, (List.range r.1.nvars).map r.1.assigns)) =
      some (true, [some false, some true, some true, some false, some true]) :=
  ⟨Mix.made_play (by decide +kernel), by decide +kernel, by decide +kernel⟩

end Semitone
