import Verif.Sat.With
import Verif.Sat.Later
import Verif.Sat.Quiet
import Verif.Sat.Search
import Verif.Sat.PropsA

/-!
# Stacks of cores of any height
-/
namespace Semitone
namespace Sat
variable {T : Type} {O : TheoryOps T} {C : Contract O} {V : Live C} {E : Env} {s c u : Sat T} {d d' : Bool} {rest : List (Sat T × Bool)}

/-- What the theories promise to the core on top of the cores `l` (newest first), and what they do for it not to fail. -/
def tower (V : Live C) : List (Sat T) → (C : Contract O) × Live C
  | [] => ⟨C, V⟩
  | s :: l => ⟨conOn (tower V l).1 s, liveOn (tower V l).2 s⟩

theorem tower_th (l : List (Sat T)) : (tower V l).1.Th = C.Th := by
  induction l with
  | nil => rfl
  | cons s l ih => exact ih

theorem tower_F (l : List (Sat T)) : (tower V l).2.F = V.F := by
  induction l with
  | nil => rfl
  | cons s l ih => exact ih

theorem tower_ti (l : List (Sat T)) : ∀ {t n A}, (tower V l).1.TI t n A → ∃ n' A', C.TI t n' A' ∧ A' n' = A n := by
  induction l with
  | nil => intro t n A h; exact ⟨n, A, h, rfl⟩
  | cons s l ih =>
    intro t n A h
    obtain ⟨n', A', h1, h2⟩ := ih h.2.1
    exact ⟨n', A', h1, h2.trans lift_add⟩

theorem tower_done (l : List (Sat T)) : (tower V l).2.Done = V.Done := by
  induction l with
  | nil => rfl
  | cons s l ih => exact ih

/-- When nothing is pending, the theories at the bottom have been told everything. -/
theorem tower_li (l : List (Sat T)) : ∀ {t nv b n A}, (tower V l).2.LI t nv b n A (fun _ => False) → ∃ nv' b' n' A', nv' ≤ nv ∧ A' n' = A n ∧ V.LI t nv' b' n' A' (fun _ => False) := by
  induction l with
  | nil => intro t nv b n A h; exact ⟨nv, b, n, A, Nat.le_refl _, rfl, h⟩
  | cons s l ih =>
    intro t nv b n A h
    have hn : s.nvars ≤ nv := h.1
    obtain ⟨P0, p1, -, p3⟩ := UnderLI.empty h (fun _ h => h)
    have e : P0 = fun _ => False := funext fun q => propext ⟨p1 q, False.elim⟩
    rw [e] at p3
    obtain ⟨nv', b', n', A', k1, k2, k3⟩ := ih p3
    exact ⟨nv', b', n', A', k1.trans hn, k2.trans lift_add, k3⟩

/-- A stack of cores, newest first, each in order; the flags tell whether something was imposed on the theories since the last propagation. -/
inductive Pile (V : Live C) : List (Sat T × Bool) → Prop
  | base {s : Sat T} {d} : s.Fine V d → Pile V [(s, d)]
  | on {c s : Sat T} {d d'} {rest : List (Sat T × Bool)} : Pile V ((s, d) :: rest) → s.dead = false → s.propQ = [] → c.Fine (tower V (s :: rest.map Prod.fst)).2 d' →
      (∀ D ∈ s.decisions.map (fun p => [p]) ++ s.posted, D ∈ c.posted) → s.nvars ≤ c.nvars → Pile V ((c, d') :: (s, d) :: rest)

theorem Pile.top (h : Pile V ((s, d) :: rest)) : s.Fine (tower V (rest.map Prod.fst)).2 d := by
  cases h with
  | base h => exact h
  | on _ _ _ h _ _ => exact h

/-- `push` on a stack. -/
theorem Pile.push (h : Pile V ((s, d) :: rest)) (hd : s.dead = false) (hf : d = false) (hq : s.propQ = []) (hdec : ∀ p ∈ s.decisions, s.value p = some true) :
    ∃ c, pushTop E O (s :: rest.map Prod.fst) = .ok (c :: s :: rest.map Prod.fst) ∧ Pushed (tower V (rest.map Prod.fst)).2 s c ∧ Pile V ((c, false) :: (s, d) :: rest) := by
  have f := h.top
  have hL := f.alive hd
  obtain ⟨c, h1, h2⟩ := push_live (E := E) f.rinv hd ⟨hL.live, hL.con hf hq⟩ hq hdec (rest.map Prod.fst)
  exact ⟨c, h1, h2, .on h hd hq ⟨h2.rinv, .inr h2.live.d⟩ (fun D hD => by rw [h2.posted]; exact hD) (Nat.le_of_eq h2.nv.symm)⟩

/-- `pop` on a stack, no decision being open. -/
theorem Pile.pop (h : Pile V ((u, d') :: (s, d) :: rest)) (hr : u.root = true) :
    ∃ s', popTop O (u :: s :: rest.map Prod.fst) = .ok (s' :: rest.map Prod.fst) ∧ s' = { s with th := s'.th, notes := s'.notes } ∧ Pile V ((s', d) :: rest) := by
  cases h with
  | on h hd hq hc _ _ =>
    have f := h.top
    obtain ⟨s', h1, h2, h3, h4, -⟩ := pop_fine f.rinv (f.alive hd) hc hr hq (rest.map Prod.fst)
    refine ⟨s', h1, h2, ?_⟩
    cases h with
    | base _ => exact .base ⟨h3, .inr h4⟩
    | on a b c' e g k => exact .on a b c' ⟨h3, .inr h4⟩ (fun D hD => by rw [h2]; exact g D hD) (by rw [h2]; exact k)

/-- A legal call of the top core. -/
theorem Pile.step {op : Op} (h : Pile V ((s, d) :: rest)) (hl : s.Legal op)
    (hop : match op with
      | .assume _ | .check _ => d = false
      | .bind _ _ => False
      | _ => True) :
    (∃ e, V.F e ∧ s.step E O op = .error e) ∨ ∃ s' out, s.step E O op = .ok (s', out) ∧
      (match op with
        | .propagate | .assume _ | .next | .simplify => out = .bool true → (tower V (rest.map Prod.fst)).2.Done s'.th
        | _ => True) ∧
      Pile V ((s', match op with
        | .propagate | .simplify => false
        | _ => d) :: rest) := by
  have f := h.top
  have hL := f.alive hl.1
  have hsf : op = .simplify → ∀ u, s.propagate E O = .ok (u, true) → u.Fix u.okQ := fun _ u hu => by
    rcases propagate_live (E := E) f.rinv.inv hL.live with ⟨e, -, h1⟩ | ⟨u', b, h1, h2, -⟩
    · rw [hu] at h1; cases h1
    · rw [hu] at h1
      injection h1 with h1; injection h1 with e1 e2
      subst e1 e2
      exact (h2 rfl).1.live.fix
  rcases f.step (E := E) hl hop with ⟨e, he, h1⟩ | ⟨s', out, h1, h2, h3⟩
  · exact .inl ⟨e, by rw [tower_F] at he; exact he, h1⟩
  · refine .inr ⟨s', out, h1, h2, ?_⟩
    have g := step_grows f.rinv hsf h1
    cases h with
    | base _ => exact .base h3
    | on a b c' e k1 k2 => exact .on a b c' h3 (fun D hD => g.posted D (k1 D hD)) (k2.trans g.nv)

theorem Fine.quiet {op : Op} {s' : Sat T} (h : s.Fine V d) (hl : s.Legal op) (hop : Propagates op) (hs : s.step E O op = .ok (s', .bool true)) : s'.propQ = [] ∧ s'.dead = false :=
  step_quiet h.rinv.inv (h.alive hl.1).live hl hop hs

/-- Every variable has a value and nothing is pending: the posted clauses are satisfied, and the theories accept some extension of the assignment. -/
theorem Fine.total (h : s.Fine V false) (hd : s.dead = false) (hq : s.propQ = []) (hall : ∀ v, v < s.nvars → s.assigns v ≠ none) :
    (∀ D ∈ s.posted, Asg.clause (fun v => s.assigns v = some true) D) ∧ ∃ β, β 0 = false ∧ C.Th s.th β ∧ Asg.agree s.nvars β (fun v => s.assigns v = some true) := by
  have hL := h.alive hd
  have hw := h.rinv.inv.wf
  refine ⟨fun D hD => ?_, ?_⟩
  · rcases fixpoint_any h.rinv hL.live.fix hd hq hD with ⟨l, hl, hv⟩ | ⟨x, hx, -, -, -, hv, -⟩
    · refine ⟨l, hl, ?_⟩
      rw [value_true] at hv
      simp only [Asg.sat, hv]
      cases l.sign <;> rfl
    · rw [value_none] at hv
      exact absurd hv (hall _ (h.rinv.inv.prng D hD x hx))
  · obtain ⟨β, b1, b2⟩ := hL.con rfl hq
    have key : ∀ v b, s.assigns v = some b → β v = b := fun v b hv => by
      have := b2 ⟨v, b⟩ ((hw.tru_iff _).2 ((value_true _ _).2 hv))
      simpa [Asg.sat] using this
    refine ⟨β, key 0 false hw.fv, b1, fun v hv => ?_⟩
    match hx : s.assigns v with
    | none => exact absurd hx (hall v hv)
    | some b =>
      rw [key v b hx]
      cases b <;> simp [hx]

/-- The client that decides until every variable is assigned. -/
theorem Fine.solve {pick : Sat T → Option Lit} {k : Nat} (h : s.Fine V d) (hd : s.dead = false) (hh : Heuristic pick) (hk : (s.nvars + 2) ^ (s.dl + s.nvars + 1) ≤ k) :
    (∃ e, V.F e ∧ solve E O pick k s = .error e) ∨ ∃ s' b, solve E O pick k s = .ok (s', b) ∧ s'.posted = s.posted ∧ s'.nvars = s.nvars ∧ (∀ α, C.Th s'.th α ↔ C.Th s.th α) ∧
      (b = true → s'.Fine V false ∧ s'.dead = false ∧ s'.propQ = [] ∧ V.Done s'.th ∧ ∀ v, v < s'.nvars → s'.assigns v ≠ none) ∧ (b = false → s.Unsat C.Th) := by
  unfold Sat.solve
  rcases propagate_live (E := E) h.rinv.inv (h.alive hd).live with ⟨e, he, h1⟩ | ⟨s1, b, h1, -⟩
  · rw [h1]; exact .inl ⟨e, he, rfl⟩
  have D1 := propagate_spec h.rinv.inv h1
  rw [h1]
  cases b with
  | false => exact .inr ⟨s1, false, rfl, D1.evo.posted, D1.evo.nv, D1.th, by simp, fun _ => (D1.bad rfl).2.2⟩
  | true =>
    have hst : s.step E O .propagate = .ok (s1, .bool true) := by simp only [Sat.step, h1]; rfl
    have hl : s.Legal .propagate := ⟨hd, trivial⟩
    have R1 : s1.Fine V false ∧ V.Done s1.th := by
      rcases h.step (E := E) hl trivial with ⟨e, -, h2⟩ | ⟨s2, o, h2, hdn, h3⟩
      · rw [hst] at h2; cases h2
      · rw [hst] at h2
        injection h2 with h2; injection h2 with e1 e2
        subst e1
        exact ⟨h3, hdn e2.symm⟩
    obtain ⟨q1, q2⟩ := h.quiet hl trivial hst
    have hnv := D1.evo.nv
    have hdl := D1.evo.dl
    have hw := weight_bound s1 (s1.dl + s1.nvars)
    have hpow : (s1.nvars + 2) ^ (s1.dl + s1.nvars + 1) ≤ (s.nvars + 2) ^ (s.dl + s.nvars + 1) := by
      rw [hnv]; exact Nat.pow_le_pow_right (by omega) (by omega)
    rcases solveLoop_permits (F := V.F) (E := E) (C := C) hh (P := fun u => u.Fine V false ∧ u.dead = false ∧ u.propQ = [] ∧ V.Done u.th) (fun u hu => hu.1.rinv.inv)
      (fun u p ⟨a1, a2, a3, _⟩ hp hv => by
        have hlu : u.Legal (.assume p) := ⟨a2, a3, hp⟩
        rcases a1.step (E := E) hlu rfl with ⟨e, he, e1⟩ | ⟨u', o, e1, hdn, e2⟩
        · left
          simp only [Sat.step] at e1
          match hp : u.assume E O p with
          | .error e' =>
            rw [hp] at e1
            injection e1 with e1
            subst e1
            exact ⟨_, he, rfl⟩
          | .ok v => rw [hp] at e1; cases e1
        · right
          have e0 := e1
          simp only [Sat.step] at e0
          match hp : u.assume E O p with
          | .error e => rw [hp] at e0; cases e0
          | .ok (w, b) =>
            rw [hp] at e0
            injection e0 with e0; injection e0 with e3 e4
            subst e3 e4
            refine ⟨w, b, rfl, fun hb => ?_⟩
            subst hb
            obtain ⟨r1, r2⟩ := a1.quiet hlu trivial e1
            exact ⟨e2, r2, r1, hdn rfl⟩) k s1 s1.dl ⟨R1.1, q2, q1, R1.2⟩ (fun i a b => by omega) (by omega) with ⟨e, he, g⟩ | ⟨s2, b2, g1, g2, g3, g4, g5, g6⟩
    · exact .inl ⟨e, he, g⟩
    exact .inr ⟨s2, b2, g1, g2.trans D1.evo.posted, g3.trans D1.evo.nv, fun α => (g4 α).trans (D1.th α), fun hb => ⟨(g5 hb).1.1, (g5 hb).1.2.1, (g5 hb).1.2.2.1, (g5 hb).1.2.2.2, (g5 hb).2⟩, fun hb α hα => g6 hb α ((D1.sol α).mpr hα)⟩

end Sat
end Semitone
