import Verif.LRA.Firm
import Verif.DL.Play

/-!
# Linear arithmetic, every session: C56

The sessions of `LRA/Session.lean` (`ZReach`) exclude the decisions taken before the imposed bounds were propagated. None is excluded here: such a call may fail (`C55_witness_unpropagated`), but
what a call that succeeds answers is backed all the same.
-/
namespace Semitone
namespace LRA
open Lin
variable {E : Env} {L : LEnv} {s s' : Sat LRA} {U : List Fact} {d : Bool}

/-- Sessions: the states of a core with the linear-arithmetic theory that sequences of legal calls lead to, as long as no call fails; `U`: the bounds imposed with `set_lb` and `set_ub`. Compare
`ZReach`: no call is excluded (`bind` is called by the theory, not by the client). -/
inductive Play (E : Env) (L : LEnv) : Sat LRA → List Fact → Prop
  | init : Play E L (Sat.init LRA.init) []
  | step {s s' : Sat LRA} {U : List Fact} {op out} : Play E L s U → s.Legal op → DL.MayCall op → s.step E (ops L) op = .ok (s', out) → Play E L s' U
  | newVar {s : Sat LRA} {U : List Fact} : Play E L s U → s.dead = false → Play E L { s with th := s.th.newVar.1 } U
  | newVarL {s : Sat LRA} {U : List Fact} {l t y} : Play E L s U → s.dead = false → l.Canon → (∀ w ∈ keys l.vars, s.th.row w = none) → l.kt = 0 → s.th.newVarL s.root l = .ok (t, y) →
      Play E L { s with th := t } U
  | newRel {s s' : Sat LRA} {U : List Fact} {R l r p} : Play E L s U → s.dead = false → l.Canon → r.Canon → (∀ w ∈ keys l.vars, w < s.th.n) → (∀ w ∈ keys r.vars, w < s.th.n) →
      newRel R s l r = .ok (s', p) → Play E L s' U
  | newEq {s s' : Sat LRA} {U : List Fact} {l r p} : Play E L s U → s.dead = false → l.Canon → r.Canon → (∀ w ∈ keys l.vars, w < s.th.n) → (∀ w ∈ keys r.vars, w < s.th.n) →
      newEqL E s l r = .ok (s', p) → Play E L s' U
  | setLb {s s' : Sat LRA} {U : List Fact} {x v p} : Play E L s U → s.dead = false → s.root = true → x < s.th.n → s.value p = some true → 0 ≤ (ofLex v).2 →
      setLbC E L s x v p = .ok (s', none) → Play E L s' (.lo p x v :: U)
  | setUb {s s' : Sat LRA} {U : List Fact} {x v p} : Play E L s U → s.dead = false → s.root = true → x < s.th.n → s.value p = some true → (ofLex v).2 ≤ 0 →
      setUbC E L s x v p = .ok (s', none) → Play E L s' (.hi p x v :: U)
  | listen {s : Sat LRA} {U : List Fact} {v l t} : Play E L s U → s.dead = false → s.th.listen v l = .ok t → Play E L { s with th := t } U

/-- The sessions of `LRA/Session.lean` are among these. -/
theorem ZReach.play (h : ZReach E L s U d) : Play E L s U := by
  induction h with
  | init => exact .init
  | @step s s' U d op out _ hl hm hs ih => exact .step ih hl (by cases op <;> first | trivial | exact hm) hs
  | newVar _ hd ih => exact .newVar ih hd
  | newVarL _ hd h1 h2 h3 h4 ih => exact .newVarL ih hd h1 h2 h3 h4
  | newRel _ hd h1 h2 h3 h4 h5 ih => exact .newRel ih hd h1 h2 h3 h4 h5
  | newEq _ hd h1 h2 h3 h4 h5 ih => exact .newEq ih hd h1 h2 h3 h4 h5
  | setLb _ hd h1 h2 h3 h4 h5 ih => exact .setLb ih hd h1 h2 h3 h4 h5
  | setUb _ hd h1 h2 h3 h4 h5 ih => exact .setUb ih hd h1 h2 h3 h4 h5
  | listen _ hd h1 ih => exact .listen ih hd h1

/-- Invariant of the sessions. -/
theorem Play.calm (h : Play E L s U) : s.dead = true ∨ s.Calm (firm L U) := by
  induction h with
  | init => exact .inr init_calm
  | @step s s' U op out _ hl hm hs ih =>
    exact (Sat.step_calm (ih.resolve_left (by rw [hl.1]; simp)) hl (fun v i e => by rw [e] at hm; exact hm) hs).1
  | newVar _ hd ih => exact .inr (newVar_kept (ih.resolve_left (by rw [hd]; simp))).calm
  | newVarL _ hd h1 h2 h3 h4 ih => exact .inr (newVarL_kept (ih.resolve_left (by rw [hd]; simp)) h1 h2 h3 h4).1.calm
  | newRel _ hd h1 h2 h3 h4 h5 ih => exact .inr (newRel_kept (ih.resolve_left (by rw [hd]; simp)) h1 h2 h3 h4 h5).calm
  | newEq _ hd h1 h2 h3 h4 h5 ih => exact (newEqL_kept (ih.resolve_left (by rw [hd]; simp)) h1 h2 h3 h4 h5).imp_right (·.1)
  | setLb _ hd h1 h2 h3 h4 h5 ih => exact .inr (setLbC_kept (ih.resolve_left (by rw [hd]; simp)) h1 h2 h3 h4 h5).calm
  | setUb _ hd h1 h2 h3 h4 h5 ih => exact .inr (setUbC_kept (ih.resolve_left (by rw [hd]; simp)) h1 h2 h3 h4 h5).calm
  | listen _ hd h1 ih => exact .inr (listen_kept (ih.resolve_left (by rw [hd]; simp)) h1).calm

theorem Play.quiet (h : Play E L s U) {op : Sat.Op} (hl : s.Legal op) (hop : Propagates op) (hs : s.step E (ops L) op = .ok (s', .bool true)) :
    s'.Calm (firm L U) ∧ s'.propQ = [] ∧ ∀ v, InB (s'.th.lo v) (s'.th.hi v) (s'.th.vals v) :=
  (Sat.step_calm (h.calm.resolve_left (by rw [hl.1]; simp)) hl (fun v i e => by rw [e] at hop; exact hop) hs).2 (by cases op <;> exact hop) rfl

/-- C56: `C56_values` in every session, decisions taken before the imposed bounds are propagated included. -/
theorem C56_values_any (h : Play E L s U) {op : Sat.Op} (hl : s.Legal op) (hop : Propagates op) (hs : s.step E (ops L) op = .ok (s', .bool true)) :
    (∀ v, s'.th.lo v ≤ ((s'.th.vals v : IQ) : WithBot IQ) ∧ ((s'.th.vals v : IQ) : WithTop IQ) ≤ s'.th.hi v) ∧
    (∀ d ∈ s'.th.defs, s'.th.vals d.1 = d.2.eval IQ.one s'.th.vals) ∧
    ∃ δ0 : ℚ, 0 < δ0 ∧ ∀ δ, 0 < δ → δ ≤ δ0 → Agrees s' U (withEps δ s'.th.vals) := by
  obtain ⟨hc, hq, hin⟩ := h.quiet hl hop hs
  exact ⟨hin, calm_backed hc hq hin⟩

/-- C56: `C56_clauses` in every session. -/
theorem C56_clauses_any (h : Play E L s U) {op : Sat.Op} (hl : s.Legal op) (hop : Propagates op) (hs : s.step E (ops L) op = .ok (s', .bool true)) :
    ∀ D ∈ s'.posted, (∃ l ∈ D, s'.value l = some true) ∨ ∃ x ∈ D, ∃ y ∈ D, x ≠ y ∧ s'.value x = none ∧ s'.value y = none := by
  obtain ⟨hc, hq, -⟩ := h.quiet hl hop hs
  exact hc.clauses hq

/-- C56: `C56_solution` in every session. -/
theorem C56_solution_any (h : Play E L s U) {op : Sat.Op} (hl : s.Legal op) (hop : Propagates op) (hs : s.step E (ops L) op = .ok (s', .bool true))
    (hall : ∀ v, v < s'.nvars → s'.assigns v ≠ none) :
    ∃ δ0 : ℚ, 0 < δ0 ∧ ∀ δ, 0 < δ → δ ≤ δ0 → Model s' U (fun v => s'.assigns v = some true) (withEps δ s'.th.vals) := by
  obtain ⟨hc, hq, hin⟩ := h.quiet hl hop hs
  obtain ⟨-, δ0, h0, f⟩ := calm_backed hc hq hin
  refine ⟨δ0, h0, fun δ h1 h2 => ?_⟩
  have hx := f δ h1 h2
  obtain ⟨Fs, -, -, g, -⟩ := (calm_li hc).fs
  refine ⟨by simp [hc.tw.fv], hc.sat hq hall, fun b a hb' => ?_, hx.defs, fun g hg => hx.user g hg _, trivial⟩
  obtain ⟨sg, hsg⟩ : ∃ sg, s'.assigns b = some sg := Option.ne_none_iff_exists'.mp (hall b (g.lt b a hb'))
  rw [← hx.lits b a sg hb' hsg]; simp only [hsg]
  cases sg <;> simp

/-- A session with an imposed bound that is not propagated, `x0 >= 2`, then a decision, `x0 <= 3` (`b1`): `ZReach` excludes it, the call succeeds and returns true; the hypotheses of
`C56_values_any` are met. -/
def sess56 : List DAct := [.var, .rel .leq ⟨[(0, 1)], 0⟩ ⟨[], 3⟩, .op .newVar, .lb 0 (IQ.ofQ 2)]

example : (session sess56).map (fun r => (r.1.1.legalB (.assume ⟨1, true⟩), mayB (.assume ⟨1, true⟩) true, (r.1.1.step stdEnv (ops stdL) (.assume ⟨1, true⟩)).toOption.map (fun r => (r.2, decide (r.1.th.vals 0 = IQ.ofQ 2))))) =
    some (true, false, some (.bool true, true)) := by decide +kernel

end LRA
end Semitone
