import Verif.Sat.Stack
import Verif.Sat.PropsB

/-!
# C19–C22: database simplification, copies, listeners, variables
-/
namespace Semitone
open Sat
variable {T : Type} {E : Env} {O : TheoryOps T} {C : Contract O}

/-! ### C19 -/

/-- At root level `propagate` neither adds nor removes clauses, and only reorders their literals. -/
theorem Sat.propLoop_root (n : Nat) : ∀ (s s' : PSat) b, s.WF noEx → s.root = true → propLoop E noTheory n s = .ok (s', b) →
    s'.constrs = s.constrs ∧ ∀ c, (s'.db c).Perm (s.db c) := by
  induction n with
  | zero => intro s s' b _ _ h; simp [propLoop] at h
  | succ n ih =>
    intro s s' b hw hr h
    unfold propLoop at h
    match hq : s.propQ with
    | p :: q =>
      simp only [hq] at h
      have hwt := hw.takeOut hq
      obtain ⟨hpt, hpl⟩ := hw.que p (by rw [hq]; simp)
      obtain ⟨s1, r, he, hw1, hG, -, -, -⟩ := visit_spec noContract p (s.watches p) _ hwt (hw.trail_true hpt) hpl
      have hr1 : s1.root = true := by unfold Sat.root; rw [hG.lim]; exact hr
      rw [he] at h
      match r, h with
      | some c, h =>
        simp only at h
        rw [if_pos (show ({ s1 with propQ := [] } : PSat).root = true from hr1)] at h
        injection h with h; injection h with h1 h2; subst h1
        exact ⟨hG.constrs, hG.db⟩
      | none, h =>
        simp only at h
        have hb : ∀ is, runBinds E noTheory p is s1 = .ok (s1, none) := by
          intro is
          induction is with
          | nil => rfl
          | cons i is ih => simp only [runBinds, noTheory, runAct]; exact ih
        rw [hb] at h
        simp only [hr1, if_true] at h
        obtain ⟨a, b⟩ := ih { s1 with bounds := upd s1.bounds p.var [] } s' b (hw1.congr rfl rfl rfl rfl rfl rfl rfl rfl rfl rfl rfl rfl) hr1 h
        exact ⟨a.trans hG.constrs, fun c => (b c).trans (hG.db c)⟩
    | [] =>
      simp only [hq, noTheory, runChecks] at h
      injection h with h; injection h with h2 h3; subst h2
      exact ⟨rfl, fun _ => List.Perm.refl _⟩

/-- `simplify_db` answers false only when there is no solution. -/
theorem C19_false {s s' : PSat} (h : LReach E s) (hd : s.dead = false) (hs : s.simplifyDb E noTheory = .ok (s', false)) :
    s.Unsat noContract.Th := ((simplifyDb_spec h.rinv.inv (h.linv.legal_fix hd) hs).ans rfl).2

/-- `simplify_db` does not change the assignments compatible with the stored network. -/
theorem C19_same_solutions {s s' : PSat} (h : LReach E s) (hd : s.dead = false) (hs : s.simplifyDb E noTheory = .ok (s', true)) (α : Asg) :
    s'.Net noContract.Th α ↔ s.Net noContract.Th α := by
  have f := simplifyDb_spec h.rinv.inv (h.linv.legal_fix hd) hs
  have hd' : s'.dead = false := by
    match hx : s'.dead with
    | false => rfl
    | true => rcases f.bad hx with h1 | ⟨h1, -⟩
              · rw [hd] at h1; cases h1
              · cases h1
  have h' : LReach E s' := .step (op := .simplify) (out := .bool true) h ⟨hd, f.root⟩ (by simp only [step, hs]; rfl)
  rw [net_iff_sol h'.rinv hd', net_iff_sol h.rinv hd]
  exact Sol.congr f.posted (fun _ => Iff.rfl) α

/-- What `simplify_db` removes: clauses one of whose literals is true at root level, and literals that are false at root level. What
it keeps: everything else. Values already reported do not change. -/
theorem C19_removed {s s' : PSat} (h : LReach E s) (hd : s.dead = false) (hs : s.simplifyDb E noTheory = .ok (s', true)) :
    (∀ c ∈ s'.constrs, c ∈ s.constrs) ∧
    (∀ c ∈ s.constrs,
      (c ∉ s'.constrs ∧ ∃ l ∈ s.db c, s'.value l = some true ∧ s'.level l.var = 0) ∨
      (c ∈ s'.constrs ∧ (∀ l ∈ s.db c, s'.value l ≠ some true) ∧
        (s'.db c).Perm ((s.db c).filter (fun l => decide (s'.value l ≠ some false))))) ∧
    (∀ l b, s.value l = some b → s'.value l = some b ∧ s'.level l.var = 0) := by
  have f := simplifyDb_spec h.rinv.inv (h.linv.legal_fix hd) hs
  have hi := h.rinv.inv
  unfold simplifyDb at hs
  rw [if_neg (by simp [f.root])] at hs
  match hp : s.propagate E noTheory with
  | .error e => rw [hp] at hs; cases hs
  | .ok (u, false) =>
    rw [hp] at hs; injection hs with hs; injection hs with e1 e2; cases e2
  | .ok (u, true) =>
    rw [hp] at hs
    simp only at hs
    have d := propagate_spec hi hp
    obtain ⟨k1, k2⟩ := Sat.propLoop_root _ _ _ _ hi.wf f.root hp
    have hur : u.root = true := by
      have h0 := (root_iff s).1 f.root
      have h1 := d.evo.dl
      exact (root_iff u).2 (by omega)
    obtain ⟨r1, r2, r3, x, h1, h2, S⟩ := simplify_core d.inv.wf hur d.queue (h.linv.legal_fix hd u hp)
    rw [h1] at hs
    simp only at hs
    rw [h2] at hs
    simp only at hs
    injection hs with hs; injection hs with e1 e2
    rw [e1] at S
    have ev : s'.value = u.value := by rw [S.fr]; rfl
    have el : ∀ v, s'.level v = 0 := f.inv.wf.root_level f.root'
    rw [ev]
    refine ⟨fun c hc => k1 ▸ (S.kept c hc).1, ?_, ?_⟩
    · intro c hc
      by_cases hk : c ∈ s'.constrs
      · right
        obtain ⟨a, b, e⟩ := S.kept c hk
        refine ⟨hk, fun l hl => e l ((k2 c).mem_iff.2 hl), ?_⟩
        rw [b]
        have : (u.db c).filter (fun l => decide (u.value l = none)) = (u.db c).filter (fun l => decide (u.value l ≠ some false)) := by
          apply List.filter_congr
          intro l hl
          have := e l hl
          match hv : u.value l with
          | none => simp
          | some false => simp
          | some true => exact absurd hv this
        rw [this]
        exact (k2 c).filter _
      · left
        obtain ⟨l, hl, hv⟩ := S.gone c (k1 ▸ hc) hk
        exact ⟨hk, l, (k2 c).mem_iff.1 hl, hv, el _⟩
    · intro l b hl
      refine ⟨?_, el _⟩
      rw [← ev]
      unfold Sat.value at hl ⊢
      have : s.assigns l.var ≠ none := by intro e; rw [e] at hl; cases hl
      rw [(f.keep l.var this).1]; exact hl

/-- Six variables; one clause becomes satisfied and one loses a literal. -/
def demoG : PSat := demo stdEnv [.newVar, .newVar, .newVar, .newVar, .newClause [pl 1, pl 2, pl 3], .newClause [nl 1, pl 2, pl 3, pl 4], .newClause [pl 1]]

example : LReach stdEnv demoG ∧ demoG.dead = false ∧ demoG.constrs = [0, 1] ∧
    (demoG.simplifyDb stdEnv noTheory).map (fun r => (r.1.constrs, r.1.db 1, r.2)) = .ok ([1], [pl 2, pl 3, pl 4], true) :=
  ⟨demo_reach _ _, by decide⟩

/-! ### C20 -/

/-- The copy of a core (at any decision level, nothing queued): copying succeeds, the copy reports the value of every variable as the
original does, as root-level facts, with an empty decision stack and nothing queued. -/
theorem C20_values {s : PSat} (h : LReach E s) (hd : s.dead = false) (hq : s.propQ = []) (hdec : ∀ d ∈ s.decisions, s.value d = some true) :
    ∃ s', s.copy E noTheory = .ok s' ∧ LReach E s' ∧ s'.nvars = s.nvars ∧ s'.decisions = [] ∧ s'.root = true ∧ s'.propQ = [] ∧
      ∀ p, s'.value p = s.value p ∧ s'.level p.var = 0 := by
  obtain ⟨s', h1, c⟩ := copy_spec (E := E) h.rinv.inv (h.linv.fixq hd) hq hdec
  refine ⟨s', h1, .copy h hd hq hdec h1, c.nv, c.dec, c.root, c.queue, fun p => ⟨?_, c.level _⟩⟩
  unfold Sat.value; rw [c.assigns]

/-- The copy stores every clause of the original up to the assignment, and nothing else: its compatible assignments are the solutions of
the original in which every decision holds; and it is at a unit-propagation fixpoint. -/
theorem C20_constraints {s s' : PSat} (h : LReach E s) (hd : s.dead = false) (hq : s.propQ = []) (hdec : ∀ d ∈ s.decisions, s.value d = some true)
    (hc : s.copy E noTheory = .ok s') :
    (∀ α, s'.Net noContract.Th α ↔ s.Net noContract.Th α ∧ α.all s.decisions) ∧
    (∀ d ∈ s.constrs, (∃ l ∈ s.db d, s.value l = some true) ∨
      ∃ c ∈ s'.constrs, s'.db c = (s.db d).filter (fun l => decide (s.value l = none))) ∧
    (∀ c ∈ s'.constrs, ∃ d ∈ s.constrs, s'.db c = (s.db d).filter (fun l => decide (s.value l = none))) ∧
    (∀ c ∈ s'.constrs, (∃ l ∈ s'.db c, s'.value l = some true) ∨
      ∃ l ∈ s'.db c, ∃ l' ∈ s'.db c, l ≠ l' ∧ s'.value l = none ∧ s'.value l' = none) := by
  obtain ⟨u, h1, c⟩ := copy_spec (E := E) h.rinv.inv (h.linv.fixq hd) hq hdec
  rw [hc] at h1; injection h1 with h1; subst h1
  have h' : LReach E s' := .copy h hd hq hdec hc
  refine ⟨fun α => ?_, c.allc, fun x hx => ?_, fun x hx => ?_⟩
  · rw [net_iff_sol h'.rinv (by rw [c.dead]; exact hd), net_iff_sol h.rinv hd]
    unfold Sol
    rw [c.posted]
    constructor
    · rintro ⟨a, b, e⟩
      refine ⟨⟨a, fun D hD => b D (by simp [hD]), trivial⟩, ?_⟩
      intro l hl
      obtain ⟨m, hm, hs⟩ := b [l] (List.mem_append.2 (Or.inl (List.mem_map.2 ⟨l, hl, rfl⟩)))
      simp at hm; rw [hm] at hs; exact hs
    · rintro ⟨⟨a, b, e⟩, g⟩
      refine ⟨a, ?_, trivial⟩
      intro D hD
      rcases List.mem_append.1 hD with hD | hD
      · obtain ⟨l, hl, rfl⟩ := List.mem_map.1 hD
        exact ⟨l, by simp, g l hl⟩
      · exact b D hD
  · obtain ⟨d, hd', e, -⟩ := c.clauses x hx
    exact ⟨d, hd', e⟩
  · right
    obtain ⟨d, hd', e, -⟩ := c.clauses x hx
    obtain ⟨l, l', r, e'⟩ := c.inv.wf.cln x hx
    have hv : ∀ m ∈ s'.db x, s'.value m = none := by
      intro m hm
      rw [e] at hm
      have hsv : s'.value m = s.value m := by unfold Sat.value; rw [c.assigns]
      rw [hsv]
      simpa using (List.mem_filter.1 hm).2
    have hnd := c.fix.nd x hx
    rw [e'] at hnd
    refine ⟨l, by rw [e']; simp, l', by rw [e']; simp, ?_, hv l (by rw [e']; simp), hv l' (by rw [e']; simp)⟩
    intro hll; subst hll
    exact hnd.2 l r rfl

/-- `sat_stack::push`, any calls on the pushed core, `sat_stack::pop`: the previous core is back, unchanged (`notes` is the log of the
notifications sent, not a part of the core). -/
theorem C20_stack {d c c' : PSat} {rest st : List PSat} (_hp : stackPush E noTheory (d :: rest) = .ok (c :: d :: rest))
    (_hs : Steps E c c') (hpop : stackPop (c' :: d :: rest) = .ok st) :
    ∃ d', st = d' :: rest ∧ d' = { d with notes := d'.notes } := by
  injection hpop with hpop
  exact ⟨_, hpop.symm, rfl⟩

theorem C20_push {s : PSat} {rest : List PSat} (h : LReach E s) (hd : s.dead = false) (hq : s.propQ = []) (hdec : ∀ d ∈ s.decisions, s.value d = some true) :
    ∃ s', stackPush E noTheory (s :: rest) = .ok (s' :: s :: rest) ∧ s.copy E noTheory = .ok s' := by
  obtain ⟨s', h1, c⟩ := copy_spec (E := E) h.rinv.inv (h.linv.fixq hd) hq hdec
  exact ⟨s', by simp only [stackPush, h1], h1⟩

example : LReach stdEnv demoA ∧ demoA.dead = false ∧ demoA.propQ = [] ∧ demoA.decisions = [pl 1, pl 3] ∧ (∀ d ∈ demoA.decisions, demoA.value d = some true) ∧
    (demoA.copy stdEnv noTheory).map (fun r => (r.constrs.map r.db, r.value (pl 3), r.value (nl 4))) = .ok ([], some true, some true) :=
  ⟨demo_reach _ _, by decide⟩

/-! ### C21 -/

/-- What a listener `l` registered on `v` has been told (newest first): each report differs from the one before it (the first one from
"unassigned"), and the last one is the current value of `v`. -/
theorem C21_partial {s : Sat T} (h : Reach E C s) (l v : Nat) (hl : l ∈ s.listening v ∨ s.log l v ≠ []) :
    Changes (s.log l v) ∧ (s.log l v).head?.getD none = s.assigns v :=
  ⟨h.ninv.chg l v, h.ninv.mir l v hl⟩

/-- `listen` registers the listener when the variable is unassigned (or at root level, where the value will never change again), and
nothing else changes. -/
theorem C21_listen {s : Sat T} (v l : Nat) (hv : s.assigns v = none) :
    l ∈ (s.listen v l).listening v ∧ (∀ l' w, l' ∈ s.listening w → l' ∈ (s.listen v l).listening w) ∧
    (∀ l' w, l' ∈ (s.listen v l).listening w → (l' = l ∧ w = v) ∨ l' ∈ s.listening w) := by
  unfold Sat.listen
  rw [if_pos hv]
  refine ⟨by simp [upd], ?_, ?_⟩
  · intro l' w hl
    simp only [upd]
    split
    · rename_i e
      by_cases hml : l' = l
      · simp [hml]
      · exact List.mem_cons_of_mem _ ((List.mem_erase_of_ne hml).2 (e ▸ hl))
    · exact hl
  · intro l' w hl
    simp only [upd] at hl
    split at hl
    · rename_i e
      rcases List.mem_cons.1 hl with h1 | h1
      · exact Or.inl ⟨h1, e⟩
      · exact Or.inr (e ▸ List.mem_of_mem_erase h1)
    · exact Or.inr hl

/-- No report for other variables: as long as `l` is not registered on `v`, calls other than its registration send it nothing about `v`. -/
theorem C21_no_other {s s' : Sat T} {op : Op} {out} (h : Reach E C s) (hs : s.step E O op = .ok (s', out)) (l v : Nat)
    (hl : l ∉ s.listening v) (hop : op ≠ .listen v l) : l ∉ s'.listening v ∧ s'.log l v = s.log l v := by
  by_cases hli : ∃ w m, op = .listen w m
  · obtain ⟨w, m, rfl⟩ := hli
    injection hs with hs; injection hs with e1 e2; subst e1
    unfold Sat.listen
    split
    · refine ⟨?_, rfl⟩
      simp only [upd]
      split
      · rename_i e
        intro hm
        rcases List.mem_cons.1 hm with h1 | h1
        · exact hop (by rw [h1, e])
        · exact hl (e ▸ List.mem_of_mem_erase h1)
      · exact hl
    · exact ⟨hl, rfl⟩
  · exact ((step_mic h.rinv.inv (fun w m e => hli ⟨w, m, e⟩) hs).quiet h.ninv.nd).2 l v hl

/-- A registration is lost only when the variable gets its definitive, root-level value, of which the listener has been told. -/
theorem C21_until_root {s : Sat T} (h : Reach E C s) (l v : Nat) (hl : l ∉ s.listening v) (hlog : s.log l v ≠ []) :
    s.assigns v ≠ none ∧ s.level v = 0 := h.ninv.off l v hl hlog

/-- `sat_stack::pop`: every listener registered in the core that comes back, whatever calls were made on the pushed core, has been told
the value that is current again. -/
theorem C21_stack {d c c' d' : PSat} {rest rest' : List PSat} (h : LReach E d) (hd : d.dead = false) (hq : d.propQ = [])
    (hdec : ∀ x ∈ d.decisions, d.value x = some true) (hp : stackPush E noTheory (d :: rest) = .ok (c :: d :: rest)) (hs : Steps E c c')
    (hpop : stackPop (c' :: d :: rest) = .ok (d' :: rest')) (l v : Nat) (hl : l ∈ d.listening v) :
    (d'.log l v).head?.getD none = d'.assigns v := by
  obtain ⟨u, h1, k⟩ := copy_spec (E := E) h.rinv.inv (h.linv.fixq hd) hq hdec
  have hcu : c = u := by
    simp only [stackPush, h1] at hp
    injection hp with hp; injection hp with hp _; exact hp.symm
  subst hcu
  have hc : LReach E c := .copy h hd hq hdec h1
  have hc' := hs.reach hc
  have R : Rel d c' := k.rel.steps hs hc
  injection hpop with hpop; injection hpop with e1 e2
  have ea : d'.assigns = d.assigns := by rw [← e1]
  have hlog : d'.log l v = if (∃ p ∈ c'.trail, p.var = v) ∧ l ∈ d.listening v then d.assigns v :: c'.log l v else c'.log l v := by
    rw [← e1]
    exact log_flatMap c'.trail d.listening d.assigns c'.notes l v h.ninv.nd R.tv.1
  rw [hlog, ea]
  by_cases hx : ∃ p ∈ c'.trail, p.var = v
  · rw [if_pos ⟨hx, hl⟩]; rfl
  · rw [if_neg (fun e => hx e.1)]
    rw [hc'.ninv.mir l v (R.lis l v hl)]
    exact R.fixed v (fun q hq e => hx ⟨q, hq, e⟩)

/-- Variable 1 is a decision when listener 7 asks for it. -/
def demoL : PSat := demo stdEnv [.newVar, .newVar, .newClause [nl 1, pl 2], .listen 2 5, .assume (pl 1), .listen 1 7]

/-- Not registered, so not told that the decision is retracted; the listener registered in time on variable 2 is told. -/
theorem C21_late_listener_misses_pop : LReach stdEnv demoL ∧ demoL.value (pl 1) = some true ∧
    ∃ s', demoL.pop noTheory = .ok s' ∧ s'.value (pl 1) = none ∧ s'.log 7 1 = [] ∧ s'.log 5 2 = [none, some true] := by
  refine ⟨demo_reach _ _, by decide, ?_⟩
  have : (demoL.pop noTheory).map (fun s' => (s'.value (pl 1), s'.log 7 1, s'.log 5 2)) = .ok (none, [], [none, some true]) := by decide
  obtain ⟨a, h1, h2⟩ := map_ok this
  simp only [Prod.mk.injEq] at h2
  exact ⟨a, h1, h2.1.symm, h2.2.1.symm, h2.2.2.symm⟩

/-- Two variables, listener 5 on variable 2; then the core is pushed. -/
def demoM : PSat := demo stdEnv [.newVar, .newVar, .newVar, .newClause [nl 1, pl 2], .listen 2 5]

/-- Push, listener 8 registers on variable 3 of the pushed core, 1 and 3 are decided, pop. -/
def demoStack : Except Err (List PSat) :=
  match stackPush stdEnv noTheory [demoM] with
  | .ok (c :: rest) =>
    match (c.listen 3 8).assume stdEnv noTheory (pl 1) with
    | .ok (c, _) =>
      match c.assume stdEnv noTheory (pl 3) with
      | .ok (c, _) => stackPop (c :: rest)
      | .error e => .error e
    | .error e => .error e
  | .ok [] => .error .ub
  | .error e => .error e

/-- On `sat_stack::pop` the listener of the previous core is told that variable 2 is unassigned again; the one registered in the pushed
core only is left with a stale value. -/
theorem C21_pushed_listener_misses_stack_pop : LReach stdEnv demoM ∧
    ∃ s', demoStack = .ok [s'] ∧ s'.assigns 2 = none ∧ s'.log 5 2 = [none, some true] ∧ s'.assigns 3 = none ∧ s'.log 8 3 = [some true] := by
  refine ⟨demo_reach _ _, ?_⟩
  have : demoStack.map (fun st => st.map (fun s' => (s'.assigns 2, s'.log 5 2, s'.assigns 3, s'.log 8 3))) =
      .ok [(none, [none, some true], none, [some true])] := by decide
  obtain ⟨a, h1, h2⟩ := map_ok this
  match a, h2, h1 with
  | [], h2, _ => cases h2
  | x :: y :: r, h2, _ => simp at h2
  | [s'], h2, h1 =>
    simp only [List.map_cons, List.map_nil, List.cons.injEq, Prod.mk.injEq, and_true] at h2
    exact ⟨s', h1, h2.1.symm, h2.2.1.symm, h2.2.2.1.symm, h2.2.2.2.symm⟩

/-! ### C22 -/

/-- `new_var` returns the number of variables so far, the variable is unassigned, and nothing else changes value. -/
theorem C22_new_var {s : Sat T} (h : Reach E C s) :
    s.newVar.2 = s.nvars ∧ s.newVar.1.nvars = s.nvars + 1 ∧ s.newVar.1.assigns s.newVar.2 = none ∧
    (∀ v, v < s.nvars → s.newVar.1.assigns v = s.assigns v) ∧ ∀ v, s.nvars ≤ v → s.newVar.1.assigns v = none := by
  refine ⟨rfl, rfl, by simp [Sat.newVar, upd], ?_, ?_⟩
  · intro v hv
    simp only [Sat.newVar, upd]; rw [if_neg (by omega)]
  · intro v hv
    simp only [Sat.newVar, upd]
    split
    · rfl
    · have := h.rinv.inv.wf.rng v
      match hx : s.assigns v with
      | none => rfl
      | some b => have := this (by rw [hx]; simp); omega

/-- Two calls of `new_var` in the same history return different numbers. -/
theorem C22_fresh {s s' : Sat T} (h : Reach E C s) (hl : Later E C s.newVar.1 s') : s.newVar.2 < s'.newVar.2 := by
  have h1 : Reach E C s.newVar.1 := .step (op := .newVar) (out := .var s.newVar.2) h (fun h => by cases h) rfl
  have := (hl.grows h1).nv
  have e : s.newVar.1.nvars = s.nvars + 1 := rfl
  show s.nvars < s'.nvars
  omega

/-- `FALSE_lit` is false and `TRUE_lit` is true in every reachable state, at root level. -/
theorem C22_constants {s : Sat T} (h : Reach E C s) :
    s.value ⟨0, true⟩ = some false ∧ s.value ⟨0, false⟩ = some true ∧ s.level 0 = 0 := by
  have := h.rinv.inv.wf.fv
  refine ⟨by simp [Sat.value, this], by simp [Sat.value, this], ?_⟩
  exact h.rinv.inv.wf.off 0 h.rinv.inv.wf.fvt

example : Reach stdEnv noContract (Sat.newVar (Sat.init ())).1 ∧ (Sat.newVar (Sat.init ())).2 = 1 :=
  ⟨.step (op := .newVar) (out := .var 1) (.init trivial) (fun h => by cases h) rfl, rfl⟩

theorem C22_constants_legal {s : PSat} (h : LReach E s) :
    s.value ⟨0, true⟩ = some false ∧ s.value ⟨0, false⟩ = some true ∧ s.level 0 = 0 := by
  have := h.rinv.inv.wf.fv
  refine ⟨by simp [Sat.value, this], by simp [Sat.value, this], ?_⟩
  exact h.rinv.inv.wf.off 0 h.rinv.inv.wf.fvt

end Semitone
