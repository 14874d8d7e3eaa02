import Verif.Lib.StackSess
import Verif.Lib.Decide

/-!
# C81: stacks of cores with any number of theories
-/
namespace Semitone

/-- The sessions of a stack of cores (`sat_stack.cpp`) with the theories `C`; the cores are listed newest first, each with its flag `d` (as in `Comp.Session`). A new core with new theories; legal calls of the top core; calls of the
theories while the stack has one core (after `push`, theory calls leave behind what C80 tells); `push` when nothing is pending on the top core, no contradiction was found and its decisions are true (one assumed while false stays on the decision list, and the copy would be inconsistent); `pop` when the top core
has no decision open (C80 tells why). -/
inductive Comp.StackSession {T : Type} (E : Env) (C : Comp T) : List (Sat T × Bool) → C.Dat → Prop
  | init {t} : C.Start t → StackSession E C [(Sat.init t, false)] C.d0
  | step {S U d rest op S' out} : StackSession E C ((S, d) :: rest) U → S.Legal op → LRA.MayCall op d → S.step E C.ops op = .ok (S', out) → StackSession E C ((S', LRA.pendingAfter op d) :: rest) U
  | theory {S U d S' U' d'} : StackSession E C [(S, d)] U → S.dead = false → C.Call S U S' U' → (d' = true ∨ U' = U ∧ d' = d) → StackSession E C [(S', d')] U'
  | push {S c U rest} : StackSession E C ((S, false) :: rest) U → S.dead = false → S.propQ = [] → (∀ p ∈ S.decisions, S.value p = some true) →
      Sat.pushTop E C.ops (S :: rest.map Prod.fst) = .ok (c :: S :: rest.map Prod.fst) → StackSession E C ((c, false) :: (S, false) :: rest) U
  | pop {u S S' U d d' rest} : StackSession E C ((u, d') :: (S, d) :: rest) U → u.root = true →
      Sat.popTop C.ops (u :: S :: rest.map Prod.fst) = .ok (S' :: rest.map Prod.fst) → StackSession E C ((S', d) :: rest) U

namespace Family
variable {T : Type} {E : Env} {C : Comp T} {f : Family E C} {S S' : Sat T} {U : C.Dat} {d : Bool} {rest : List (Sat T × Bool)}

/-- The same sessions for families with difference logic: none of the calls of the core meets a propagation that is excluded (`DL.safe`). -/
abbrev Stack (f : Family E C) (l : List (Sat T × Bool)) (U : C.Dat) : Prop := Comp.Stack E C f.safe l U

theorem _root_.Semitone.Comp.StackSession.stack (hf : f.Plain) {l : List (Sat T × Bool)} (h : Comp.StackSession E C l U) : f.Stack l U := by
  induction h with
  | init h => exact .init h
  | step _ hl hm hs ih => exact .step ih hl hm (by rw [hf.safe, hs]; simp) hs
  | theory _ hd hc hd' ih => exact .theory ih hd hc hd'
  | push _ a b c e ih => exact .push ih a b c e
  | pop _ a b ih => exact .pop ih a b

/-- C81: in every session of a stack of cores with any number of arithmetic and object-variable theories, every legal call of the top core succeeds. -/
theorem C81_calls_succeed (hf : f.Plain) (h : Comp.StackSession E C ((S, d) :: rest) U) {op : Sat.Op} (hl : S.Legal op) (hm : LRA.MayCall op d) : ∃ S' out, S.step E C.ops op = .ok (S', out) := by
  rcases Duty.stack_total (D := f.duty) (h.stack hf) hl hm with ⟨-, g, k, e, x⟩ | ⟨S', out, h1, -⟩
  · exact (hf.clean g k e x).elim
  · exact ⟨S', out, h1⟩

/-- C81: `push` succeeds; the new core has the same variables and values, all at its root level, and is given the decisions of the core below as clauses. -/
theorem C81_push_succeeds (hf : f.Plain) (h : Comp.StackSession E C ((S, false) :: rest) U) (hd : S.dead = false) (hq : S.propQ = []) (hdec : ∀ p ∈ S.decisions, S.value p = some true) :
    ∃ c, Sat.pushTop E C.ops (S :: rest.map Prod.fst) = .ok (c :: S :: rest.map Prod.fst) ∧ c.root = true ∧ c.propQ = [] ∧ c.dead = false ∧ c.posted = S.decisions.map (fun p => [p]) ++ S.posted ∧ c.nvars = S.nvars ∧
      c.assigns = S.assigns ∧ c.exprs = S.exprs := by
  obtain ⟨c, a1, a2, a3, a4, a5, a6, a7, a8, -⟩ := Duty.stack_push (D := f.duty) (h.stack hf) hd hq hdec
  exact ⟨c, a1, a2, a3, a4, a5, a6, a7, a8⟩

/-- C81: `pop` with no decision open succeeds, also when a contradiction was found in the core that is dropped; the core below is as it was when it was left and the networks of the theories are the same. -/
theorem C81_pop_succeeds (hf : f.Plain) {u : Sat T} {d' : Bool} (h : Comp.StackSession E C ((u, d') :: (S, d) :: rest) U) (hr : u.root = true) :
    ∃ S', Sat.popTop C.ops (u :: S :: rest.map Prod.fst) = .ok (S' :: rest.map Prod.fst) ∧ S' = { S with th := S'.th, notes := S'.notes } ∧ ∀ α x, f.Net S'.th U α x ↔ f.Net S.th U α x := by
  obtain ⟨S', a1, a2, a3, -⟩ := Duty.stack_pop (D := f.duty) (h.stack hf) hr
  rw [f.duty_net] at a3
  exact ⟨S', a1, a2, a3⟩

/-- C81: what the top core concludes is right: its clauses and the literals true in it follow from the clauses posted to it (those of the cores below and their decisions included) and the networks of the theories; when it found a
contradiction there is no solution. -/
theorem C81_sound (hf : f.Plain) (h : Comp.StackSession E C ((S, d) :: rest) U) :
    (∀ c ∈ S.constrs, ∀ α x, f.Model S U α x → α.clause (S.db c)) ∧
    (∀ q, S.value q = some true → ∀ α x, f.Model S U α x → α.all (S.decUpTo (S.level q.var)) → α.sat q) ∧
    (S.dead = true → ∀ α x, ¬ f.Model S U α x) := by
  obtain ⟨a, b, c⟩ := Duty.stack_sound (D := f.duty) (h.stack hf)
  exact ⟨fun k hk α x hm => a k hk α x (model_iff.mpr hm), fun q hq α x hm => b q hq α x (model_iff.mpr hm), fun hd α x hm => c hd α x (model_iff.mpr hm)⟩

/-- C81: the answer false of `propagate` and of `assume` on the top core is definitive. -/
theorem C81_definitive (hf : f.Plain) (h : Comp.StackSession E C ((S, d) :: rest) U) :
    (S.propagate E C.ops = .ok (S', false) → ∀ α x, ¬ f.Model S U α x) ∧ (∀ p, S.assume E C.ops p = .ok (S', false) → ∀ α x, f.Model S U α x → ¬ α.all (p :: S.decisions)) := by
  obtain ⟨a, b⟩ := Duty.stack_definitive (D := f.duty) (S' := S') (h.stack hf)
  have e : f.duty.sops = C.ops := hf.safe
  refine ⟨fun hs α x hm => a (by rw [e]; simp only [Sat.step, hs]; simp [Except.map]) hs α x (model_iff.mpr hm), fun p hs α x hm => b p (by rw [e]; simp only [Sat.step, hs]; simp [Except.map]) hs α x (model_iff.mpr hm)⟩

/-- C81: when a call that propagates answers true on the top core and every variable has a value, the assignment, with the values that the theories report (for every small enough value of the infinitesimal), is a solution. -/
theorem C81_complete (hf : f.Plain) (h : Comp.StackSession E C ((S, d) :: rest) U) {op : Sat.Op} (hl : S.Legal op) (hm : LRA.MayCall op d) (hop : LRA.Propagates op) (hd : d = false ∨ op = .propagate ∨ op = .simplify)
    (hs : S.step E C.ops op = .ok (S', .bool true)) (hall : ∀ v, v < S'.nvars → S'.assigns v ≠ none) :
    ∃ δ0 : ℚ, 0 < δ0 ∧ ∀ δ, 0 < δ → δ ≤ δ0 →
      (∃ x, C.Rep S' δ x) ∧ ∀ x, C.Rep S' δ x → f.Model S' U (fun v => S'.assigns v = some true) x := by
  obtain ⟨δ0, h0, g⟩ := Duty.stack_complete (D := f.duty) (h.stack hf) hl hm hop hd (by rw [show f.duty.sops = C.ops from hf.safe, hs]; simp) hs hall
  exact ⟨δ0, h0, fun δ e1 e2 => ⟨(g δ e1 e2).1, fun x hx => model_iff.mp ((g δ e1 e2).2 x hx)⟩⟩

/-- C81: the client that decides on the top core until every variable is assigned gets an answer within the given number of decisions: true with an assignment that, with the values that the theories report, is a solution, or false when there is none. -/
theorem C81_decides (hf : f.Plain) (h : Comp.StackSession E C ((S, d) :: rest) U) (hd : S.dead = false) {pick : Sat T → Option Lit} (hh : Sat.Heuristic pick) {k : Nat} (hk : (S.nvars + 2) ^ (S.dl + S.nvars + 1) ≤ k) :
    ∃ S' b, Sat.solve E C.ops pick k S = .ok (S', b) ∧
      (b = true → (∀ v, v < S.nvars → S'.assigns v ≠ none) ∧ ∃ δ0 : ℚ, 0 < δ0 ∧ ∀ δ, 0 < δ → δ ≤ δ0 →
        (∃ x, C.Rep S' δ x) ∧ ∀ x, C.Rep S' δ x → f.Model S U (fun v => S'.assigns v = some true) x) ∧
      (b = false → ¬ ∃ α x, f.Model S U α x) := by
  obtain ⟨S', b, h1, h2, h3⟩ := Duty.stack_decides (D := f.duty) (h.stack hf) hd hh hk (.inl hf.clean)
  refine ⟨S', b, h1, fun hb => ?_, fun hb ⟨α, x, hm⟩ => h3 hb ⟨α, x, model_iff.mpr hm⟩⟩
  obtain ⟨k1, δ0, k2, k3⟩ := h2 hb
  exact ⟨k1, δ0, k2, fun δ e1 e2 => ⟨(k3 δ e1 e2).1, fun x hx => model_iff.mp ((k3 δ e1 e2).2 x hx)⟩⟩

/-- C81: with one core on the stack everything that C77, C78 and C79 say holds again, whatever was pushed and popped before. -/
theorem C81_resumes (hf : f.Plain) (h : Comp.StackSession E C [(S, d)] U) : f.Held S U d := by
  obtain ⟨top, S0, d0, e, h0, -⟩ := Duty.stacked (D := f.duty) (h.stack hf)
  cases top with
  | nil =>
    simp at e
    obtain ⟨rfl, rfl⟩ := e
    exact h0
  | cons a top => simp at e

/-! ### The theories: what they report on the top core, and their calls once the stack has one core again -/

/-- What a theory of the family reports. -/
theorem Has.tell {B : Type} {K : Comp B} {k : Family E K} : {T : Type} → {C : Comp T} → {f : Family E C} → (W : k.Has f) → {t : T} → {P : Lit → Prop} → {x : C.Val} → f.duty.Tell t P x → k.duty.Tell (W.within.th t) P (W.val x)
  | _, _, _, .here, _, _, _, h => h
  | _, _, _, .left w, _, _, _, h => w.tell h.1
  | _, _, _, .right w, _, _, _, h => w.tell h.2

theorem value_tell {A : Type} {o : OV A} {v : Nat} {a : A} (h : ∃ l, (a, l) ∈ o.dom v ∧ ¬ S.value l.neg = some true) : a ∈ OV.value S o v := by
  obtain ⟨l, h1, h2⟩ := h
  unfold OV.value
  simp only [List.mem_map, List.mem_filter, decide_eq_true_eq]
  exact ⟨(a, l), ⟨h1, fun hf => h2 (by rw [Sat.value_neg, hf]; rfl)⟩, rfl⟩

section arith
open Lin
variable {L : LEnv} (W : (Family.arith L).Has f)

/-- C81: whatever the height of the stack, the bounds reported by a theory of linear arithmetic contain the values of every solution of the top core compatible with its decisions. -/
theorem C81_arith_bounds (hf : f.Plain) (h : Comp.StackSession E C ((S, d) :: rest) U) : ∀ v α x, f.Model S U α x → α.all S.decisions →
    (W.within.th S.th).lo v ≤ ((IQ.ofQ ((W.val x : Nat → ℚ) v) : IQ) : WithBot IQ) ∧ ((IQ.ofQ ((W.val x : Nat → ℚ) v) : IQ) : WithTop IQ) ≤ (W.within.th S.th).hi v :=
  fun v α x hm hd => W.tell (Duty.stack_tell (D := f.duty) (h.stack hf) α x (model_iff.mpr hm) hd) v

/-- C81 with difference logic (partial): the bounds of linear arithmetic on the top core. Missing: the calls that tell a theory of difference logic a literal in an unsafe situation (`Mix.C66_witness`). -/
theorem C81_arith_bounds_partial (h : f.Stack ((S, d) :: rest) U) : ∀ v α x, f.Model S U α x → α.all S.decisions →
    (W.within.th S.th).lo v ≤ ((IQ.ofQ ((W.val x : Nat → ℚ) v) : IQ) : WithBot IQ) ∧ ((IQ.ofQ ((W.val x : Nat → ℚ) v) : IQ) : WithTop IQ) ≤ (W.within.th S.th).hi v :=
  fun v α x hm hd => W.tell (Duty.stack_tell (D := f.duty) h α x (model_iff.mpr hm) hd) v

/-- C81: with one core on the stack, whatever was pushed and popped before, the literal returned by `new_lt`, `new_leq`, `new_geq`, `new_gt` or `new_eq` is true in exactly the solutions (compatible with the decisions) where the relation holds; the call excludes no solution and admits no new one. -/
theorem C81_arith (hf : f.Plain) (h : Comp.StackSession E C [(S, d)] U) {l r : Lin} {s : Sat LRA} {p : Lit} (hl : l.Canon) (hr : r.Canon) (hvl : ∀ w ∈ keys l.vars, w < (W.within.th S.th).n) (hvr : ∀ w ∈ keys r.vars, w < (W.within.th S.th).n) :
    (∀ R : LRA.Rel4, LRA.newRel R (W.within.view S) l r = .ok (s, p) →
      (∀ α x, f.Model (W.within.put S s) U α x → α.all S.decisions → (α.sat p ↔ R.holds (l.eval 1 (W.val x : Nat → ℚ)) (r.eval 1 (W.val x : Nat → ℚ)))) ∧
      (∀ α x, f.Model (W.within.put S s) U α x → f.Model S U α x) ∧
      (∀ α x, f.Model S U α x → ∃ (β : Asg) (y : Nat → ℚ), Asg.agree S.nvars α β ∧ (∀ v, v < (W.within.th S.th).n → y v = (W.val x : Nat → ℚ) v) ∧ f.Model (W.within.put S s) U β (W.setVal x y))) ∧
    (LRA.newEqL E (W.within.view S) l r = .ok (s, p) →
      (∀ α x, f.Model (W.within.put S s) U α x → α.all S.decisions → (α.sat p ↔ l.eval 1 (W.val x : Nat → ℚ) = r.eval 1 (W.val x : Nat → ℚ))) ∧
      (∀ α x, f.Model (W.within.put S s) U α x → f.Model S U α x) ∧
      (∀ α x, f.Model S U α x → ∃ (β : Asg) (y : Nat → ℚ), Asg.agree S.nvars α β ∧ (∀ v, v < (W.within.th S.th).n → y v = (W.val x : Nat → ℚ) v) ∧ f.Model (W.within.put S s) U β (W.setVal x y))) := held_rel W (C81_resumes hf h) hl hr hvl hvr

/-- C81: with one core on the stack, whatever was pushed and popped before, the calls of the client to a theory of linear arithmetic never fail (at root level, in a consistent session). -/
theorem C81_arith_calls (hf : f.Plain) (h : Comp.StackSession E C [(S, d)] U) (hd : S.dead = false) (hroot : S.root = true) :
    (∀ (R : LRA.Rel4) (l r : Lin), l.Canon → r.Canon → (∀ w ∈ keys l.vars, w < (W.within.th S.th).n) → (∀ w ∈ keys r.vars, w < (W.within.th S.th).n) →
      (∃ s p, LRA.newRel R (W.within.view S) l r = .ok (s, p)) ∧ ∃ s p, LRA.newEqL E (W.within.view S) l r = .ok (s, p)) ∧
    (∀ l : Lin, l.vars ≠ [] → (∀ w ∈ keys l.vars, w < (W.within.th S.th).n) → ∃ t y, (W.within.th S.th).newVarL S.root l = .ok (t, y)) ∧
    (∀ y (v : IQ) p, y < (W.within.th S.th).n → S.value p = some true → 0 ≤ (ofLex v).2 → ∃ s r, LRA.setLbC E L (W.within.view S) y v p = .ok (s, r)) ∧
    (∀ y (v : IQ) p, y < (W.within.th S.th).n → S.value p = some true → (ofLex v).2 ≤ 0 → ∃ s r, LRA.setUbC E L (W.within.view S) y v p = .ok (s, r)) := held_arith_total W (C81_resumes hf h) hd hroot

end arith

section object
variable {A : Type} [DecidableEq A] {D : OEnv A} (W : (Family.object (E := E) D).Has f)

/-- C81: whatever the height of the stack, every value that an object variable has in some solution of the top core compatible with its decisions is reported by `value`. -/
theorem C81_object_values (hf : f.Plain) (h : Comp.StackSession E C ((S, d) :: rest) U) : ∀ v, v < (W.within.th S.th).doms.length → ∀ α x, f.Model S U α x → α.all S.decisions →
    ∀ a ∈ (W.val x : Nat → List A) v, a ∈ OV.value S (W.within.th S.th) v :=
  fun v hv α x hm hd a ha => value_tell (W.tell (Duty.stack_tell (D := f.duty) (h.stack hf) α x (model_iff.mpr hm) hd) v hv a ha)

/-- C81 with difference logic (partial): the values of object variables on the top core. Missing: the calls that tell a theory of difference logic a literal in an unsafe situation (`Mix.C66_witness`). -/
theorem C81_object_values_partial (h : f.Stack ((S, d) :: rest) U) : ∀ v, v < (W.within.th S.th).doms.length → ∀ α x, f.Model S U α x → α.all S.decisions →
    ∀ a ∈ (W.val x : Nat → List A) v, a ∈ OV.value S (W.within.th S.th) v :=
  fun v hv α x hm hd a ha => value_tell (W.tell (Duty.stack_tell (D := f.duty) h α x (model_iff.mpr hm) hd) v hv a ha)

/-- C81: with one core on the stack, whatever was pushed and popped before, the new object variable takes values of `items` in every solution, exactly one if `enforce`; each item is possible with each solution of the old network. -/
theorem C81_object (hf : f.Plain) (h : Comp.StackSession E C [(S, d)] U) {items : List A} {enf : Bool} {s : Sat (OV A)} {o : OV A} {n : Nat} (hn : OV.newVar E 0 (W.within.view S) (W.within.th S.th) items enf = .ok (s, o, n)) :
    (∀ α x, f.Model (W.within.put S { s with th := o }) U α x → (∀ a ∈ (W.val x : Nat → List A) n, a ∈ items) ∧ (enf = true → ∃ a ∈ items, (W.val x : Nat → List A) n = [a])) ∧
    (∀ α x, f.Model (W.within.put S { s with th := o }) U α x → f.Model S U α x) ∧
    (∀ α x, f.Model S U α x → ∀ a ∈ items, ∃ (β : Asg) (y : Nat → List A), Asg.agree S.nvars α β ∧ (∀ v, v < (W.within.th S.th).doms.length → y v = (W.val x : Nat → List A) v) ∧ a ∈ y n ∧
      f.Model (W.within.put S { s with th := o }) U β (W.setVal x y)) := held_object W (C81_resumes hf h) hn

end object

/-! ### With difference logic (see C66, C67, C69 for what is excluded) -/

/-- C81 with difference logic (partial): every legal call of the top core succeeds. Missing: the calls that tell a theory of difference logic a literal in an unsafe situation (`Mix.C66_witness`). -/
theorem C81_calls_succeed_partial (h : f.Stack ((S, d) :: rest) U) {op : Sat.Op} (hl : S.Legal op) (hm : LRA.MayCall op d) (ha : S.step E f.safe op ≠ .error .excluded) : ∃ S' out, S.step E C.ops op = .ok (S', out) := by
  rcases Duty.stack_total (D := f.duty) h hl hm with ⟨k, -⟩ | ⟨S', out, h1, -⟩
  · exact (ha k).elim
  · exact ⟨S', out, h1⟩

/-- C81 with difference logic (partial): `push` succeeds. Missing: the calls that tell a theory of difference logic a literal in an unsafe situation (`Mix.C66_witness`). -/
theorem C81_push_succeeds_partial (h : f.Stack ((S, false) :: rest) U) (hd : S.dead = false) (hq : S.propQ = []) (hdec : ∀ p ∈ S.decisions, S.value p = some true) :
    ∃ c, Sat.pushTop E C.ops (S :: rest.map Prod.fst) = .ok (c :: S :: rest.map Prod.fst) ∧ c.root = true ∧ c.propQ = [] ∧ c.dead = false ∧ c.posted = S.decisions.map (fun p => [p]) ++ S.posted ∧ c.nvars = S.nvars ∧
      c.assigns = S.assigns ∧ c.exprs = S.exprs := by
  obtain ⟨c, a1, a2, a3, a4, a5, a6, a7, a8, -⟩ := Duty.stack_push (D := f.duty) h hd hq hdec
  exact ⟨c, a1, a2, a3, a4, a5, a6, a7, a8⟩

/-- C81 with difference logic (partial): `pop` with no decision open succeeds and leaves the core below and the networks of the theories as they were. Missing: the calls that tell a theory of difference logic a literal in an unsafe situation (`Mix.C66_witness`). -/
theorem C81_pop_succeeds_partial {u : Sat T} {d' : Bool} (h : f.Stack ((u, d') :: (S, d) :: rest) U) (hr : u.root = true) :
    ∃ S', Sat.popTop C.ops (u :: S :: rest.map Prod.fst) = .ok (S' :: rest.map Prod.fst) ∧ S' = { S with th := S'.th, notes := S'.notes } ∧ ∀ α x, f.Net S'.th U α x ↔ f.Net S.th U α x := by
  obtain ⟨S', a1, a2, a3, -⟩ := Duty.stack_pop (D := f.duty) h hr
  rw [f.duty_net] at a3
  exact ⟨S', a1, a2, a3⟩

/-- C81 with difference logic (partial): what the top core concludes is right. Missing: the calls that tell a theory of difference logic a literal in an unsafe situation (`Mix.C66_witness`). -/
theorem C81_sound_partial (h : f.Stack ((S, d) :: rest) U) :
    (∀ c ∈ S.constrs, ∀ α x, f.Model S U α x → α.clause (S.db c)) ∧
    (∀ q, S.value q = some true → ∀ α x, f.Model S U α x → α.all (S.decUpTo (S.level q.var)) → α.sat q) ∧
    (S.dead = true → ∀ α x, ¬ f.Model S U α x) := by
  obtain ⟨a, b, c⟩ := Duty.stack_sound (D := f.duty) h
  exact ⟨fun k hk α x hm => a k hk α x (model_iff.mpr hm), fun q hq α x hm => b q hq α x (model_iff.mpr hm), fun hd α x hm => c hd α x (model_iff.mpr hm)⟩

/-- C81 with difference logic (partial): the distances reported on the top core bound those of every solution compatible with its decisions. Missing: the calls that tell a theory of difference logic a literal in an unsafe situation (`Mix.C66_witness`). -/
theorem C81_distances_partial {R : Type} [AddCommGroup R] [LinearOrder R] [IsOrderedAddMonoid R] [Dom R] (W : (Family.diff R).Has f) (h : f.Stack ((S, d) :: rest) U) :
    ∀ i j, i < (W.within.th S.th).nv → j < (W.within.th S.th).nv → ∀ α x, f.Model S U α x → α.all S.decisions → (((W.val x : Nat → R) j - (W.val x : Nat → R) i : R) : WithTop R) ≤ ((W.within.th S.th).distance i j).2 :=
  fun i j hi hj α x hm hd => W.tell (Duty.stack_tell (D := f.duty) h α x (model_iff.mpr hm) hd) i j hi hj

/-- C81 with difference logic (partial): the client that decides on the top core gets an answer, and it is right. Missing: the calls that tell a theory of difference logic a literal in an unsafe situation (`Mix.C66_witness`). -/
theorem C81_decides_partial (h : f.Stack ((S, d) :: rest) U) (hd : S.dead = false) {pick : Sat T → Option Lit} (hh : Sat.Heuristic pick) {k : Nat} (hk : (S.nvars + 2) ^ (S.dl + S.nvars + 1) ≤ k)
    (ha : Sat.solve E f.safe pick k S ≠ .error .excluded) :
    ∃ S' b, Sat.solve E C.ops pick k S = .ok (S', b) ∧
      (b = true → (∀ v, v < S.nvars → S'.assigns v ≠ none) ∧ ∃ δ0 : ℚ, 0 < δ0 ∧ ∀ δ, 0 < δ → δ ≤ δ0 →
        (∃ x, C.Rep S' δ x) ∧ ∀ x, C.Rep S' δ x → f.Model S U (fun v => S'.assigns v = some true) x) ∧
      (b = false → ¬ ∃ α x, f.Model S U α x) := by
  obtain ⟨S', b, h1, h2, h3⟩ := Duty.stack_decides (D := f.duty) h hd hh hk (.inr ha)
  refine ⟨S', b, h1, fun hb => ?_, fun hb ⟨α, x, hm⟩ => h3 hb ⟨α, x, model_iff.mpr hm⟩⟩
  obtain ⟨k1, δ0, k2, k3⟩ := h2 hb
  exact ⟨k1, δ0, k2, fun δ e1 e2 => ⟨(k3 δ e1 e2).1, fun x hx => model_iff.mp ((k3 δ e1 e2).2 x hx)⟩⟩

end Family
end Semitone
