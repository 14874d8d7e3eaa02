import Verif.Lib.Decide

/-!
# C77, C78, C79: the calls of the theories, failures, and the decision
-/
namespace Semitone
namespace Family
open Lin
variable {E : Env} {L : LEnv} {T : Type} {C : Comp T} {f : Family E C} {S S' : Sat T} {U : C.Dat} {d : Bool}

section arith
variable (W : (Family.arith L).Has f)

/-- C77: the bounds reported by a theory of linear arithmetic contain the values of every solution compatible with the decisions. -/
theorem C77_arith_bounds (hf : f.Plain) (h : Comp.Session E C S U d) : ∀ v α x, f.Model S U α x → α.all S.decisions →
    (W.within.th S.th).lo v ≤ ((IQ.ofQ ((W.val x : Nat → ℚ) v) : IQ) : WithBot IQ) ∧ ((IQ.ofQ ((W.val x : Nat → ℚ) v) : IQ) : WithTop IQ) ≤ (W.within.th S.th).hi v := held_bounds W (h.held hf)

/-- C77 with difference logic (partial): the bounds reported by a theory of linear arithmetic contain the values of every solution compatible with the decisions. Missing: the calls that tell a theory of difference logic a literal in an unsafe situation (`Mix.C66_witness`). -/
theorem C77_arith_bounds_partial (h : f.Sess S U d) : ∀ v α x, f.Model S U α x → α.all S.decisions →
    (W.within.th S.th).lo v ≤ ((IQ.ofQ ((W.val x : Nat → ℚ) v) : IQ) : WithBot IQ) ∧ ((IQ.ofQ ((W.val x : Nat → ℚ) v) : IQ) : WithTop IQ) ≤ (W.within.th S.th).hi v := held_bounds W (Duty.held h)

/-- C77: the literal returned by `new_lt`, `new_leq`, `new_geq`, `new_gt` or `new_eq` on a theory of linear arithmetic is true in exactly the solutions (compatible with the decisions) where the relation holds; the call excludes no solution and admits no new one. -/
theorem C77_arith (hf : f.Plain) (h : Comp.Session E C S U d) {l r : Lin} {s : Sat LRA} {p : Lit} (hl : l.Canon) (hr : r.Canon) (hvl : ∀ w ∈ keys l.vars, w < (W.within.th S.th).n) (hvr : ∀ w ∈ keys r.vars, w < (W.within.th S.th).n) :
    (∀ R : LRA.Rel4, LRA.newRel R (W.within.view S) l r = .ok (s, p) →
      (∀ α x, f.Model (W.within.put S s) U α x → α.all S.decisions → (α.sat p ↔ R.holds (l.eval 1 (W.val x : Nat → ℚ)) (r.eval 1 (W.val x : Nat → ℚ)))) ∧
      (∀ α x, f.Model (W.within.put S s) U α x → f.Model S U α x) ∧
      (∀ α x, f.Model S U α x → ∃ (β : Asg) (y : Nat → ℚ), Asg.agree S.nvars α β ∧ (∀ v, v < (W.within.th S.th).n → y v = (W.val x : Nat → ℚ) v) ∧ f.Model (W.within.put S s) U β (W.setVal x y))) ∧
    (LRA.newEqL E (W.within.view S) l r = .ok (s, p) →
      (∀ α x, f.Model (W.within.put S s) U α x → α.all S.decisions → (α.sat p ↔ l.eval 1 (W.val x : Nat → ℚ) = r.eval 1 (W.val x : Nat → ℚ))) ∧
      (∀ α x, f.Model (W.within.put S s) U α x → f.Model S U α x) ∧
      (∀ α x, f.Model S U α x → ∃ (β : Asg) (y : Nat → ℚ), Asg.agree S.nvars α β ∧ (∀ v, v < (W.within.th S.th).n → y v = (W.val x : Nat → ℚ) v) ∧ f.Model (W.within.put S s) U β (W.setVal x y))) := held_rel W (h.held hf) hl hr hvl hvr

/-- C77 with difference logic (partial): the literal returned by `new_lt`, `new_leq`, `new_geq`, `new_gt` or `new_eq` on a theory of linear arithmetic is true in exactly the solutions (compatible with the decisions) where the relation holds; the call excludes no solution and admits no new one. Missing: the calls that tell a theory of difference logic a literal in an unsafe situation (`Mix.C66_witness`). -/
theorem C77_arith_partial (h : f.Sess S U d) {l r : Lin} {s : Sat LRA} {p : Lit} (hl : l.Canon) (hr : r.Canon) (hvl : ∀ w ∈ keys l.vars, w < (W.within.th S.th).n) (hvr : ∀ w ∈ keys r.vars, w < (W.within.th S.th).n) :
    (∀ R : LRA.Rel4, LRA.newRel R (W.within.view S) l r = .ok (s, p) →
      (∀ α x, f.Model (W.within.put S s) U α x → α.all S.decisions → (α.sat p ↔ R.holds (l.eval 1 (W.val x : Nat → ℚ)) (r.eval 1 (W.val x : Nat → ℚ)))) ∧
      (∀ α x, f.Model (W.within.put S s) U α x → f.Model S U α x) ∧
      (∀ α x, f.Model S U α x → ∃ (β : Asg) (y : Nat → ℚ), Asg.agree S.nvars α β ∧ (∀ v, v < (W.within.th S.th).n → y v = (W.val x : Nat → ℚ) v) ∧ f.Model (W.within.put S s) U β (W.setVal x y))) ∧
    (LRA.newEqL E (W.within.view S) l r = .ok (s, p) →
      (∀ α x, f.Model (W.within.put S s) U α x → α.all S.decisions → (α.sat p ↔ l.eval 1 (W.val x : Nat → ℚ) = r.eval 1 (W.val x : Nat → ℚ))) ∧
      (∀ α x, f.Model (W.within.put S s) U α x → f.Model S U α x) ∧
      (∀ α x, f.Model S U α x → ∃ (β : Asg) (y : Nat → ℚ), Asg.agree S.nvars α β ∧ (∀ v, v < (W.within.th S.th).n → y v = (W.val x : Nat → ℚ) v) ∧ f.Model (W.within.put S s) U β (W.setVal x y))) := held_rel W (Duty.held h) hl hr hvl hvr

/-- C77: the variable returned by `new_var(lin)` has the value of the expression in every solution; the call excludes no solution. -/
theorem C77_arith_var (hf : f.Plain) (h : Comp.Session E C S U d) {l : Lin} {t : LRA} {y : Nat} (hc : l.Canon) (hb : ∀ w ∈ keys l.vars, (W.within.th S.th).row w = none) (hk : l.kt = 0) (hn : (W.within.th S.th).newVarL S.root l = .ok (t, y)) :
    (∀ α x, f.Model (W.within.put S { W.within.view S with th := t }) U α x → (W.val x : Nat → ℚ) y = l.eval 1 (W.val x : Nat → ℚ)) ∧
    (∀ α x, f.Model (W.within.put S { W.within.view S with th := t }) U α x → f.Model S U α x) ∧
    (∀ α x, f.Model S U α x → ∃ (β : Asg) (z : Nat → ℚ), Asg.agree S.nvars α β ∧ (∀ v, v < (W.within.th S.th).n → z v = (W.val x : Nat → ℚ) v) ∧
      f.Model (W.within.put S { W.within.view S with th := t }) U β (W.setVal x z)) := held_var W (h.held hf) hc hb hk hn

/-- C77 with difference logic (partial): the variable returned by `new_var(lin)` has the value of the expression in every solution; the call excludes no solution. Missing: the calls that tell a theory of difference logic a literal in an unsafe situation (`Mix.C66_witness`). -/
theorem C77_arith_var_partial (h : f.Sess S U d) {l : Lin} {t : LRA} {y : Nat} (hc : l.Canon) (hb : ∀ w ∈ keys l.vars, (W.within.th S.th).row w = none) (hk : l.kt = 0) (hn : (W.within.th S.th).newVarL S.root l = .ok (t, y)) :
    (∀ α x, f.Model (W.within.put S { W.within.view S with th := t }) U α x → (W.val x : Nat → ℚ) y = l.eval 1 (W.val x : Nat → ℚ)) ∧
    (∀ α x, f.Model (W.within.put S { W.within.view S with th := t }) U α x → f.Model S U α x) ∧
    (∀ α x, f.Model S U α x → ∃ (β : Asg) (z : Nat → ℚ), Asg.agree S.nvars α β ∧ (∀ v, v < (W.within.th S.th).n → z v = (W.val x : Nat → ℚ) v) ∧
      f.Model (W.within.put S { W.within.view S with th := t }) U β (W.setVal x z)) := held_var W (Duty.held h) hc hb hk hn

/-- C77: a bound imposed at root level restricts the solutions exactly to those that respect it; a conflict means that no solution respects it. -/
theorem C77_arith_set (hf : f.Plain) (h : Comp.Session E C S U d) (hr : S.root = true) {y : Nat} {v : IQ} {p : Lit} {s : Sat LRA} (hy : y < (W.within.th S.th).n) (hp : S.value p = some true) :
    (LRA.setLbC E L (W.within.view S) y v p = .ok (s, none) →
      ∀ α x, f.Model (W.within.put S s) (W.within.setDat U (Fact.lo p y v :: W.within.dat U : List Fact)) α x ↔ f.Model S U α x ∧ v ≤ IQ.ofQ ((W.val x : Nat → ℚ) y)) ∧
    (LRA.setUbC E L (W.within.view S) y v p = .ok (s, none) →
      ∀ α x, f.Model (W.within.put S s) (W.within.setDat U (Fact.hi p y v :: W.within.dat U : List Fact)) α x ↔ f.Model S U α x ∧ IQ.ofQ ((W.val x : Nat → ℚ) y) ≤ v) ∧
    (∀ cl, LRA.setLbC E L (W.within.view S) y v p = .ok (s, some cl) → ∀ α x, f.Model S U α x → ¬ v ≤ IQ.ofQ ((W.val x : Nat → ℚ) y)) ∧
    (∀ cl, LRA.setUbC E L (W.within.view S) y v p = .ok (s, some cl) → ∀ α x, f.Model S U α x → ¬ IQ.ofQ ((W.val x : Nat → ℚ) y) ≤ v) := held_set W (h.held hf) hr hy hp

/-- C77 with difference logic (partial): a bound imposed at root level restricts the solutions exactly to those that respect it; a conflict means that no solution respects it. Missing: the calls that tell a theory of difference logic a literal in an unsafe situation (`Mix.C66_witness`). -/
theorem C77_arith_set_partial (h : f.Sess S U d) (hr : S.root = true) {y : Nat} {v : IQ} {p : Lit} {s : Sat LRA} (hy : y < (W.within.th S.th).n) (hp : S.value p = some true) :
    (LRA.setLbC E L (W.within.view S) y v p = .ok (s, none) →
      ∀ α x, f.Model (W.within.put S s) (W.within.setDat U (Fact.lo p y v :: W.within.dat U : List Fact)) α x ↔ f.Model S U α x ∧ v ≤ IQ.ofQ ((W.val x : Nat → ℚ) y)) ∧
    (LRA.setUbC E L (W.within.view S) y v p = .ok (s, none) →
      ∀ α x, f.Model (W.within.put S s) (W.within.setDat U (Fact.hi p y v :: W.within.dat U : List Fact)) α x ↔ f.Model S U α x ∧ IQ.ofQ ((W.val x : Nat → ℚ) y) ≤ v) ∧
    (∀ cl, LRA.setLbC E L (W.within.view S) y v p = .ok (s, some cl) → ∀ α x, f.Model S U α x → ¬ v ≤ IQ.ofQ ((W.val x : Nat → ℚ) y)) ∧
    (∀ cl, LRA.setUbC E L (W.within.view S) y v p = .ok (s, some cl) → ∀ α x, f.Model S U α x → ¬ IQ.ofQ ((W.val x : Nat → ℚ) y) ≤ v) := held_set W (Duty.held h) hr hy hp

/-- C78: at root level, in a consistent session, the calls of the client to a theory of linear arithmetic never fail. -/
theorem C78_arith_calls (hf : f.Plain) (h : Comp.Session E C S U d) (hd : S.dead = false) (hroot : S.root = true) :
    (∀ (R : LRA.Rel4) (l r : Lin), l.Canon → r.Canon → (∀ w ∈ keys l.vars, w < (W.within.th S.th).n) → (∀ w ∈ keys r.vars, w < (W.within.th S.th).n) →
      (∃ s p, LRA.newRel R (W.within.view S) l r = .ok (s, p)) ∧ ∃ s p, LRA.newEqL E (W.within.view S) l r = .ok (s, p)) ∧
    (∀ l : Lin, l.vars ≠ [] → (∀ w ∈ keys l.vars, w < (W.within.th S.th).n) → ∃ t y, (W.within.th S.th).newVarL S.root l = .ok (t, y)) ∧
    (∀ y (v : IQ) p, y < (W.within.th S.th).n → S.value p = some true → 0 ≤ (ofLex v).2 → ∃ s r, LRA.setLbC E L (W.within.view S) y v p = .ok (s, r)) ∧
    (∀ y (v : IQ) p, y < (W.within.th S.th).n → S.value p = some true → (ofLex v).2 ≤ 0 → ∃ s r, LRA.setUbC E L (W.within.view S) y v p = .ok (s, r)) := held_arith_total W (h.held hf) hd hroot

/-- C78 with difference logic (partial): at root level, in a consistent session, the calls of the client to a theory of linear arithmetic never fail. Missing: the calls that tell a theory of difference logic a literal in an unsafe situation (`Mix.C66_witness`). -/
theorem C78_arith_calls_partial (h : f.Sess S U d) (hd : S.dead = false) (hroot : S.root = true) :
    (∀ (R : LRA.Rel4) (l r : Lin), l.Canon → r.Canon → (∀ w ∈ keys l.vars, w < (W.within.th S.th).n) → (∀ w ∈ keys r.vars, w < (W.within.th S.th).n) →
      (∃ s p, LRA.newRel R (W.within.view S) l r = .ok (s, p)) ∧ ∃ s p, LRA.newEqL E (W.within.view S) l r = .ok (s, p)) ∧
    (∀ l : Lin, l.vars ≠ [] → (∀ w ∈ keys l.vars, w < (W.within.th S.th).n) → ∃ t y, (W.within.th S.th).newVarL S.root l = .ok (t, y)) ∧
    (∀ y (v : IQ) p, y < (W.within.th S.th).n → S.value p = some true → 0 ≤ (ofLex v).2 → ∃ s r, LRA.setLbC E L (W.within.view S) y v p = .ok (s, r)) ∧
    (∀ y (v : IQ) p, y < (W.within.th S.th).n → S.value p = some true → (ofLex v).2 ≤ 0 → ∃ s r, LRA.setUbC E L (W.within.view S) y v p = .ok (s, r)) := held_arith_total W (Duty.held h) hd hroot

end arith

section diff
variable {R : Type} [AddCommGroup R] [LinearOrder R] [IsOrderedAddMonoid R] [Dom R] (W : (Family.diff R).Has f)

/-- C77 with difference logic (partial): the distances reported by a theory of difference logic are right about every solution compatible with the decisions. Missing: the calls that tell a theory of difference logic a literal in an unsafe situation (`Mix.C66_witness`). -/
theorem C77_distances_partial (h : f.Sess S U d) : ∀ i j, i < (W.within.th S.th).nv → j < (W.within.th S.th).nv → ∀ α x, f.Model S U α x → α.all S.decisions →
    (((W.val x : Nat → R) j - (W.val x : Nat → R) i : R) : WithTop R) ≤ ((W.within.th S.th).distance i j).2 := held_distances W (Duty.held h)

/-- C77 with difference logic (partial): the literal returned by `new_distance` is true in exactly the solutions that respect the distance. Missing: the calls that tell a theory of difference logic a literal in an unsafe situation (`Mix.C66_witness`). -/
theorem C77_distance_partial (h : f.Sess S U d) {i j : Nat} {w : R} {s : Sat (DL R)} {p : Lit} (hi : i < (W.within.th S.th).nv) (hj : j < (W.within.th S.th).nv) (hn : DL.newDistance (W.within.view S) i j w = .ok (s, p)) :
    (∀ α x, f.Model (W.within.put S s) U α x → α.all S.decisions → (α.sat p ↔ (W.val x : Nat → R) j - (W.val x : Nat → R) i ≤ w)) ∧
    (∀ α x, f.Model (W.within.put S s) U α x → f.Model S U α x) ∧
    (∀ α x, f.Model S U α x → ∃ β, Asg.agree S.nvars α β ∧ f.Model (W.within.put S s) U β x) := held_distance W (Duty.held h) hi hj hn

/-- C77 with difference logic (partial): the literal returned by a comparison of linear expressions on a theory of difference logic is true in exactly the solutions where the relation holds (except the bug of `new_gt`). Missing: the calls that tell a theory of difference logic a literal in an unsafe situation (`Mix.C66_witness`). -/
theorem C77_diff_partial (h : f.Sess S U d) {Q : Type} (I : DL.Interp Q R) {O : DL.Rel} {l r : Lin} {s : Sat (DL R)} {p : Lit} (hlc : l.Canon) (hrc : r.Canon)
    (hlv : ∀ t ∈ l.vars, t.1 < (W.within.th S.th).nv) (hrv : ∀ t ∈ r.vars, t.1 < (W.within.th S.th).nv) (hb : ¬ DL.GtBug R O l r) (hn : DL.newRel E O (W.within.view S) l r = .ok (s, p)) :
    (∀ α x (z : Nat → Q), I.q (z 0) = 0 → (W.val x : Nat → R) = (fun i => I.emb (z i)) → f.Model (W.within.put S s) U α x → α.all S.decisions →
      (α.sat p ↔ O.holds (l.eval 1 (fun i => I.q (z i))) (r.eval 1 (fun i => I.q (z i))))) ∧
    (∀ α x, f.Model (W.within.put S s) U α x → f.Model S U α x) ∧
    (∀ α x, f.Model S U α x → ∃ β, Asg.agree S.nvars α β ∧ f.Model (W.within.put S s) U β x) := held_diff W (Duty.held h) I hlc hrc hlv hrv hb hn

end diff

section object
variable {A : Type} [DecidableEq A] {D : OEnv A} (W : (Family.object (E := E) D).Has f)

/-- C77: every value that an object variable has in some solution compatible with the decisions is reported by `value`. -/
theorem C77_object_values (hf : f.Plain) (h : Comp.Session E C S U d) : ∀ v, v < (W.within.th S.th).doms.length → ∀ α x, f.Model S U α x → α.all S.decisions → ∀ a ∈ (W.val x : Nat → List A) v, a ∈ OV.value S (W.within.th S.th) v := held_values W (h.held hf)

/-- C77 with difference logic (partial): every value that an object variable has in some solution compatible with the decisions is reported by `value`. Missing: the calls that tell a theory of difference logic a literal in an unsafe situation (`Mix.C66_witness`). -/
theorem C77_object_values_partial (h : f.Sess S U d) : ∀ v, v < (W.within.th S.th).doms.length → ∀ α x, f.Model S U α x → α.all S.decisions → ∀ a ∈ (W.val x : Nat → List A) v, a ∈ OV.value S (W.within.th S.th) v := held_values W (Duty.held h)

/-- C77: `new_var(items, enforce)` on a theory of object variables: in every solution the new variable takes values of `items`, exactly one if `enforce`; each item is possible with each solution of the old network. -/
theorem C77_object (hf : f.Plain) (h : Comp.Session E C S U d) {items : List A} {enf : Bool} {s : Sat (OV A)} {o : OV A} {n : Nat} (hn : OV.newVar E 0 (W.within.view S) (W.within.th S.th) items enf = .ok (s, o, n)) :
    (∀ α x, f.Model (W.within.put S { s with th := o }) U α x → (∀ a ∈ (W.val x : Nat → List A) n, a ∈ items) ∧ (enf = true → ∃ a ∈ items, (W.val x : Nat → List A) n = [a])) ∧
    (∀ α x, f.Model (W.within.put S { s with th := o }) U α x → f.Model S U α x) ∧
    (∀ α x, f.Model S U α x → ∀ a ∈ items, ∃ (β : Asg) (y : Nat → List A), Asg.agree S.nvars α β ∧ (∀ v, v < (W.within.th S.th).doms.length → y v = (W.val x : Nat → List A) v) ∧ a ∈ y n ∧
      f.Model (W.within.put S { s with th := o }) U β (W.setVal x y)) := held_object W (h.held hf) hn

/-- C77 with difference logic (partial): `new_var(items, enforce)` on a theory of object variables: in every solution the new variable takes values of `items`, exactly one if `enforce`; each item is possible with each solution of the old network. Missing: the calls that tell a theory of difference logic a literal in an unsafe situation (`Mix.C66_witness`). -/
theorem C77_object_partial (h : f.Sess S U d) {items : List A} {enf : Bool} {s : Sat (OV A)} {o : OV A} {n : Nat} (hn : OV.newVar E 0 (W.within.view S) (W.within.th S.th) items enf = .ok (s, o, n)) :
    (∀ α x, f.Model (W.within.put S { s with th := o }) U α x → (∀ a ∈ (W.val x : Nat → List A) n, a ∈ items) ∧ (enf = true → ∃ a ∈ items, (W.val x : Nat → List A) n = [a])) ∧
    (∀ α x, f.Model (W.within.put S { s with th := o }) U α x → f.Model S U α x) ∧
    (∀ α x, f.Model S U α x → ∀ a ∈ items, ∃ (β : Asg) (y : Nat → List A), Asg.agree S.nvars α β ∧ (∀ v, v < (W.within.th S.th).doms.length → y v = (W.val x : Nat → List A) v) ∧ a ∈ y n ∧
      f.Model (W.within.put S { s with th := o }) U β (W.setVal x y)) := held_object W (Duty.held h) hn

/-- C77: `new_var(lits, vals)`: the new variable has the values whose literals are true. -/
theorem C77_object_lits (hf : f.Plain) (h : Comp.Session E C S U d) {lits : List Lit} {vals : List A} {o : OV A} {n : Nat} (hv : ∀ l ∈ lits, l.var < S.nvars) (hnd : vals.Nodup) (hn : (W.within.th S.th).newVarLits lits vals = .ok (o, n)) :
    (∀ α x, f.Model (W.within.put S { W.within.view S with th := o }) U α x → (∀ a ∈ (W.val x : Nat → List A) n, a ∈ vals) ∧
      ∀ (k : Nat) (h1 : k < vals.length) (h2 : k < lits.length), vals[k] ∈ (W.val x : Nat → List A) n ↔ α.sat lits[k]) ∧
    (∀ α x, f.Model (W.within.put S { W.within.view S with th := o }) U α x → f.Model S U α x) ∧
    (∀ α x, f.Model S U α x → ∃ y : Nat → List A, (∀ v, v < (W.within.th S.th).doms.length → y v = (W.val x : Nat → List A) v) ∧ f.Model (W.within.put S { W.within.view S with th := o }) U α (W.setVal x y)) := held_lits W (h.held hf) hv hnd hn

/-- C77 with difference logic (partial): `new_var(lits, vals)`: the new variable has the values whose literals are true. Missing: the calls that tell a theory of difference logic a literal in an unsafe situation (`Mix.C66_witness`). -/
theorem C77_object_lits_partial (h : f.Sess S U d) {lits : List Lit} {vals : List A} {o : OV A} {n : Nat} (hv : ∀ l ∈ lits, l.var < S.nvars) (hnd : vals.Nodup) (hn : (W.within.th S.th).newVarLits lits vals = .ok (o, n)) :
    (∀ α x, f.Model (W.within.put S { W.within.view S with th := o }) U α x → (∀ a ∈ (W.val x : Nat → List A) n, a ∈ vals) ∧
      ∀ (k : Nat) (h1 : k < vals.length) (h2 : k < lits.length), vals[k] ∈ (W.val x : Nat → List A) n ↔ α.sat lits[k]) ∧
    (∀ α x, f.Model (W.within.put S { W.within.view S with th := o }) U α x → f.Model S U α x) ∧
    (∀ α x, f.Model S U α x → ∃ y : Nat → List A, (∀ v, v < (W.within.th S.th).doms.length → y v = (W.val x : Nat → List A) v) ∧ f.Model (W.within.put S { W.within.view S with th := o }) U α (W.setVal x y)) := held_lits W (Duty.held h) hv hnd hn

/-- C77: `new_eq(v, w)`: where the literal is true the variables have the same values, where it is false none in common; the solutions where both variables have one value are kept. -/
theorem C77_object_eq (hf : f.Plain) (h : Comp.Session E C S U d) {v w : Nat} {s : Sat (OV A)} {o : OV A} {q : Lit} (hv : v < (W.within.th S.th).doms.length) (hw : w < (W.within.th S.th).doms.length)
    (hn : OV.newEq E D (W.within.view S) (W.within.th S.th) v w = .ok (s, o, q)) :
    (∀ α x, f.Model (W.within.put S { s with th := o }) U α x → (α.sat q → ∀ a, a ∈ (W.val x : Nat → List A) v ↔ a ∈ (W.val x : Nat → List A) w) ∧
      (¬ α.sat q → ∀ a, ¬ (a ∈ (W.val x : Nat → List A) v ∧ a ∈ (W.val x : Nat → List A) w))) ∧
    (∀ α x, f.Model (W.within.put S { s with th := o }) U α x → f.Model S U α x) ∧
    (∀ α x, f.Model S U α x → ∀ a b, (W.val x : Nat → List A) v = [a] → (W.val x : Nat → List A) w = [b] → ∃ β, Asg.agree S.nvars α β ∧ f.Model (W.within.put S { s with th := o }) U β x) := held_object_eq W (h.held hf) hv hw hn

/-- C77 with difference logic (partial): `new_eq(v, w)`: where the literal is true the variables have the same values, where it is false none in common; the solutions where both variables have one value are kept. Missing: the calls that tell a theory of difference logic a literal in an unsafe situation (`Mix.C66_witness`). -/
theorem C77_object_eq_partial (h : f.Sess S U d) {v w : Nat} {s : Sat (OV A)} {o : OV A} {q : Lit} (hv : v < (W.within.th S.th).doms.length) (hw : w < (W.within.th S.th).doms.length)
    (hn : OV.newEq E D (W.within.view S) (W.within.th S.th) v w = .ok (s, o, q)) :
    (∀ α x, f.Model (W.within.put S { s with th := o }) U α x → (α.sat q → ∀ a, a ∈ (W.val x : Nat → List A) v ↔ a ∈ (W.val x : Nat → List A) w) ∧
      (¬ α.sat q → ∀ a, ¬ (a ∈ (W.val x : Nat → List A) v ∧ a ∈ (W.val x : Nat → List A) w))) ∧
    (∀ α x, f.Model (W.within.put S { s with th := o }) U α x → f.Model S U α x) ∧
    (∀ α x, f.Model S U α x → ∀ a b, (W.val x : Nat → List A) v = [a] → (W.val x : Nat → List A) w = [b] → ∃ β, Asg.agree S.nvars α β ∧ f.Model (W.within.put S { s with th := o }) U β x) := held_object_eq W (Duty.held h) hv hw hn

/-- C78: at root level, if there is a solution, `new_var(items)` on a theory of object variables never fails, nor does `new_eq` on variables that have one value in it. -/
theorem C78_object_calls (hf : f.Plain) (h : Comp.Session E C S U d) (hr : S.root = true) {α : Asg} {x : C.Val} (hm : f.Model S U α x) :
    (∀ (items : List A) enf, items ≠ [] → ∃ s o n, OV.newVar E 0 (W.within.view S) (W.within.th S.th) items enf = .ok (s, o, n)) ∧
    (∀ v w a b, v < (W.within.th S.th).doms.length → w < (W.within.th S.th).doms.length → (W.val x : Nat → List A) v = [a] → (W.val x : Nat → List A) w = [b] →
      ∃ s o q, OV.newEq E D (W.within.view S) (W.within.th S.th) v w = .ok (s, o, q)) := held_object_total W (h.held hf) hr hm

/-- C78 with difference logic (partial): at root level, if there is a solution, `new_var(items)` on a theory of object variables never fails, nor does `new_eq` on variables that have one value in it. Missing: the calls that tell a theory of difference logic a literal in an unsafe situation (`Mix.C66_witness`). -/
theorem C78_object_calls_partial (h : f.Sess S U d) (hr : S.root = true) {α : Asg} {x : C.Val} (hm : f.Model S U α x) :
    (∀ (items : List A) enf, items ≠ [] → ∃ s o n, OV.newVar E 0 (W.within.view S) (W.within.th S.th) items enf = .ok (s, o, n)) ∧
    (∀ v w a b, v < (W.within.th S.th).doms.length → w < (W.within.th S.th).doms.length → (W.val x : Nat → List A) v = [a] → (W.val x : Nat → List A) w = [b] →
      ∃ s o q, OV.newEq E D (W.within.view S) (W.within.th S.th) v w = .ok (s, o, q)) := held_object_total W (Duty.held h) hr hm

end object

/-! ### C78: the core never fails -/

/-- C78: a legal call of the core never fails, whatever the theories of linear arithmetic and object variables attached to it. -/
theorem C78_total (hf : f.Plain) (h : Comp.Session E C S U d) {op : Sat.Op} (hl : S.Legal op) (hm : LRA.MayCall op d) : ∃ S' out, S.step E C.ops op = .ok (S', out) := by
  obtain ⟨S', out, k⟩ := ((h.held hf).total (op := op) hl hm).resolve_left (fun ⟨_, g, i, e, he⟩ => hf.clean g i e he)
  rw [show f.duty.sops = C.ops from hf.safe] at k
  exact ⟨S', out, k⟩

/-- C78 with difference logic (partial): a legal call never fails. Missing: the calls that tell a theory of difference logic a literal in an unsafe situation (`Mix.C71_witness`). -/
theorem C78_total_partial (h : f.Sess S U d) {op : Sat.Op} (hl : S.Legal op) (hm : LRA.MayCall op d) (ha : S.step E f.safe op ≠ .error .excluded) : ∃ S' out, S.step E C.ops op = .ok (S', out) := by
  obtain ⟨S', out, k⟩ := ((Duty.held h).total (op := op) hl hm).resolve_left (fun k => ha k.1)
  exact ⟨S', out, (Duty.safe_eq ha).symm.trans k⟩

/-! ### C79: the decision -/

/-- C79: with any number of theories of linear arithmetic and object variables on one core, the client that decides until all variables are assigned always gets an answer; `true`: all variables are assigned and the values reported by the theories are
a solution of the whole network; `false`: there is no solution. -/
theorem C79_decides (hf : f.Plain) (h : Comp.Session E C S U d) (hd : S.dead = false) {pick : Sat T → Option Lit} (hh : Sat.Heuristic pick) {k : Nat} (hk : (S.nvars + 2) ^ (S.dl + S.nvars + 1) ≤ k) :
    ∃ S' b, Sat.solve E C.ops pick k S = .ok (S', b) ∧
      (b = true → (∀ v, v < S.nvars → S'.assigns v ≠ none) ∧ ∃ δ0 : ℚ, 0 < δ0 ∧ ∀ δ, 0 < δ → δ ≤ δ0 →
        (∃ x, C.Rep S' δ x) ∧ ∀ x, C.Rep S' δ x → f.Model S U (fun v => S'.assigns v = some true) x) ∧
      (b = false → ¬ ∃ α x, f.Model S U α x) := by
  obtain ⟨S', b, h1, h2, h3⟩ := (h.held hf).decides hd hh hk (.inl hf.clean)
  refine ⟨S', b, h1, fun hb => ?_, fun hb ⟨α, x, hm⟩ => h3 hb ⟨α, x, model_iff.mpr hm⟩⟩
  obtain ⟨k1, δ0, k2, k3⟩ := h2 hb
  exact ⟨k1, δ0, k2, fun δ e1 e2 => ⟨(k3 δ e1 e2).1, fun x hx => model_iff.mp ((k3 δ e1 e2).2 x hx)⟩⟩

/-- C79 with difference logic (partial). Missing: the runs that tell a theory of difference logic a literal in an unsafe situation (`Mix.C69_witness`). -/
theorem C79_decides_partial (h : f.Sess S U d) (hd : S.dead = false) {pick : Sat T → Option Lit} (hh : Sat.Heuristic pick) {k : Nat} (hk : (S.nvars + 2) ^ (S.dl + S.nvars + 1) ≤ k)
    (ha : Sat.solve E f.safe pick k S ≠ .error .excluded) :
    ∃ S' b, Sat.solve E C.ops pick k S = .ok (S', b) ∧
      (b = true → (∀ v, v < S.nvars → S'.assigns v ≠ none) ∧ ∃ δ0 : ℚ, 0 < δ0 ∧ ∀ δ, 0 < δ → δ ≤ δ0 →
        (∃ x, C.Rep S' δ x) ∧ ∀ x, C.Rep S' δ x → f.Model S U (fun v => S'.assigns v = some true) x) ∧
      (b = false → ¬ ∃ α x, f.Model S U α x) := by
  obtain ⟨S', b, h1, h2, h3⟩ := (Duty.held h).decides hd hh hk (.inr ha)
  refine ⟨S', b, h1, fun hb => ?_, fun hb ⟨α, x, hm⟩ => h3 hb ⟨α, x, model_iff.mpr hm⟩⟩
  obtain ⟨k1, δ0, k2, k3⟩ := h2 hb
  exact ⟨k1, δ0, k2, fun δ e1 e2 => ⟨(k3 δ e1 e2).1, fun x hx => model_iff.mp ((k3 δ e1 e2).2 x hx)⟩⟩

end Family
end Semitone
