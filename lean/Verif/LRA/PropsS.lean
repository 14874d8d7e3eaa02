import Verif.LRA.Listen
import Verif.LRA.PropsB
import Verif.LRA.Demo
import Verif.Sat.PropsS

/-!
# C70 (linear arithmetic): asking again for the same relation gives the same literal
-/
namespace Semitone
namespace LRA
open Lin
variable {E : Env} {L : LEnv} {s s1 s2 : Sat LRA} {U : List Fact} {t t' t'' : LRA}

/-- What the constructors leave alone. -/
structure Ext (t t' : LRA) : Prop where
  n : t.n ≤ t'.n
  row : ∀ v, v < t.n → t'.row v = t.row v
  lo : ∀ v, v < t.n → t'.lo v = t.lo v
  hi : ∀ v, v < t.n → t'.hi v = t.hi v
  exprs : ∀ l x, (∀ w ∈ keys l.vars, w < t.n) → t.exprs.lookup l = some x → t'.exprs.lookup l = some x
  sas : ∀ k q, t.sas.lookup k = some q → t'.sas.lookup k = some q

theorem Ext.refl (t : LRA) : Ext t t := ⟨Nat.le_refl _, fun _ _ => rfl, fun _ _ => rfl, fun _ _ => rfl, fun _ _ _ h => h, fun _ _ h => h⟩

theorem Ext.trans (h : Ext t t') (h' : Ext t' t'') : Ext t t'' :=
  ⟨h.n.trans h'.n, fun v hv => (h'.row v (hv.trans_le h.n)).trans (h.row v hv), fun v hv => (h'.lo v (hv.trans_le h.n)).trans (h.lo v hv),
    fun v hv => (h'.hi v (hv.trans_le h.n)).trans (h.hi v hv), fun l x hl hx => h'.exprs l x (fun w hw => (hl w hw).trans_le h.n) (h.exprs l x hl hx), fun k q hk => h'.sas k q (h.sas k q hk)⟩

theorem keys_ofVar (v : Nat) (c : ℚ) : keys (Lin.ofVar v c).vars = [v] := rfl

theorem lookup_skip {l m : Lin} {x y : Nat} {es : List (Lin × Nat)} (h : l ≠ m) (he : es.lookup l = some x) : ((m, y) :: es).lookup l = some x := by
  rw [List.lookup_cons, show (l == m) = false by simpa using h]; exact he

theorem newVar_ext (t : LRA) : Ext t t.newVar.1 := by
  refine ⟨Nat.le_succ _, fun v hv => rfl, fun v hv => upd_ne _ _ (Nat.ne_of_lt hv), fun v hv => upd_ne _ _ (Nat.ne_of_lt hv), fun l x hl hx => ?_, fun _ _ h => h⟩
  refine lookup_skip (fun e => ?_) hx
  have := hl t.n (by rw [e, keys_ofVar]; simp)
  exact absurd this (Nat.lt_irrefl _)

theorem newVarL_ext {root : Bool} {l : Lin} {x : Nat} {A Fs} (hg : Good t A Fs) (h : t.newVarL root l = .ok (t', x)) : Ext t t' ∧ t'.exprs.lookup l = some x := by
  rcases newVarL_cases hg h with ⟨rfl, h2⟩ | ⟨h1, h2, h3, h4, rfl, rfl⟩
  · exact ⟨.refl _, h2⟩
  · refine ⟨⟨Nat.le_succ _, fun v hv => upd_ne _ _ (Nat.ne_of_lt hv), fun v hv => upd_ne _ _ (Nat.ne_of_lt hv), fun v hv => upd_ne _ _ (Nat.ne_of_lt hv), fun m x hm hx => ?_, fun _ _ h => h⟩, ?_⟩
    · refine lookup_skip (fun e => ?_) (lookup_skip (fun e => ?_) hx)
      · rw [e, h2] at hx; cases hx
      · have := hm t.n (by rw [e, keys_ofVar]; simp)
        exact absurd this (Nat.lt_irrefl _)
    · simp [defVar]

theorem addAsrt_ext (a : Asrt) (h : t.sas.lookup (a.le, a.x, a.v) = none) : Ext t (t.addAsrt a) := by
  refine ⟨Nat.le_refl _, fun _ _ => rfl, fun _ _ => rfl, fun _ _ => rfl, fun _ _ _ h => h, fun k q hk => ?_⟩
  show List.lookup k (((a.le, a.x, a.v), ⟨a.b, true⟩) :: t.sas) = some q
  rw [List.lookup_cons]
  by_cases e : k = (a.le, a.x, a.v)
  · rw [e, h] at hk; cases hk
  · rw [show (k == (a.le, a.x, a.v)) = false by simpa using e]; exact hk

/-- What a relational constructor leaves behind. -/
theorem newRel_ext {R : Rel4} {l r : Lin} {p : Lit} (hi : SInv L anyAsg s U) (h : newRel R s l r = .ok (s1, p)) :
    Ext s.th s1.th ∧ (∀ w ∈ keys (s.th.diffExpr l r).vars, w < s.th.n) ∧
    (R.test (s.th.lbL ⟨(s.th.diffExpr l r).vars, 0⟩) (s.th.ubL ⟨(s.th.diffExpr l r).vars, 0⟩) (R.bound (s.th.diffExpr l r).kt) = some true ∧ p = TRUE_lit ∨
     R.test (s.th.lbL ⟨(s.th.diffExpr l r).vars, 0⟩) (s.th.ubL ⟨(s.th.diffExpr l r).vars, 0⟩) (R.bound (s.th.diffExpr l r).kt) = some false ∧ p = FALSE_lit ∨
     R.test (s.th.lbL ⟨(s.th.diffExpr l r).vars, 0⟩) (s.th.ubL ⟨(s.th.diffExpr l r).vars, 0⟩) (R.bound (s.th.diffExpr l r).kt) = none ∧ (s.th.diffExpr l r).vars ≠ [] ∧
     ∃ x, s1.th.exprs.lookup ⟨(s.th.diffExpr l r).vars, 0⟩ = some x ∧ x < s1.th.n ∧
      (R.test (s1.th.lo x) (s1.th.hi x) (R.bound (s.th.diffExpr l r).kt) = some true ∧ p = TRUE_lit ∨
       R.test (s1.th.lo x) (s1.th.hi x) (R.bound (s.th.diffExpr l r).kt) = some false ∧ p = FALSE_lit ∨
       R.test (s1.th.lo x) (s1.th.hi x) (R.bound (s.th.diffExpr l r).kt) = none ∧ s1.th.sas.lookup (R.le, x, R.bound (s.th.diffExpr l r).kt) = some p)) := by
  obtain ⟨Fs, hg⟩ := hi.ti.good
  unfold newRel at h
  simp only at h
  generalize s.th.diffExpr l r = e at h ⊢
  split at h
  · cases h
  · next ha =>
    have hk : ∀ w ∈ keys e.vars, w < s.th.n := by
      simp only [Bool.not_eq_false, List.all_eq_true, decide_eq_true_eq] at ha
      intro w hw
      obtain ⟨y, hy, rfl⟩ := List.mem_map.mp hw
      exact ha y hy
    split at h
    · next h1 => injection h with h; injection h with e1 e2; subst e1; exact ⟨.refl _, hk, .inl ⟨h1, e2.symm⟩⟩
    · next h1 => injection h with h; injection h with e1 e2; subst e1; exact ⟨.refl _, hk, .inr (.inl ⟨h1, e2.symm⟩)⟩
    · next h1 =>
      split at h
      · cases h
      · next t x hv =>
        obtain ⟨hx, hlk⟩ := newVarL_ext hg hv
        have hne : e.vars ≠ [] := by
          intro e0; unfold newVarL at hv; rw [if_pos e0] at hv; cases hv
        have hxn : x < t.n := by
          rcases newVarL_cases hg hv with ⟨h1, h2⟩ | ⟨-, -, -, -, h1, h2⟩
          · rw [h1]; exact (hi.ti.exp.ex _ _ (lookup_mem' h2)).1
          · rw [h1, h2]; exact Nat.lt_succ_self _
        split at h
        · next h2 => injection h with h; injection h with e1 e2; subst e1; exact ⟨hx, hk, .inr (.inr ⟨h1, hne, x, hlk, hxn, .inl ⟨h2, e2.symm⟩⟩)⟩
        · next h2 => injection h with h; injection h with e1 e2; subst e1; exact ⟨hx, hk, .inr (.inr ⟨h1, hne, x, hlk, hxn, .inr (.inl ⟨h2, e2.symm⟩)⟩)⟩
        · next h2 =>
          split at h
          · next q hq => injection h with h; injection h with e1 e2; subst e1 e2; exact ⟨hx, hk, .inr (.inr ⟨h1, hne, x, hlk, hxn, .inr (.inr ⟨h2, hq⟩)⟩)⟩
          · next hq =>
            injection h with h; injection h with e1 e2; subst e1 e2
            refine ⟨hx.trans (addAsrt_ext _ hq), hk, .inr (.inr ⟨h1, hne, x, hlk, hxn, .inr (.inr ⟨h2, ?_⟩)⟩)⟩
            simp [addAsrt]

theorem substBasic_ext (h : ∀ v, v < t.n → t'.row v = t.row v) : ∀ (vs : List Nat) (e : Lin), (∀ v ∈ vs, v < t.n) → t'.substBasic vs e = t.substBasic vs e
  | [], _, _ => rfl
  | v :: vs, e, hv => by
    have hr := h v (hv v (by simp))
    have hv' : ∀ v ∈ vs, v < t.n := fun w hw => hv w (by simp [hw])
    simp only [substBasic, hr]
    cases t.row v with
    | none => exact substBasic_ext h vs _ hv'
    | some l => exact substBasic_ext h vs _ hv'

theorem foldl_ext {α β : Type} {f g : β → α → β} : ∀ (l : List α) (b : β), (∀ b, ∀ a ∈ l, f b a = g b a) → l.foldl f b = l.foldl g b
  | [], _, _ => rfl
  | a :: l, b, h => by
    simp only [List.foldl_cons]
    rw [h b a (by simp)]
    exact foldl_ext l _ (fun b a' ha => h b a' (by simp [ha]))

theorem Ext.lbL (h : Ext t t') {l : Lin} (hl : ∀ w ∈ keys l.vars, w < t.n) : t'.lbL l = t.lbL l :=
  foldl_ext _ _ (fun b x hx => by
    have hw := hl x.1 (List.mem_map.mpr ⟨x, hx, rfl⟩)
    have : t'.termLo x = t.termLo x := by unfold termLo; rw [h.lo _ hw, h.hi _ hw]
    rw [this])

theorem Ext.ubL (h : Ext t t') {l : Lin} (hl : ∀ w ∈ keys l.vars, w < t.n) : t'.ubL l = t.ubL l :=
  foldl_ext _ _ (fun b x hx => by
    have hw := hl x.1 (List.mem_map.mpr ⟨x, hx, rfl⟩)
    have : t'.termHi x = t.termHi x := by unfold termHi; rw [h.lo _ hw, h.hi _ hw]
    rw [this])

theorem Ext.diffExpr (h : Ext t t') {l r : Lin} (hvl : ∀ w ∈ keys l.vars, w < t.n) (hvr : ∀ w ∈ keys r.vars, w < t.n) : t'.diffExpr l r = t.diffExpr l r := by
  refine substBasic_ext h.row _ _ (fun w hw => ?_)
  have hw : w ∈ keys (l.sub r).vars := hw
  have : (l.sub r).vars = addTerms l.vars (r.vars.map (fun t => (t.1, -t.2))) := subTerms_eq _ _
  rw [this] at hw
  rcases addTerms_keys _ _ w hw with h | h
  · exact hvl w h
  · rw [keys_map_mul] at h
    exact hvr w h

/-- The calls that only build: the constructors of the core and of the theory, and the registrations of listeners. -/
def Constructor : Sat.Op → Prop
  | .newVar | .newClause _ | .newEq _ _ | .newConj _ | .newDisj _ | .newAMO _ | .newEXO _ | .bind _ _ | .listen _ _ => True
  | _ => False

/-- Any number of such calls. -/
inductive Builds (E : Env) (L : LEnv) (s : Sat LRA) : Sat LRA → Prop
  | nil : Builds E L s s
  | core {s1 s2 : Sat LRA} {op out} : Builds E L s s1 → Constructor op → s1.step E (ops L) op = .ok (s2, out) → Builds E L s s2
  | newVar {s1 : Sat LRA} : Builds E L s s1 → Builds E L s { s1 with th := s1.th.newVar.1 }
  | newVarL {s1 : Sat LRA} {l t y} : Builds E L s s1 → l.Canon → (∀ w ∈ keys l.vars, s1.th.row w = none) → l.kt = 0 → s1.th.newVarL s1.root l = .ok (t, y) →
      Builds E L s { s1 with th := t }
  | newRel {s1 s2 : Sat LRA} {R l r p} : Builds E L s s1 → l.Canon → r.Canon → (∀ w ∈ keys l.vars, w < s1.th.n) → (∀ w ∈ keys r.vars, w < s1.th.n) →
      newRel R s1 l r = .ok (s2, p) → Builds E L s s2
  | newEq {s1 s2 : Sat LRA} {l r p} : Builds E L s s1 → l.Canon → r.Canon → (∀ w ∈ keys l.vars, w < s1.th.n) → (∀ w ∈ keys r.vars, w < s1.th.n) →
      newEqL E s1 l r = .ok (s2, p) → Builds E L s s2
  | listen {s1 : Sat LRA} {v l t} : Builds E L s s1 → s1.th.listen v l = .ok t → Builds E L s { s1 with th := t }

theorem step_th {T : Type} {O : TheoryOps T} {C : Contract O} {s s' : Sat T} {op : Sat.Op} {out} (h : s.Inv C) (hc : Constructor op) (hs : s.step E O op = .ok (s', out)) : s'.th = s.th := by
  cases op with
  | newVar => injection hs with hs; injection hs with e1 e2; exact e1 ▸ (Sat.newVar_defd h).rstep.th
  | newClause ls => obtain ⟨⟨u, b⟩, h1, h2⟩ := Sat.map_ok hs; injection h2 with e1 e2; exact e1 ▸ (Sat.newClause_spec h h1).rstep.th
  | newEq a b => obtain ⟨⟨u, r⟩, h1, h2⟩ := Sat.map_ok hs; injection h2 with e1 e2; exact e1 ▸ (Sat.newEq_defd h h1).rstep.th
  | newConj ls => obtain ⟨⟨u, r⟩, h1, h2⟩ := Sat.map_ok hs; injection h2 with e1 e2; exact e1 ▸ (Sat.newConj_defd h h1).rstep.th
  | newDisj ls => obtain ⟨⟨u, r⟩, h1, h2⟩ := Sat.map_ok hs; injection h2 with e1 e2; exact e1 ▸ (Sat.newDisj_defd h h1).rstep.th
  | newAMO ls => obtain ⟨⟨u, r⟩, h1, h2⟩ := Sat.map_ok hs; injection h2 with e1 e2; exact e1 ▸ (Sat.newAMO_defd h h1).rstep.th
  | newEXO ls => obtain ⟨⟨u, r⟩, h1, h2⟩ := Sat.map_ok hs; injection h2 with e1 e2; exact e1 ▸ (Sat.newEXO_defd h h1).rstep.th
  | bind v i => injection hs with hs; injection hs with e1 e2; rw [← e1]; rfl
  | listen v i => injection hs with hs; injection hs with e1 e2; rw [← e1]; unfold Sat.listen; split <;> rfl
  | assume _ | pop | propagate | next | check _ | simplify => cases hc

theorem Builds.ext (h : AReach E L s U) (hb : Builds E L s s2) : AReach E L s2 U ∧ Ext s.th s2.th := by
  induction hb with
  | nil => exact ⟨h, .refl _⟩
  | core _ hc hs ih =>
    refine ⟨ih.1.step (fun e => by subst e; cases hc) hs, ?_⟩
    rw [step_th ih.1.rinv.inv hc hs]; exact ih.2
  | newVar _ ih => exact ⟨ih.1.newVar, ih.2.trans (newVar_ext _)⟩
  | newVarL _ a b c d ih =>
    obtain ⟨Fs, hg⟩ := ih.1.sinv.ti.good
    exact ⟨ih.1.newVarL a b c d, ih.2.trans (newVarL_ext hg d).1⟩
  | newRel _ a b c d e ih => exact ⟨ih.1.newRel a b c d e, ih.2.trans (newRel_ext ih.1.sinv e).1⟩
  | newEq _ a b c d e ih =>
    refine ⟨ih.1.newEq a b c d e, ih.2.trans ?_⟩
    rename_i u u' l r p hb
    unfold newEqL at e
    split at e
    · cases e
    · next u1 p1 h1 =>
      have r1 := ih.1.newRel a b c d h1
      obtain ⟨x1, -⟩ := newRel_ext ih.1.sinv h1
      split at e
      · cases e
      · next u2 p2 h2 =>
        have r2 := r1.newRel a b (fun w hw => (c w hw).trans_le x1.n) (fun w hw => (d w hw).trans_le x1.n) h2
        obtain ⟨x2, -⟩ := newRel_ext r1.sinv h2
        have := (Sat.newConj_defd r2.rinv.inv e).rstep.th
        rw [this]
        exact x1.trans x2
  | listen _ a ih =>
    obtain ⟨f, e⟩ := listen_eq a
    subst e
    exact ⟨ih.1.listen a, ih.2.trans ⟨Nat.le_refl _, fun _ _ => rfl, fun _ _ => rfl, fun _ _ => rfl, fun _ _ _ h => h, fun _ _ h => h⟩⟩

/-- C70: `new_lt`, `new_leq`, `new_geq` and `new_gt` asked again for the same expressions after any number of constructors of the core and of the theory return the same literal, and change nothing. -/
theorem C70_relations {R : Rel4} {l r : Lin} {p : Lit} (h : AReach E L s U) (hl : l.Canon) (hr : r.Canon) (hvl : ∀ w ∈ keys l.vars, w < s.th.n) (hvr : ∀ w ∈ keys r.vars, w < s.th.n)
    (hn : newRel R s l r = .ok (s1, p)) (hb : Builds E L s1 s2) : newRel R s2 l r = .ok (s2, p) := by
  obtain ⟨x1, hk, hc⟩ := newRel_ext h.sinv hn
  obtain ⟨-, x2⟩ := hb.ext (h.newRel hl hr hvl hvr hn)
  have x := x1.trans x2
  have hk2 : ∀ w ∈ keys (s.th.diffExpr l r).vars, w < s2.th.n := fun w hw => (hk w hw).trans_le x.n
  unfold newRel
  simp only
  rw [x.diffExpr hvl hvr, x.lbL (l := ⟨(s.th.diffExpr l r).vars, 0⟩) hk, x.ubL (l := ⟨(s.th.diffExpr l r).vars, 0⟩) hk]
  rw [if_neg (by
    simp only [Bool.not_eq_false, List.all_eq_true, decide_eq_true_eq]
    exact fun y hy => hk2 y.1 (List.mem_map.mpr ⟨y, hy, rfl⟩))]
  rcases hc with ⟨h1, rfl⟩ | ⟨h1, rfl⟩ | ⟨h1, hne, y, hy, hyn, hc⟩
  · rw [h1]
  · rw [h1]
  · rw [h1]
    have hv : s2.th.newVarL s2.root ⟨(s.th.diffExpr l r).vars, 0⟩ = .ok (s2.th, y) := by
      unfold newVarL
      rw [if_neg hne, x2.exprs (⟨(s.th.diffExpr l r).vars, 0⟩ : Lin) _ (fun w hw => (hk w hw).trans_le x1.n) hy]
    simp only [hv]
    rw [x2.lo _ hyn, x2.hi _ hyn]
    rcases hc with ⟨h2, rfl⟩ | ⟨h2, rfl⟩ | ⟨h2, hq⟩
    · rw [h2]
    · rw [h2]
    · rw [h2]; simp only [x2.sas _ _ hq]

/-- C70: the same when the second request is another way of writing the same difference (terms moved to the other side, constants redistributed). -/
theorem C70_relations_rewritten {R : Rel4} {l r l' r' : Lin} {p : Lit} (h : AReach E L s U) (hl : l.Canon) (hr : r.Canon) (hl' : l'.Canon) (hr' : r'.Canon)
    (hvl : ∀ w ∈ keys l.vars, w < s.th.n) (hvr : ∀ w ∈ keys r.vars, w < s.th.n) (hd : ∀ x : Nat → ℚ, l'.eval 1 x - r'.eval 1 x = l.eval 1 x - r.eval 1 x)
    (hn : newRel R s l r = .ok (s1, p)) (hb : Builds E L s1 s2) : newRel R s2 l' r' = .ok (s2, p) := by
  have e : l'.sub r' = l.sub r := (C26_unique (C26_canonical hl' hr' 0).2.2.1 (C26_canonical hl hr 0).2.2.1).2 (fun x => by rw [eval_sub, eval_sub]; exact hd x)
  have e2 : newRel R s2 l' r' = newRel R s2 l r := by unfold newRel diffExpr; rw [e]
  rw [e2]
  exact C70_relations h hl hr hvl hvr hn hb

/-- Non-vacuity: `x - y <= 3`, other relations, a conjunction, then `x - y <= 3` and `x <= y + 3` again. -/
example : (demo [.var, .var, .var, .rel .leq ⟨[(0, 1), (1, -1)], 0⟩ ⟨[], 3⟩, .rel .gt ⟨[(0, 1), (2, 1)], 0⟩ ⟨[], 1⟩, .op (.newConj [⟨1, true⟩, ⟨2, true⟩]),
      .rel .leq ⟨[(0, 1), (1, -1)], 0⟩ ⟨[], 3⟩, .rel .leq ⟨[(0, 1)], 0⟩ ⟨[(1, 1)], 3⟩]).map (fun r => (r.2.drop 3, r.1.1.nvars)) =
    some ([.lit ⟨1, true⟩, .lit ⟨2, true⟩, .lit ⟨3, true⟩, .lit ⟨1, true⟩, .lit ⟨1, true⟩], 4) := by decide +kernel

end LRA
end Semitone
