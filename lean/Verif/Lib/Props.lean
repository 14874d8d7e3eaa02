import Verif.Lib.Inst

/-!
# Any number of theories, in any order, on one core, every session: C75, C76

`C` is any family of theories built from linear arithmetic, difference logic and object variables with `Comp.prod` (or from any other component); `W : Within (LRA.comp E L) C` picks one of them, `W.view S` is what it sees of
the core, `W.th S.th` its state, `W.put S s` the state after it has acted.
-/
namespace Semitone
namespace Comp
open Lin
variable {T T' : Type} {E : Env} {L : LEnv}

theorem Within.setDat_dat {T : Type} {C : Comp T} : {T' : Type} → {C' : Comp T'} → (w : Within C C') → (U : C'.Dat) → w.setDat U (w.dat U) = U
  | _, _, .here, _ => rfl
  | _, _, .left w, U => Prod.ext (w.setDat_dat U.1) rfl
  | _, _, .right w, U => Prod.ext rfl (w.setDat_dat U.2)

/-- What a component sees of the core is what there is. -/
structure Within.Sees {T T' : Type} {C : Comp T} {C' : Comp T'} (W : Within C C') (S : Sat T') : Prop where
  th : (W.view S).th = W.th S.th
  assigns : (W.view S).assigns = S.assigns
  posted : (W.view S).posted = S.posted
  nvars : (W.view S).nvars = S.nvars
  root : (W.view S).root = S.root
  value : (W.view S).value = S.value
  dead : (W.view S).dead = S.dead
  propQ : (W.view S).propQ = S.propQ
  dl : (W.view S).dl = S.dl

theorem Within.sees {C : Comp T} {C' : Comp T'} (W : Within C C') (S : Sat T') : W.Sees S := by
  obtain ⟨b, e⟩ := W.view_eq S
  constructor <;> rw [e] <;> rfl

variable {C : Comp T} {S S' V V' : Sat T} {U Y : C.Dat}

/-! ### C75, the core -/

/-- C75: in every session, let a call of the core (`new_clause`, `new_conj`, `new_disj`, `new_eq`, `new_at_most_one`, `new_exct_one`) return `out`. After any further calls of the core and of the theories, if a call that propagates
returns true and every variable is assigned, the values of the literals are as the call promised. -/
theorem C75_core (h : Play E C S U) {op : Sat.Op} {out : Sat.Out} (hl : S.Legal op) (hop : DL.MayCall op) (hs : S.step E C.ops op = .ok (S', out)) (hu : Later E C S' U V Y) {op' : Sat.Op} (hl' : V.Legal op')
    (hop' : LRA.Propagates op') (hs' : V.step E C.ops op' = .ok (V', .bool true)) (hall : ∀ v, v < V'.nvars → V'.assigns v ≠ none) : S.Promise op out (fun v => V'.assigns v = some true) := by
  have ff := h.faith.resolve_left (by rw [hl.1]; simp)
  have alive : ¬ S'.dead = true := by rw [hu.alive hl'.1]; simp
  have m := (Sat.step_promise ff.calm ff.vow hl hs).resolve_left alive
  have f1 := ((step_onw ff hl hop hs).resolve_left alive).1
  exact m _ (hu.final .here f1 hl' hop' hs' hall).1

theorem Play.quiet (h : Play E C S U) {op : Sat.Op} (hl : S.Legal op) (hop : LRA.Propagates op) (hs : S.step E C.ops op = .ok (S', .bool true)) :
    Faith C U S' ∧ Onw C S S' ∧ S'.propQ = [] ∧ (C.firm U).Done S'.th := (h.faith.resolve_left (by rw [hl.1]; simp)).quiet hl hop hs

/-- C75: when a call that propagates returns true every posted clause is satisfied or has two unassigned literals. -/
theorem C75_clauses (h : Play E C S U) {op : Sat.Op} (hl : S.Legal op) (hop : LRA.Propagates op) (hs : S.step E C.ops op = .ok (S', .bool true)) :
    ∀ D ∈ S'.posted, (∃ l ∈ D, S'.value l = some true) ∨ ∃ x ∈ D, ∃ y ∈ D, x ≠ y ∧ S'.value x = none ∧ S'.value y = none := by
  obtain ⟨a, -, b, -⟩ := h.quiet hl hop hs
  exact a.calm.clauses b

/-! ### C75, what backs the literals decided -/

/-- C75: when a call that propagates returns true, what each theory of linear arithmetic reports backs its literals: the values are within the bounds reported, satisfy the definitions and, giving the infinitesimal any small
enough value, the imposed bounds and what every decided literal says. -/
theorem C75_arith_backed (W : Within (LRA.comp E L) C) (h : Play E C S U) {op : Sat.Op} (hl : S.Legal op) (hop : LRA.Propagates op) (hs : S.step E C.ops op = .ok (S', .bool true)) :
    (∀ v, (W.th S'.th).lo v ≤ (((W.th S'.th).vals v : IQ) : WithBot IQ) ∧ (((W.th S'.th).vals v : IQ) : WithTop IQ) ≤ (W.th S'.th).hi v) ∧
    (∀ d ∈ (W.th S'.th).defs, (W.th S'.th).vals d.1 = d.2.eval IQ.one (W.th S'.th).vals) ∧
    ∃ δ0 : ℚ, 0 < δ0 ∧ ∀ δ, 0 < δ → δ ≤ δ0 → LRA.Agrees (W.view S') (W.dat U) (LRA.withEps δ (W.th S'.th).vals) := by
  obtain ⟨a, -, b, c⟩ := h.quiet hl hop hs
  have hd : ∀ v, LRA.InB ((W.th S'.th).lo v) ((W.th S'.th).hi v) ((W.th S'.th).vals v) := W.done c
  have k := LRA.calm_backed (W.calm a.calm) ((W.sees S').propQ.trans b) (by rw [(W.sees S').th]; exact hd)
  rw [(W.sees S').th] at k
  exact ⟨hd, k⟩

/-- C75: when a call that propagates returns true, for each theory of difference logic there are positions that satisfy what every decided literal of that theory says, and the distances reported are exactly the bounds these
positions have. -/
theorem C75_diff_backed {R : Type} [AddCommGroup R] [LinearOrder R] [IsOrderedAddMonoid R] [Dom R] (W : Within (DL.comp (W := R) E) C) (h : Play E C S U) {op : Sat.Op} (hl : S.Legal op) (hop : LRA.Propagates op)
    (hs : S.step E C.ops op = .ok (S', .bool true)) :
    (∃ X, DL.Fits (W.view S') X) ∧
    ∀ i j, i < (W.th S'.th).nv → j < (W.th S'.th).nv →
      (∀ X, DL.Fits (W.view S') X → ((X j - X i : R) : WithTop R) ≤ ((W.th S'.th).distance i j).2) ∧
      (∀ a : R, ((W.th S'.th).distance i j).2 = (a : WithTop R) → ∃ X, DL.Fits (W.view S') X ∧ X j - X i = a) ∧
      (((W.th S'.th).distance i j).2 = ⊤ → ∀ M : R, ∃ X, DL.Fits (W.view S') X ∧ M < X j - X i) := by
  obtain ⟨a, -, b, -⟩ := h.quiet hl hop hs
  obtain ⟨p1, p2, -⟩ := DL.positions (W.calm a.calm) ((W.sees S').propQ.trans b)
  rw [(W.sees S').th] at p2
  exact ⟨p1, p2⟩

/-! ### C75, linear arithmetic -/

variable {C' : Comp T'}

/-- C75: let `new_lt`, `new_leq`, `new_geq`, `new_gt` of a theory of linear arithmetic return `p`, at root level. After any further calls, if a call that propagates returns true and every variable is assigned, `p` is true exactly
when the relation holds of the values the theory reports, whatever small value is given to the infinitesimal. -/
theorem C75_arith (W : Within (LRA.comp E L) C) (h : Play E C S U) (hd : S.dead = false) (hr : S.root = true) {R : LRA.Rel4} {l r : Lin} {s : Sat LRA} {p : Lit} (hlc : l.Canon) (hrc : r.Canon)
    (hlv : ∀ w ∈ keys l.vars, w < (W.th S.th).n) (hrv : ∀ w ∈ keys r.vars, w < (W.th S.th).n) (hn : LRA.newRel R (W.view S) l r = .ok (s, p)) (hu : Later E C (W.put S s) U V Y) {op : Sat.Op} (hl : V.Legal op)
    (hop : LRA.Propagates op) (hs : V.step E C.ops op = .ok (V', .bool true)) (hall : ∀ v, v < V'.nvars → V'.assigns v ≠ none) :
    ∃ δ0 : ℚ, 0 < δ0 ∧ ∀ δ, 0 < δ → δ ≤ δ0 →
      (Asg.sat (fun v => V'.assigns v = some true) p ↔ R.holds (l.eval 1 (LRA.withEps δ (W.th V'.th).vals)) (r.eval 1 (LRA.withEps δ (W.th V'.th).vals))) := by
  rw [← (W.sees S).th] at hlv hrv
  obtain ⟨δ0, h0, f⟩ := h.means W hd (u := W.dat U) (LRA.Act.newRel hlc hrc hlv hrv hn) (P := fun α (x : Nat → ℚ) => Asg.sat α p ↔ R.holds (l.eval 1 x) (r.eval 1 x))
    (fun ff => .inr (fun α x a b => (LRA.newRel_onw ⟨ff.calm, ff.vow⟩ hlc hrc hlv hrv hn).2.2 ((W.sees S).root.trans hr) α x ⟨a, b⟩)) (by rw [W.setDat_dat]; exact hu) hl hop hs hall
  exact ⟨δ0, h0, fun δ h1 h2 => (f δ h1 h2).2 _ (by show _ = LRA.withEps δ (W.view V').th.vals; rw [(W.sees V').th])⟩

/-- C75: the same of `new_eq`. -/
theorem C75_arith_eq (W : Within (LRA.comp E L) C) (h : Play E C S U) (hd : S.dead = false) {l r : Lin} {s : Sat LRA} {p : Lit} (hlc : l.Canon) (hrc : r.Canon)
    (hlv : ∀ w ∈ keys l.vars, w < (W.th S.th).n) (hrv : ∀ w ∈ keys r.vars, w < (W.th S.th).n) (hn : LRA.newEqL E (W.view S) l r = .ok (s, p)) (hu : Later E C (W.put S s) U V Y) {op : Sat.Op} (hl : V.Legal op)
    (hop : LRA.Propagates op) (hs : V.step E C.ops op = .ok (V', .bool true)) (hall : ∀ v, v < V'.nvars → V'.assigns v ≠ none) :
    ∃ δ0 : ℚ, 0 < δ0 ∧ ∀ δ, 0 < δ → δ ≤ δ0 →
      (Asg.sat (fun v => V'.assigns v = some true) p ↔ l.eval 1 (LRA.withEps δ (W.th V'.th).vals) = r.eval 1 (LRA.withEps δ (W.th V'.th).vals)) := by
  rw [← (W.sees S).th] at hlv hrv
  obtain ⟨δ0, h0, f⟩ := h.means W hd (u := W.dat U) (LRA.Act.newEq hlc hrc hlv hrv hn) (P := fun α (x : Nat → ℚ) => Asg.sat α p ↔ l.eval 1 x = r.eval 1 x)
    (fun ff => (LRA.newEqL_onw ⟨ff.calm, ff.vow⟩ hlc hrc hlv hrv hn).imp_right (fun k α x a b => k.2 α x ⟨a, b⟩)) (by rw [W.setDat_dat]; exact hu) hl hop hs hall
  exact ⟨δ0, h0, fun δ h1 h2 => (f δ h1 h2).2 _ (by show _ = LRA.withEps δ (W.view V').th.vals; rw [(W.sees V').th])⟩

/-- The turn of a theory. -/
theorem Play.acts {T : Type} {C : Comp T} {C' : Comp T'} {S V : Sat T'} {U Y : C'.Dat} (W : Within C C') (h : Play E C' S U) (hd : S.dead = false) {s : Sat T} {u : C.Dat} (hc : C.Call (W.view S) (W.dat U) s u)
    (hu : Later E C' (W.put S s) (W.setDat U u) V Y) (ha : V.dead = false) : Faith C (W.dat U) (W.view S) ∧ Faith C' (W.setDat U u) (W.put S s) ∧ Faith C' Y V ∧ Onw C' (W.put S s) V := by
  have ff := h.faith.resolve_left (by rw [hd]; simp)
  obtain ⟨b, e⟩ := W.view_eq S
  have alive := hu.alive ha
  have f0 : Faith C (W.dat U) (W.view S) := ⟨W.calm ff.calm, by rw [e]; exact ff.vow.view, W.inv ff.inv⟩
  have f1 := ((Turn.theory (E := E) hd (W.call hc)).onw ff).resolve_left (by rw [alive]; simp)
  exact ⟨f0, f1.1, (hu.onw f1.1).resolve_left (by rw [ha]; simp)⟩

/-- C75: let `new_var(l)` return `y`. After any further calls, whenever a call that propagates returns true, the value reported for `y` is that of `l`. -/
theorem C75_arith_var (W : Within (LRA.comp E L) C) (h : Play E C S U) (hd : S.dead = false) {l : Lin} {t : LRA} {y : Nat} (hlc : l.Canon) (hb : ∀ w ∈ keys l.vars, (W.th S.th).row w = none) (hk : l.kt = 0)
    (hn : (W.th S.th).newVarL S.root l = .ok (t, y)) (hu : Later E C (W.put S { W.view S with th := t }) U V Y) {op : Sat.Op} (hl : V.Legal op)
    (hop : LRA.Propagates op) (hs : V.step E C.ops op = .ok (V', .bool true)) : (W.th V'.th).vals y = l.eval IQ.one (W.th V'.th).vals := by
  rw [← (W.sees S).th] at hb hn
  rw [← (W.sees S).root] at hn
  obtain ⟨a, b, c, d⟩ := h.acts W hd (u := W.dat U) (LRA.Act.newVarL hlc hb hk hn) (by rw [W.setDat_dat]; exact hu) hl.1
  obtain ⟨c1, c2, c3, c4⟩ := c.quiet hl hop hs
  have df := (LRA.calm_backed (W.calm c1.calm) ((W.sees V').propQ.trans c3) (by rw [(W.sees V').th]; exact W.done c4)).1
  rw [(W.sees V').th] at df
  have kin : LRA.Kin t (W.th V'.th) := by
    have := W.ext (d.trans c2).ext
    obtain ⟨t', b', e', et⟩ := W.put_eq S { W.view S with th := t }
    rw [e'] at this
    have this : LRA.Kin (W.th t') (W.th V'.th) := this
    rw [et] at this
    exact this
  exact (LRA.newVarL_onw ⟨a.calm, a.vow⟩ hlc hb hk hn).2.2 _ (fun d hd => df d (kin.defs d hd))

/-! ### C75, difference logic -/

section
variable {R : Type} [AddCommGroup R] [LinearOrder R] [IsOrderedAddMonoid R] [Dom R]

/-- C75: let `new_distance(i, j, w)` of a theory of difference logic return `p`, at root level. After any further calls, if a call that propagates returns true and every variable is assigned, `p` is true exactly when
`X j - X i <= w`, whatever the positions `X` that satisfy the decided literals of that theory (there are some: `C75_diff_backed`). -/
theorem C75_distance (W : Within (DL.comp (W := R) E) C) (h : Play E C S U) (hd : S.dead = false) (hr : S.root = true) {i j : Nat} {w : R} {s : Sat (DL R)} {p : Lit} (hi : i < (W.th S.th).nv) (hj : j < (W.th S.th).nv)
    (hn : DL.newDistance (W.view S) i j w = .ok (s, p)) (hu : Later E C (W.put S s) U V Y) {op : Sat.Op} (hl : V.Legal op)
    (hop : LRA.Propagates op) (hs : V.step E C.ops op = .ok (V', .bool true)) (hall : ∀ v, v < V'.nvars → V'.assigns v ≠ none) {X : Nat → R} (hX : DL.Fits (W.view V') X) :
    Asg.sat (fun v => V'.assigns v = some true) p ↔ X j - X i ≤ w := by
  rw [← (W.sees S).th] at hi hj
  obtain ⟨δ0, h0, f⟩ := h.means W hd (u := W.dat U) (DL.Act.newDistance hi hj hn) (P := fun α (X : Nat → R) => Asg.sat α p ↔ X j - X i ≤ w)
    (fun ff => .inr (fun α x a b => DL.newDistance_means ⟨ff.calm, ff.vow⟩ ((W.sees S).root.trans hr) hi hj hn ⟨a, b⟩)) (by rw [W.setDat_dat]; exact hu) hl hop hs hall
  exact (f δ0 h0 (le_refl _)).2 X hX

/-- C75: let a relational constructor of a theory of difference logic return `p`, at root level (`new_gt` of a constant difference excluded: C33). After any further calls, if a call that propagates returns true and every variable
is assigned, `p` is true exactly when the relation holds, whatever the times `x` that satisfy the decided literals of that theory. -/
theorem C75_diff {Q : Type} (I : DL.Interp Q R) (W : Within (DL.comp (W := R) E) C) (h : Play E C S U) (hd : S.dead = false) (hr : S.root = true) {O : DL.Rel} {l r : Lin} {s : Sat (DL R)} {p : Lit} (hlc : l.Canon) (hrc : r.Canon)
    (hlv : ∀ t ∈ l.vars, t.1 < (W.th S.th).nv) (hrv : ∀ t ∈ r.vars, t.1 < (W.th S.th).nv) (hb : ¬ DL.GtBug R O l r) (hn : DL.newRel E O (W.view S) l r = .ok (s, p)) (hu : Later E C (W.put S s) U V Y) {op : Sat.Op} (hl : V.Legal op)
    (hop : LRA.Propagates op) (hs : V.step E C.ops op = .ok (V', .bool true)) (hall : ∀ v, v < V'.nvars → V'.assigns v ≠ none) {x : Nat → Q} (hx : I.q (x 0) = 0) (hX : DL.Fits (W.view V') (fun i => I.emb (x i))) :
    Asg.sat (fun v => V'.assigns v = some true) p ↔ O.holds (l.eval 1 (fun i => I.q (x i))) (r.eval 1 (fun i => I.q (x i))) := by
  rw [← (W.sees S).th] at hlv hrv
  have ff := h.faith.resolve_left (by rw [hd]; simp)
  obtain ⟨As, hg, -⟩ := (DL.calm_fi (W.calm ff.calm)).held
  obtain ⟨Q', sh, hQ⟩ := DL.newRel_shape I (E := E) hg.core.one hlc hrc hlv hrv hb hn
  obtain ⟨δ0, h0, f⟩ := h.means W hd (u := W.dat U) (DL.Act.newRel hlc hrc hlv hrv hn) (P := fun α (X : Nat → R) => Asg.sat α p ↔ Q' X)
    (fun ff => (sh.means ⟨ff.calm, ff.vow⟩ ((W.sees S).root.trans hr)).imp_right (fun k α X a b => k α X ⟨a, b⟩)) (by rw [W.setDat_dat]; exact hu) hl hop hs hall
  rw [← hQ x hx]
  exact (f δ0 h0 (le_refl _)).2 (fun i => I.emb (x i)) hX

end

/-! ### C75, object variables -/

section
variable {A : Type} [DecidableEq A] {D : OEnv A}

theorem value_seen (W : Within (OV.comp E D) C) (S : Sat T) : OV.value (W.view S) (W.view S).th = OV.value S (W.th S.th) := by
  funext v
  unfold OV.value
  rw [(W.sees S).th, (W.sees S).value]

/-- C75: let `new_var(items)` of a theory of object variables return `x`. After any further calls, if a call that propagates returns true and every variable is assigned, `value(x)` is exactly one of the items. -/
theorem C75_object (W : Within (OV.comp E D) C) (h : Play E C S U) (hd : S.dead = false) {items : List A} {s : Sat (OV A)} {o : OV A} {x : Nat} (hn : OV.newVar E 0 (W.view S) (W.th S.th) items true = .ok (s, o, x))
    (hu : Later E C (W.put S { s with th := o }) U V Y) {op : Sat.Op} (hl : V.Legal op) (hop : LRA.Propagates op) (hs : V.step E C.ops op = .ok (V', .bool true)) (hall : ∀ v, v < V'.nvars → V'.assigns v ≠ none) :
    ∃ a ∈ items, OV.value V' (W.th V'.th) x = [a] := by
  rw [← (W.sees S).th] at hn
  have hP : Faith (OV.comp E D) (W.dat U) (W.view S) → ({ s with th := o } : Sat (OV A)).dead = true ∨ ∀ (α : Asg) (y : Nat → List A), ({ s with th := o } : Sat (OV A)).Rt α → OV.Holds o α y → ∃ a ∈ items, y x = [a] := by
    intro ff
    refine (OV.newVar_good ff.calm ff.vow hn).imp_right (fun k α y a b => ?_)
    obtain ⟨g, hx, -, m, hm, -, hk, hk2, hit, -, hone⟩ := k
    have hdom : o.dom x = m := by rw [hx]; exact OV.dom_last m hm
    obtain ⟨v, hv, hs, hu⟩ := OV.one_of_exactlyOne hk hk2 (hone (.inl rfl) α ⟨a.fls, a.cls, a.lit⟩)
    obtain ⟨b1, b2⟩ := b x (show x < o.doms.length by rw [hm, hx]; simp)
    have b2 : ∀ c, c ∈ y x ↔ α.sat (o.allows x c) := b2
    refine ⟨v, (hit v).1 hv, ?_⟩
    have key : ∀ c, c ∈ y x ↔ c = v := fun c => by
      rw [b2, ← OV.sel_iff a.fls, hdom]
      exact ⟨hu c, fun e => e ▸ hs⟩
    match hy : y x, b1, key with
    | [], _, key => exact absurd ((key v).2 rfl) (by simp)
    | [c], _, key => rw [(key c).1 (by simp)]
    | c :: d :: r, b1, key =>
      have e1 := (key c).1 (by simp)
      have e2 := (key d).1 (by simp)
      rw [e1, e2] at b1
      simp at b1
  obtain ⟨δ0, h0, f⟩ := h.means W hd (u := W.dat U) (OV.Act.newVar hn) (P := fun _ (y : Nat → List A) => ∃ a ∈ items, y x = [a]) hP (by rw [W.setDat_dat]; exact hu) hl hop hs hall
  exact (f δ0 h0 (le_refl _)).2 _ (value_seen W V').symm

/-- C75: at the end of any session, `value(x)` lists, once each, exactly the values whose `allows` literal is true. -/
theorem C75_object_value (W : Within (OV.comp E D) C) (h : Play E C S U) {op : Sat.Op} (hl : S.Legal op) (hop : LRA.Propagates op) (hs : S.step E C.ops op = .ok (S', .bool true))
    (hall : ∀ v, v < S'.nvars → S'.assigns v ≠ none) {x : Nat} (hx : x < (W.th S'.th).doms.length) :
    (OV.value S' (W.th S'.th) x).Nodup ∧ ∀ a, a ∈ OV.value S' (W.th S'.th) x ↔ S'.value ((W.th S'.th).allows x a) = some true := by
  obtain ⟨a, -, b, -⟩ := h.quiet hl hop hs
  have k := OV.holds_final (W.calm a.calm) (by rw [(W.sees S').nvars, (W.sees S').assigns]; exact hall)
  rw [value_seen, (W.sees S').th, (W.sees S').assigns] at k
  obtain ⟨k1, k2⟩ := k x hx
  refine ⟨k1, fun c => ?_⟩
  rw [k2, Sat.value_true, Asg.sat]
  have hv : ((W.th S'.th).allows x c).var < S'.nvars := by
    unfold OV.allows
    cases e : ((W.th S'.th).dom x).lookup c with
    | none => exact a.calm.tw.nv
    | some l =>
      have hli : OV.FI (W.view S').th (W.view S').nvars (W.view S').bounds := (W.calm a.calm).li
      rw [(W.sees S').th, (W.sees S').nvars] at hli
      exact (hli.dom _ (OV.dom_mem hx)).2.2 _ (OV.lookup_some_mem e)
  obtain ⟨sg, hsg⟩ := Option.ne_none_iff_exists'.mp (hall _ hv)
  rw [hsg]
  cases sg <;> cases ((W.th S'.th).allows x c).sign <;> simp

/-- C75: let `new_var(lits, vals)`, on existing literals (of the core or of any theory) and distinct values, return `x`. After any further calls, if a call that propagates returns true and every variable is assigned, `value(x)`
lists exactly the values whose literal is true. -/
theorem C75_object_lits (W : Within (OV.comp E D) C) (h : Play E C S U) (hd : S.dead = false) {lits : List Lit} {vals : List A} {o : OV A} {x : Nat} (hv : ∀ l ∈ lits, l.var < S.nvars) (hnd : vals.Nodup)
    (hn : (W.th S.th).newVarLits lits vals = .ok (o, x))
    (hu : Later E C (W.put S { W.view S with th := o }) U V Y) {op : Sat.Op} (hl : V.Legal op) (hop : LRA.Propagates op) (hs : V.step E C.ops op = .ok (V', .bool true)) (hall : ∀ v, v < V'.nvars → V'.assigns v ≠ none) :
    (∀ a ∈ OV.value V' (W.th V'.th) x, a ∈ vals) ∧
    ∀ (k : Nat) (h1 : k < vals.length) (h2 : k < lits.length), vals[k] ∈ OV.value V' (W.th V'.th) x ↔ Asg.sat (fun v => V'.assigns v = some true) lits[k] := by
  rw [← (W.sees S).th] at hn
  rw [← (W.sees S).nvars] at hv
  have hP : ∀ (α : Asg) (y : Nat → List A), ({ W.view S with th := o } : Sat (OV A)).Rt α → OV.Holds o α y →
      (∀ a ∈ y x, a ∈ vals) ∧ ∀ (k : Nat) (h1 : k < vals.length) (h2 : k < lits.length), vals[k] ∈ y x ↔ Asg.sat α lits[k] := by
    intro α y a b
    obtain ⟨hx, he, m, hm, hok, hit, hzip⟩ := OV.newVarLits_made hv hn
    have hdom : o.dom x = m := by rw [hx]; exact OV.dom_last m hm
    obtain ⟨b1, b2⟩ := b x (show x < o.doms.length by rw [hm, hx]; simp)
    have b2 : ∀ c, c ∈ y x ↔ α.sat (o.allows x c) := b2
    have b3 : ∀ c, c ∈ y x ↔ OV.Sel α m c := fun c => by rw [b2, ← OV.sel_iff a.fls, hdom]
    have hlen : lits.length = vals.length := by
      unfold OV.newVarLits at hn
      split at hn
      · cases hn
      · next h0 => rw [not_or, not_not] at h0; exact h0.2
    refine ⟨fun c hc => ?_, fun k h1 h2 => ?_⟩
    · obtain ⟨l, hl, -⟩ := (b3 c).1 hc
      exact (hit c).1 (List.mem_map.mpr ⟨_, OV.lookup_some_mem hl, rfl⟩)
    · rw [b3]
      obtain ⟨p, hp, e⟩ := List.mem_map.mp ((hit vals[k]).mpr (List.getElem_mem h1))
      obtain ⟨k', h1', h2', e1, e2⟩ := OV.zip_index hlen (hzip p hp)
      have : k' = k := (List.Nodup.getElem_inj_iff hnd).mp (e1.trans e)
      subst this
      unfold OV.Sel
      rw [← e, OV.mem_lookup hok.key hp, ← e2]
      simp
  obtain ⟨δ0, h0, f⟩ := h.means W hd (u := W.dat U) (OV.Act.newVarLits hv hn)
    (P := fun α (y : Nat → List A) => (∀ a ∈ y x, a ∈ vals) ∧ ∀ (k : Nat) (h1 : k < vals.length) (h2 : k < lits.length), vals[k] ∈ y x ↔ Asg.sat α lits[k])
    (fun _ => .inr hP) (by rw [W.setDat_dat]; exact hu) hl hop hs hall
  exact (f δ0 h0 (le_refl _)).2 _ (value_seen W V').symm

/-- C75: let `new_eq(x, y)` of a theory of object variables return `q`. After any further calls, if a call that propagates returns true and every variable is assigned: when `q` is true the two variables have the same values, when it
is false they have no value in common; so, when each has exactly one value, `q` is true exactly when the values are the same. -/
theorem C75_object_eq (W : Within (OV.comp E D) C) (h : Play E C S U) (hd : S.dead = false) {x y : Nat} {s : Sat (OV A)} {o : OV A} {q : Lit} (hx : x < (W.th S.th).doms.length) (hy : y < (W.th S.th).doms.length)
    (hn : OV.newEq E D (W.view S) (W.th S.th) x y = .ok (s, o, q)) (hu : Later E C (W.put S { s with th := o }) U V Y) {op : Sat.Op} (hl : V.Legal op) (hop : LRA.Propagates op)
    (hs : V.step E C.ops op = .ok (V', .bool true)) (hall : ∀ v, v < V'.nvars → V'.assigns v ≠ none) :
    (Asg.sat (fun v => V'.assigns v = some true) q → ∀ a, a ∈ OV.value V' (W.th V'.th) x ↔ a ∈ OV.value V' (W.th V'.th) y) ∧
    (¬ Asg.sat (fun v => V'.assigns v = some true) q → ∀ a, ¬ (a ∈ OV.value V' (W.th V'.th) x ∧ a ∈ OV.value V' (W.th V'.th) y)) ∧
    ∀ a b, OV.value V' (W.th V'.th) x = [a] → OV.value V' (W.th V'.th) y = [b] → (Asg.sat (fun v => V'.assigns v = some true) q ↔ a = b) := by
  rw [← (W.sees S).th] at hn hx hy
  have key : (Asg.sat (fun v => V'.assigns v = some true) q → ∀ a, a ∈ OV.value V' (W.th V'.th) x ↔ a ∈ OV.value V' (W.th V'.th) y) ∧
      (¬ Asg.sat (fun v => V'.assigns v = some true) q → ∀ a, ¬ (a ∈ OV.value V' (W.th V'.th) x ∧ a ∈ OV.value V' (W.th V'.th) y)) := by
    have hP : Faith (OV.comp E D) (W.dat U) (W.view S) → ({ s with th := o } : Sat (OV A)).dead = true ∨ ∀ (α : Asg) (z : Nat → List A), ({ s with th := o } : Sat (OV A)).Rt α → OV.Holds o α z →
        (Asg.sat α q → ∀ a, a ∈ z x ↔ a ∈ z y) ∧ (¬ Asg.sat α q → ∀ a, ¬ (a ∈ z x ∧ a ∈ z y)) := by
      intro ff
      refine (OV.newEq_good ff.calm ff.vow ff.inv hn).imp_right (fun k α z a b => ?_)
      obtain ⟨g, hm, k, -, m⟩ := k
      have m := m hx hy α ⟨a.fls, a.cls, a.lit⟩
      have b1 : ∀ c, c ∈ z x ↔ α.sat (o.allows x c) := (b x (show x < o.doms.length by rw [hm]; exact hx)).2
      have b2 : ∀ c, c ∈ z y ↔ α.sat (o.allows y c) := (b y (show y < o.doms.length by rw [hm]; exact hy)).2
      unfold OV.EqMean at m
      simp only [OV.sel_iff a.fls] at m
      simp only [b1, b2, k.allows hx, k.allows hy]
      exact m
    obtain ⟨δ0, h0, f⟩ := h.means W hd (u := W.dat U) (OV.Act.newEq hn)
      (P := fun α (z : Nat → List A) => (Asg.sat α q → ∀ a, a ∈ z x ↔ a ∈ z y) ∧ (¬ Asg.sat α q → ∀ a, ¬ (a ∈ z x ∧ a ∈ z y)))
      hP (by rw [W.setDat_dat]; exact hu) hl hop hs hall
    exact (f δ0 h0 (le_refl _)).2 _ (value_seen W V').symm
  refine ⟨key.1, key.2, fun a b ha hb => ⟨fun hq => ?_, fun e => ?_⟩⟩
  · have := (key.1 hq a).1 (by rw [ha]; simp)
    rw [hb] at this
    simpa using this
  · subst e
    by_contra hq
    exact key.2 hq a ⟨by rw [ha]; simp, by rw [hb]; simp⟩

end

end Comp
end Semitone
