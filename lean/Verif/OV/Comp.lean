import Verif.OV.Firm

/-!
# Object variables: the calls of their clients, and what the values reported are
-/
namespace Semitone
namespace OV
variable {V : Type} [DecidableEq V]

/-- The calls of the client: `new_var(items)`, `new_var(lits, vals)`, `new_eq` (`ov_theory.h:23-27`), on variables that exist. -/
inductive Act (E : Env) (D : OEnv V) (s : Sat (OV V)) : Unit → Sat (OV V) → Unit → Prop
  | newVar {s' o x items enf} : OV.newVar E 0 s s.th items enf = .ok (s', o, x) → Act E D s () { s' with th := o } ()
  | newVarLits {o x lits vals} : (∀ l ∈ lits, Lit.var l < s.nvars) → s.th.newVarLits lits vals = .ok (o, x) → Act E D s () { s with th := o } ()
  | newEq {s' o x y q} : OV.newEq E D s s.th x y = .ok (s', o, q) → Act E D s () { s' with th := o } ()

variable {E : Env} {D : OEnv V} {s s' : Sat (OV V)} {o : OV V}

/-- The theory forgets nothing. -/
structure Kin (t t' : OV V) : Prop where
  doms : t.doms <+: t'.doms
  exprs : ∀ k q, t.exprs.lookup k = some q → t'.exprs.lookup k = some q

theorem Kin.refl (t : OV V) : Kin t t := ⟨List.prefix_rfl, fun _ _ h => h⟩

theorem Kin.trans {t1 t2 t3 : OV V} (h1 : Kin t1 t2) (h2 : Kin t2 t3) : Kin t1 t3 := ⟨h1.doms.trans h2.doms, fun k q h => h2.exprs k q (h1.exprs k q h)⟩

theorem Kin.dom {t t' : OV V} (h : Kin t t') {x : Nat} (hx : x < t.doms.length) : t'.dom x = t.dom x := by
  unfold OV.dom
  obtain ⟨r, hr⟩ := h.doms
  rw [← hr, List.getElem?_append_left hx]

theorem Kin.allows {t t' : OV V} (h : Kin t t') {x : Nat} (hx : x < t.doms.length) (a : V) : t'.allows x a = t.allows x a := by
  unfold OV.allows
  rw [h.dom hx]

/-- What the equality literals mean in the assignments the core can end with. -/
def Inv (s : Sat (OV V)) : Prop :=
  ∀ l r q, s.th.exprs.lookup (l, r) = some q → l < r ∧ r < s.th.doms.length ∧ inter (s.th.dom l) (s.th.dom r) ≠ [] ∧ ∀ α, s.Rt α → EqMean α (s.th.dom l) (s.th.dom r) q

theorem Inv.onw (h : Inv s) (ho : Sat.Onw s s') (e : s'.th = s.th) : Inv s' := fun l r q hq => by
  rw [e] at hq ⊢
  obtain ⟨a, b, c, d⟩ := h l r q hq
  exact ⟨a, b, c, fun α hα => d α (ho.rt hα)⟩

theorem Inv.snoc (h : Inv s) (ho : Sat.Onw s s') {m : List (V × Lit)} (hd : o.doms = s.th.doms ++ [m]) (he : o.exprs = s.th.exprs) : Inv { s' with th := o } := fun l r q hq => by
  have hq : o.exprs.lookup (l, r) = some q := hq
  rw [he] at hq
  obtain ⟨a, b, c, d⟩ := h l r q hq
  have k : Kin s.th o := ⟨⟨[m], hd.symm⟩, by rw [he]; exact fun _ _ h => h⟩
  show l < r ∧ r < o.doms.length ∧ inter (o.dom l) (o.dom r) ≠ [] ∧ ∀ α, ({ s' with th := o } : Sat (OV V)).Rt α → EqMean α (o.dom l) (o.dom r) q
  rw [k.dom b, k.dom (a.trans b)]
  exact ⟨a, b.trans_le k.doms.length_le, c, fun α hα => d α (ho.rt ⟨hα.fls, hα.cls, hα.lit⟩)⟩

theorem sel_iff {α : Asg} (hα : α 0 = false) (t : OV V) (x : Nat) (a : V) : Sel α (t.dom x) a ↔ α.sat (t.allows x a) := by
  unfold OV.allows Sel
  match hm : (t.dom x).lookup a with
  | none => simp [Asg.sat, FALSE_lit, hα]
  | some l => simp

/-- What `new_eq` returns. -/
theorem newEq_good {x y : Nat} {q : Lit} (h : s.Calm firm) (hv : s.Vow) (hi : Inv s) (hn : OV.newEq E D s s.th x y = .ok (s', o, q)) :
    s'.dead = true ∨ (Good s s' ∧ o.doms = s.th.doms ∧ Kin s.th o ∧ Inv { s' with th := o } ∧
      (x < s.th.doms.length → y < s.th.doms.length → ∀ α, s'.Rt α → EqMean α (s.th.dom x) (s.th.dom y) q)) := by
  rcases newEq_ord hn with ⟨e1, e2, e3, e4⟩ | ⟨l, r, hlr, hr, hor, ho⟩
  · subst e1 e2 e3 e4
    exact .inr ⟨.refl h hv, rfl, .refl _, hi, fun _ _ α hα => ⟨fun _ _ => Iff.rfl, fun h1 => absurd hα.sat_true h1⟩⟩
  · rcases newEqOrd_good h hv (hlr.trans hr) hr ho with hd | ⟨g, k⟩
    · exact .inl hd
    have fin : ∀ α, EqMean α (s.th.dom l) (s.th.dom r) q → EqMean α (s.th.dom x) (s.th.dom y) q := fun α m => by
      rcases hor with ⟨rfl, rfl⟩ | ⟨rfl, rfl⟩
      · exact m
      · exact ⟨fun h1 a => (m.1 h1 a).symm, fun h1 a => fun ⟨u, v⟩ => m.2 h1 a ⟨v, u⟩⟩
    rcases k with ⟨e, k⟩ | ⟨hq, e, m⟩
    · subst e
      refine .inr ⟨g, rfl, .refl _, hi.onw ⟨g.nv, g.post, g.lit⟩ rfl, fun _ _ α hα => fin α ?_⟩
      rcases k with k | ⟨k, rfl⟩
      · exact (hi l r q k).2.2.2 α (g.rt hα)
      · refine ⟨fun h1 => absurd h1 hα.not_false, fun _ a => ?_⟩
        rintro ⟨⟨u, hu, -⟩, ⟨v, hv, -⟩⟩
        have : (a, u) ∈ inter (s.th.dom l) (s.th.dom r) := mem_inter.mpr ⟨lookup_some_mem hu, v, hv⟩
        rw [k] at this
        cases this
    · have hne : inter (s.th.dom l) (s.th.dom r) ≠ [] := by
        intro hx
        unfold newEqOrd at ho
        rw [hq] at ho
        simp only [hx, if_true] at ho
        injection ho with ho; injection ho with e1 ho; injection ho with e2 e3
        rw [e] at e2
        have := congrArg (fun t : OV V => t.exprs.length) e2
        simp at this
      subst e
      refine .inr ⟨g, rfl, ⟨List.prefix_rfl, fun k q' hk => ?_⟩, fun l' r' q' hk => ?_, fun _ _ α hα => fin α (m α hα)⟩
      · by_cases ek : k = (l, r)
        · rw [ek, hq] at hk; cases hk
        · show List.lookup k (((l, r), q) :: s.th.exprs) = some q'
          rw [List.lookup_cons]
          have : (k == (l, r)) = false := by simpa using ek
          rw [this]; exact hk
      · have hk : List.lookup (l', r') (((l, r), q) :: s.th.exprs) = some q' := hk
        rw [List.lookup_cons] at hk
        by_cases ek : ((l', r') : Nat × Nat) = (l, r)
        · injection ek with e1 e2
          subst e1 e2
          simp at hk
          subst hk
          exact ⟨hlr, hr, hne, fun α hα => m α ⟨hα.fls, hα.cls, hα.lit⟩⟩
        · have : (((l', r') : Nat × Nat) == (l, r)) = false := by simpa using ek
          rw [this] at hk
          obtain ⟨a, b, c, d⟩ := hi l' r' q' hk
          exact ⟨a, b, c, fun α hα => d α (g.rt ⟨hα.fls, hα.cls, hα.lit⟩)⟩

/-- What the calls of the client keep. -/
theorem Act.kept {u u' : Unit} (h : s.Calm firm) (hv : s.Vow) (hi : Inv s) (hc : Act E D s u s' u') :
    s'.dead = true ∨ (s'.Calm firm ∧ s'.Vow ∧ Inv s' ∧ Sat.Onw s s' ∧ s.Mild s' ∧ (∀ v, v < s.nvars → s'.bounds v = s.bounds v) ∧ Kin s.th s'.th) := by
  cases hc with
  | @newVar s1 o x items enf hn =>
    rcases newVar_good h hv hn with hd | ⟨g, -, he, m, hm, h1, h2, -, -, h3, -⟩
    · exact .inl hd
    · obtain ⟨a, b, c, d, e⟩ := g.setTh (o := o) (fun m' hm' => by
        rw [hm] at hm'
        rcases List.mem_append.1 hm' with k | k
        · exact .inl k
        · rw [List.mem_singleton] at k; subst k; exact .inr ⟨h1, h2, h3⟩)
      exact .inr ⟨a, b, hi.snoc g.toOnw hm he, c, d, e, ⟨⟨[m], hm.symm⟩, by rw [he]; exact fun _ _ h => h⟩⟩
  | @newVarLits o x lits vals hl hn =>
    obtain ⟨-, he, m, hm, hok, -, -⟩ := newVarLits_made hl hn
    have g := Good.refl h hv
    obtain ⟨a, b, c, d, e⟩ := g.setTh (o := o) (fun m' hm' => by
      rw [hm] at hm'
      rcases List.mem_append.1 hm' with k | k
      · exact .inl k
      · rw [List.mem_singleton] at k; subst k; exact .inr ⟨hok.ne, hok.key, hok.rng⟩)
    exact .inr ⟨a, b, hi.snoc g.toOnw hm he, c, d, e, ⟨⟨[m], hm.symm⟩, by rw [he]; exact fun _ _ h => h⟩⟩
  | @newEq s1 o x y q hn =>
    rcases newEq_good h hv hi hn with hd | ⟨g, hm, k, hi', -⟩
    · exact .inl hd
    · obtain ⟨a, b, c, d, e⟩ := g.setTh (o := o) (fun m' hm' => .inl (by rw [hm] at hm'; exact hm'))
      exact .inr ⟨a, b, hi', c, d, e, k⟩

/-- What the values reported are: those whose literal is true. -/
def Holds (t : OV V) (α : Asg) (x : Nat → List V) : Prop := ∀ v, v < t.doms.length → (x v).Nodup ∧ ∀ a, a ∈ x v ↔ α.sat (t.allows v a)

theorem holds_ends {nv : Nat} {b : Nat → List Nat} (hli : FI s.th nv b) (hf : s.assigns 0 = some false) (hall : ∀ v, v < nv → s.assigns v ≠ none) : Holds s.th (fun v => s.assigns v = some true) (OV.value s s.th) := by
  intro v hv
  obtain ⟨-, hk, hr⟩ := hli.dom _ (dom_mem hv)
  refine ⟨?_, fun a => ?_⟩
  · exact hk.sublist (List.filter_sublist.map _)
  · have h0 : decide (s.assigns 0 = some true) = false := by simp [hf]
    rw [← sel_iff (α := fun v => decide (s.assigns v = some true)) h0]
    unfold OV.value
    simp only [List.mem_map, List.mem_filter, decide_eq_true_eq]
    have key : ∀ p ∈ s.th.dom v, s.value p.2 ≠ some false ↔ Asg.sat (fun v => decide (s.assigns v = some true)) p.2 := fun p hp => by
      obtain ⟨sg, hsg⟩ := Option.ne_none_iff_exists'.mp (hall p.2.var (hr p hp))
      obtain ⟨a, pv, ps⟩ := p
      simp only [Sat.value, Asg.sat] at hsg ⊢
      rw [hsg]
      cases sg <;> cases ps <;> simp
    constructor
    · rintro ⟨p, ⟨hp, hq⟩, rfl⟩
      exact ⟨p.2, mem_lookup hk hp, (key p hp).1 hq⟩
    · rintro ⟨l, hl, hs⟩
      exact ⟨(a, l), ⟨lookup_some_mem hl, (key _ (lookup_some_mem hl)).2 hs⟩, rfl⟩

theorem holds_final (h : s.Calm firm) (hall : ∀ v, v < s.nvars → s.assigns v ≠ none) : Holds s.th (fun v => s.assigns v = some true) (OV.value s s.th) :=
  holds_ends (show FI s.th s.nvars s.bounds from h.li) h.tw.fv hall

/-- The theory of object variables. -/
def comp (E : Env) (D : OEnv V) : Comp (OV V) where
  ops := ops
  m := 1
  ids := fun i hi => by
    have hi : i ∈ [0] := hi
    rw [List.mem_singleton] at hi; omega
  Start := fun t => t = OV.init
  Dat := Unit
  d0 := ()
  firm := fun _ => firm
  start := fun {t} h => by subst h; exact Sat.init_calm ⟨fun _ => .inl rfl, fun _ _ => rfl, fun m hm => (by cases hm)⟩
  Call := fun s u s' u' => Act E D s u s' u'
  Reg := OV V
  reg := id
  firmAt := fun _ r => firm.with (keeps_eq r)
  to_at := fun h => h.with (keeps_eq _) rfl
  of_at := fun h => h.without
  done_at := fun _ => trivial
  Ext := Kin
  ext_trans := Kin.trans
  ext_reg := fun {t t'} h => by have h : t' = t := h; subst h; exact .refl _
  Inv := Inv
  inv_start := fun {t} h => by subst h; exact fun l r q hq => (by cases hq)
  inv_onw := fun h o e => h.onw o e
  call := fun hc hv hi _ h => h.kept hc hv hi
  bnd := fun {s U} h => by
    have h : FI s.th s.nvars s.bounds := h.li
    refine ⟨fun v i hi => ?_, h.frs⟩
    rcases h.one v with e | e
    · rw [e] at hi; cases hi
    · rw [e, List.mem_singleton] at hi; omega
  Val := Nat → List V
  Holds := Holds
  holds_ext := fun {t t' α x} k h v hv => by
    obtain ⟨a, b⟩ := h v (hv.trans_le k.doms.length_le)
    exact ⟨a, fun c => by rw [b, k.allows hv]⟩
  Rep := fun s _ x => x = OV.value s s.th
  final := fun h _ _ _ hall => ⟨1, one_pos, fun δ _ _ => ⟨⟨_, rfl⟩, fun x hx => by rw [hx]; exact holds_final h hall⟩⟩
  ends := fun hl _ hf _ hall => ⟨hl.2, 1, one_pos, fun δ _ _ => ⟨⟨_, rfl⟩, fun x hx => by rw [hx]; exact holds_ends hl.1 hf hall⟩⟩

end OV
end Semitone
