import Verif.OV.NewEq

/-!
# Object variables: C49, C50, C51

A truth assignment `α` selects the value `a` for the object variable `x` when it satisfies the literal `allows(x, a)`.
-/
namespace Semitone
namespace OV
variable {T V : Type} [DecidableEq V] {E : Env} {O : TheoryOps T} {C : Contract O} {i : Nat} {D : OEnv V}
variable {s s' s'' : Sat T} {o o' o'' : OV V}

/-- The assignment selects the value `a` for `x`. -/
def Selects (o : OV V) (α : Asg) (x : Nat) (a : V) : Prop := α.sat (o.allows x a)

/-- The assignment selects exactly one value for `x`. -/
def One (o : OV V) (α : Asg) (x : Nat) : Prop := ∃ a, o.Selects α x a ∧ ∀ b, o.Selects α x b → b = a

theorem selects_iff {α : Asg} (hα : s.Sol C.Th α) (x : Nat) (a : V) : o.Selects α x a ↔ Sel α (o.dom x) a := by
  unfold Selects OV.allows Sel
  match hm : (o.dom x).lookup a with
  | none =>
    simp only [Option.getD_none, reduceCtorEq, false_and, exists_false, iff_false]
    exact Sat.not_sat_false_lit hα
  | some l =>
    simp only [Option.getD_some, Option.some.injEq, exists_eq_left']

theorem allows_later (g : OGrows C s o s' o') {x : Nat} (hx : x < o.doms.length) (a : V) : o'.allows x a = o.allows x a := by
  unfold OV.allows
  rw [g.dom hx]

theorem selects_later (g : OGrows C s o s' o') {x : Nat} (hx : x < o.doms.length) (α : Asg) (a : V) : o'.Selects α x a ↔ o.Selects α x a := by
  unfold Selects
  rw [allows_later g hx]

theorem one_later (g : OGrows C s o s' o') {x : Nat} (hx : x < o.doms.length) (α : Asg) : One o' α x ↔ One o α x := by
  unfold One
  simp only [selects_later g hx]

theorem dom_last (m : List (V × Lit)) (hd : o'.doms = o.doms ++ [m]) : o'.dom o.doms.length = m := by
  unfold OV.dom
  rw [hd, List.getElem?_append_right (Nat.le_refl _)]
  simp

theorem one_of_exactlyOne {α : Asg} {m : List (V × Lit)} (hk : (m.map Prod.fst).Nodup) (hl : (m.map Prod.snd).Nodup) (h : α.exactlyOne (m.map Prod.snd)) :
    ∃ a, a ∈ m.map Prod.fst ∧ Sel α m a ∧ ∀ b, Sel α m b → b = a := by
  obtain ⟨⟨l, hl1, hs⟩, h2⟩ := h
  obtain ⟨p, hp, rfl⟩ := List.mem_map.mp hl1
  refine ⟨p.1, List.mem_map.mpr ⟨p, hp, rfl⟩, ⟨p.2, mem_lookup hk hp, hs⟩, fun b hb => ?_⟩
  obtain ⟨l', hb1, hb2⟩ := hb
  have hb1 := lookup_some_mem hb1
  have e : l' = p.2 := h2 l' (List.mem_map.mpr ⟨_, hb1, rfl⟩) p.2 hl1 hb2 hs
  subst e
  have := List.inj_on_of_nodup_map hl hb1 hp rfl
  exact congrArg Prod.fst this

/-- C49: after `new_var(items)` every solution of the network, now or later, selects exactly one value for the variable, and it is one of the items (repetitions among
the items are allowed). -/
theorem C49_exactly_one (h : OReach E C i D (s, o)) {items : List V} {x : Nat} (hn : OV.newVar E i s o items true = .ok (s', o', x))
    (hl : OCalls E C i D (s', o') (s'', o'')) {α : Asg} (hα : s''.Sol C.Th α) :
    ∃ a ∈ items, o''.Selects α x a ∧ ∀ b, o''.Selects α x b → b = a := by
  have k := newVar_made h.inv.rinv hn
  have hi' : OInv C s' o' := (h.call (.newVar hn)).inv
  obtain ⟨hi, g⟩ := hl.inv hi'
  obtain ⟨m, hd, h1, h2, h3, h4, h5, h6, h7, -⟩ := k.dom
  have hx : x < o'.doms.length := by rw [hd, k.x]; simp
  have hdom : o'.dom x = m := by rw [k.x]; exact dom_last m hd
  have hα' := g.grows.sol hα
  obtain ⟨a, ha, hs, hu⟩ := one_of_exactlyOne h2 h3 (h7 (Or.inl rfl) α hα')
  refine ⟨a, (h4 a).mp ha, ?_, fun b hb => ?_⟩
  · rw [selects_later g hx, selects_iff hα', hdom]; exact hs
  · rw [selects_later g hx, selects_iff hα', hdom] at hb; exact hu b hb

/-- C49: each item can be selected, and no solution is lost: every solution extends to one in which the item is selected. -/
theorem C49_each_item (h : OReach E C i D (s, o)) {items : List V} {x : Nat} {enf : Bool} (hn : OV.newVar E i s o items enf = .ok (s', o', x)) (hL : s.Local C.Th)
    {α : Asg} (hα : s.Sol C.Th α) {a : V} (ha : a ∈ items) : ∃ β, Asg.agree s.nvars α β ∧ s'.Sol C.Th β ∧ o'.Selects β x a := by
  have k := newVar_made h.inv.rinv hn
  obtain ⟨m, hd, h1, h2, h3, h4, h5, h6, h7, h8, h9⟩ := k.dom
  obtain ⟨p, hp, rfl⟩ := List.mem_map.mp ((h4 a).mpr ha)
  obtain ⟨β, b1, b2, b3⟩ := h9 hL α hα p hp
  refine ⟨β, b1, b2, ?_⟩
  rw [selects_iff b2, k.x, dom_last m hd]
  exact ⟨p.2, mem_lookup h2 hp, b3⟩

/-- C49: the other variables are as before, the new variable is a new one, and every solution afterwards is a solution before. -/
theorem C49_nothing_else (h : OReach E C i D (s, o)) {items : List V} {x : Nat} {enf : Bool} (hn : OV.newVar E i s o items enf = .ok (s', o', x)) :
    x = o.doms.length ∧ o'.doms.length = o.doms.length + 1 ∧ (∀ y, y < o.doms.length → ∀ a, o'.allows y a = o.allows y a) ∧
    (∀ α, s'.Sol C.Th α → s.Sol C.Th α) ∧ s'.decisions = s.decisions := by
  have k := newVar_made h.inv.rinv hn
  obtain ⟨-, g⟩ := (OCall.newVar (C := C) (D := D) hn).inv h.inv
  obtain ⟨m, hd, -⟩ := k.dom
  exact ⟨k.x, by rw [hd]; simp, fun y hy a => allows_later g hy a, fun α => k.grows.sol, k.dec⟩

/-- C49: at root level `new_var(items)` returns, unless the network has no solution at all. -/
theorem C49_returns (h : OReach E C i D (s, o)) (hr : s.root = true) (hL : s.Local C.Th) {α : Asg} (hα : s.Sol C.Th α) {items : List V} (hne : items ≠ []) (enf : Bool) :
    ∃ s' o' x, OV.newVar E i s o items enf = .ok (s', o', x) :=
  newVar_total h.inv.rinv hr hne hL hα

/-- C51: `value(x)` lists exactly the values of the domain whose literal is not false. -/
theorem C51_value (h : OReach E C i D (s, o)) {x : Nat} (hx : x < o.doms.length) (a : V) :
    a ∈ OV.value s o x ↔ (∃ l, (o.dom x).lookup a = some l) ∧ s.value (o.allows x a) ≠ some false := by
  have hk := (h.inv.dom _ (dom_mem hx)).key
  unfold OV.value OV.allows
  simp only [List.mem_map, List.mem_filter, decide_eq_true_eq]
  constructor
  · rintro ⟨p, ⟨hp, hv⟩, rfl⟩
    rw [mem_lookup hk hp]
    exact ⟨⟨_, rfl⟩, hv⟩
  · rintro ⟨⟨l, hl⟩, hv⟩
    rw [hl] at hv
    exact ⟨(a, l), ⟨lookup_some_mem hl, hv⟩, rfl⟩

/-- C51: the value selected by a solution compatible with the current decisions is listed, in every state and at every level. -/
theorem C51_contains (h : OReach E C i D (s, o)) {x : Nat} (hx : x < o.doms.length) {α : Asg} (hα : s.Sol C.Th α) (hd : α.all s.decisions) {a : V}
    (ha : o.Selects α x a) : a ∈ OV.value s o x := by
  rw [C51_value h hx]
  have hs := (selects_iff hα x a).mp ha
  obtain ⟨l, hl, hsat⟩ := hs
  refine ⟨⟨l, hl⟩, fun hf => ?_⟩
  have ht : s.value (o.allows x a).neg = some true := by rw [Sat.value_neg, hf]; rfl
  have := h.inv.rinv.inv.sem.val _ ht α hα (fun l hl => hd l (List.mem_of_mem_drop hl))
  exact (Asg.sat_neg α _).mp this ha

/-- C51: `allows` is `FALSE_lit` for a value outside the domain; for the values of the domain given to `new_var(items)` it is `TRUE_lit` when there is only one item,
otherwise a new positive literal, a different one for each value. The literal is the same in every later state. -/
theorem C51_allows (h : OReach E C i D (s, o)) {items : List V} {x : Nat} {enf : Bool} (hn : OV.newVar E i s o items enf = .ok (s', o', x))
    (hl : OCalls E C i D (s', o') (s'', o'')) :
    (∀ a, a ∉ items → o''.allows x a = FALSE_lit) ∧ (∀ a, items = [a] → o''.allows x a = TRUE_lit) ∧
    (2 ≤ items.length → (∀ a ∈ items, (o''.allows x a).sign = true ∧ s.nvars ≤ (o''.allows x a).var ∧ (o''.allows x a).var < s'.nvars) ∧
      ∀ a ∈ items, ∀ b ∈ items, o''.allows x a = o''.allows x b → a = b) := by
  have k := newVar_made h.inv.rinv hn
  have hi' : OInv C s' o' := (h.call (.newVar hn)).inv
  obtain ⟨hi, g⟩ := hl.inv hi'
  obtain ⟨m, hd, h1, h2, h3, h4, h5, h6, -⟩ := k.dom
  have hx : x < o'.doms.length := by rw [hd, k.x]; simp
  have hdom : o'.dom x = m := by rw [k.x]; exact dom_last m hd
  have hall : ∀ a, o''.allows x a = (m.lookup a).getD FALSE_lit := fun a => by rw [allows_later g hx]; unfold OV.allows; rw [hdom]
  have hin : ∀ a ∈ items, ∃ l, (a, l) ∈ m ∧ o''.allows x a = l := by
    intro a ha
    obtain ⟨p, hp, rfl⟩ := List.mem_map.mp ((h4 a).mpr ha)
    exact ⟨p.2, hp, by rw [hall, mem_lookup h2 hp]; rfl⟩
  refine ⟨fun a ha => ?_, fun a e => ?_, fun hlen => ⟨fun a ha => ?_, fun a ha b hb e => ?_⟩⟩
  · rw [hall, lookup_none_iff.mpr (fun hx => ha ((h4 a).mp hx))]; rfl
  · subst e
    unfold OV.newVar at hn
    simp only at hn
    injection hn with hn; injection hn with e1 hn; injection hn with e2 e3; subst e1 e2 e3
    have : m = [(a, TRUE_lit)] := by rw [← hdom]; exact dom_last (o := o) _ rfl
    rw [hall, this]
    simp
  · obtain ⟨l, hm, e⟩ := hin a ha
    rw [e]
    exact ⟨(h6 hlen _ hm).1, (h6 hlen _ hm).2, h5 _ hm⟩
  · obtain ⟨l, hm, e1⟩ := hin a ha
    obtain ⟨l', hm', e2⟩ := hin b hb
    rw [e1, e2] at e
    subst e
    exact congrArg Prod.fst (List.inj_on_of_nodup_map h3 hm hm' rfl)

/-- C51: after `new_var(items)`, in every later state, `value(x)` lists exactly the items whose literal is not false. -/
theorem C51_value_items (h : OReach E C i D (s, o)) {items : List V} {x : Nat} {enf : Bool} (hn : OV.newVar E i s o items enf = .ok (s', o', x))
    (hl : OCalls E C i D (s', o') (s'', o'')) (a : V) : a ∈ OV.value s'' o'' x ↔ a ∈ items ∧ s''.value (o''.allows x a) ≠ some false := by
  have k := newVar_made h.inv.rinv hn
  have h' : OReach E C i D (s', o') := h.call (.newVar hn)
  obtain ⟨hi, g⟩ := hl.inv h'.inv
  obtain ⟨m, hd, h1, h2, h3, h4, -⟩ := k.dom
  have hx : x < o'.doms.length := by rw [hd, k.x]; simp
  rw [C51_value (h'.calls hl) (Nat.lt_of_lt_of_le hx g.doms.length_le), g.dom hx, k.x, dom_last m hd]
  refine and_congr_left fun _ => ?_
  rw [← h4, ← lookup_isSome_iff, Option.isSome_iff_exists]

theorem zip_index {lits : List Lit} {vals : List V} (hlen : lits.length = vals.length) {p : V × Lit} (h : p ∈ vals.zip lits) :
    ∃ (k : Nat) (h1 : k < vals.length) (h2 : k < lits.length), vals[k] = p.1 ∧ lits[k] = p.2 := by
  obtain ⟨k, hk, e⟩ := List.getElem_of_mem h
  have hk' : k < vals.length ∧ k < lits.length := by
    rw [List.length_zip] at hk
    exact ⟨by omega, by omega⟩
  refine ⟨k, hk'.1, hk'.2, ?_, ?_⟩
  · rw [← e, List.getElem_zip]
  · rw [← e, List.getElem_zip]

/-- C51: `allows` after `new_var(lits, vals)` with distinct values is the literal given with the value. -/
theorem C51_allows_lits (h : OReach E C i D (s, o)) {lits : List Lit} {vals : List V} {x : Nat} (hv : ∀ l ∈ lits, l.var < s.nvars) (hnd : vals.Nodup)
    (hn : o.newVarLits lits vals = .ok (o', x)) (hl : OCalls E C i D (s, o') (s'', o'')) :
    (∀ a, a ∉ vals → o''.allows x a = FALSE_lit) ∧ lits.length = vals.length ∧ ∀ (k : Nat) (h1 : k < vals.length) (h2 : k < lits.length), o''.allows x vals[k] = lits[k] := by
  obtain ⟨hx, he, m, hd, hm, h4, h5⟩ := newVarLits_made hv hn
  have hi' : OInv C s o' := (h.call (.newVarLits hv hn)).inv
  obtain ⟨hi, g⟩ := hl.inv hi'
  have hx' : x < o'.doms.length := by rw [hd, hx]; simp
  have hdom : o'.dom x = m := by rw [hx]; exact dom_last m hd
  have hall : ∀ a, o''.allows x a = (m.lookup a).getD FALSE_lit := fun a => by rw [allows_later g hx']; unfold OV.allows; rw [hdom]
  have hlen : lits.length = vals.length := by
    unfold OV.newVarLits at hn
    split at hn
    · cases hn
    · next h0 => rw [not_or, not_not] at h0; exact h0.2
  refine ⟨fun a ha => ?_, hlen, fun k h1 h2 => ?_⟩
  · rw [hall, lookup_none_iff.mpr (fun hx => ha ((h4 a).mp hx))]; rfl
  · obtain ⟨p, hp, e⟩ := List.mem_map.mp ((h4 vals[k]).mpr (List.getElem_mem h1))
    obtain ⟨k', h1', h2', e1, e2⟩ := zip_index hlen (h5 p hp)
    have : k' = k := (List.Nodup.getElem_inj_iff hnd).mp (e1.trans e)
    subst this
    rw [hall, ← e, mem_lookup hm.key hp, ← e2]
    rfl

/-! ### C50 -/

/-- What the literal returned by `new_eq` means in every later state. -/
theorem newEq_mean (h : OInv C s o) {x y : Nat} {q : Lit} (hn : OV.newEq E D s o x y = .ok (s', o', q)) (hi : OInv C s'' o'') (g : OGrows C s' o' s'' o'')
    {α : Asg} (hα : s''.Sol C.Th α) (hxl : x < o.doms.length) (hyl : y < o.doms.length) :
    (α.sat q → ∀ a, o''.Selects α x a ↔ o''.Selects α y a) ∧ (¬ α.sat q → ∀ a, ¬ (o''.Selects α x a ∧ o''.Selects α y a)) := by
  obtain ⟨hi', g'⟩ := newEq_inv h hn
  have gg := g'.trans g
  simp only [selects_later gg hxl, selects_later gg hyl, selects_iff (gg.grows.sol hα)]
  rcases newEq_ord hn with ⟨rfl, rfl, rfl, rfl⟩ | ⟨l, r, hlr, hr, hor, ho⟩
  · exact ⟨fun _ _ => Iff.rfl, fun h1 => absurd (Sat.sat_true_lit hα) h1⟩
  · have key : EqMean α (o.dom l) (o.dom r) q := by
      rcases newEqOrd_cases h (Nat.lt_trans hlr hr) hr ho with ⟨rfl, rfl, hq | ⟨-, he, rfl⟩⟩ | k
      · exact (h.eq l r q hq).2.2.2.2 α (gg.grows.sol hα)
      · refine ⟨fun h1 => absurd h1 (Sat.not_sat_false_lit hα), fun _ a => ?_⟩
        rintro ⟨⟨u, hu, -⟩, ⟨v, hv, -⟩⟩
        have : (a, u) ∈ inter (o'.dom l) (o'.dom r) := mem_inter.mpr ⟨lookup_some_mem hu, v, hv⟩
        rw [he] at this
        cases this
      · exact ((k.mean α).mp (g.grows.sol hα)).2
    rcases hor with ⟨rfl, rfl⟩ | ⟨rfl, rfl⟩
    · exact key
    · exact ⟨fun h1 a => (key.1 h1 a).symm, fun h1 a => fun ⟨u, v⟩ => key.2 h1 a ⟨v, u⟩⟩

/-- C50: in every solution, now or later, in which each of the two variables selects exactly one value (for the variables created by `new_var(items)` that is every solution,
`C49_exactly_one`), the literal is true exactly when the values are the same. -/
theorem C50_means_equal (h : OReach E C i D (s, o)) {x y : Nat} {q : Lit} (hx : x < o.doms.length) (hy : y < o.doms.length)
    (hn : OV.newEq E D s o x y = .ok (s', o', q)) (hl : OCalls E C i D (s', o') (s'', o'')) {α : Asg} (hα : s''.Sol C.Th α) {a b : V}
    (ha : o''.Selects α x a ∧ ∀ c, o''.Selects α x c → c = a) (hb : o''.Selects α y b ∧ ∀ c, o''.Selects α y c → c = b) : α.sat q ↔ a = b := by
  have hi' := (newEq_inv h.inv hn).1
  obtain ⟨hi, g⟩ := hl.inv hi'
  obtain ⟨m1, m2⟩ := newEq_mean h.inv hn hi g hα hx hy
  constructor
  · intro hs
    exact hb.2 a ((m1 hs a).mp ha.1)
  · rintro rfl
    by_contra hs
    exact m2 hs a ⟨ha.1, hb.1⟩

/-- C50, for the other variables (`new_var(items, false)`, `new_var(lits, vals)`), that may select any set of values: when the literal is true both select the same values,
when it is false they have no selected value in common. -/
theorem C50_means_sets (h : OReach E C i D (s, o)) {x y : Nat} {q : Lit} (hx : x < o.doms.length) (hy : y < o.doms.length)
    (hn : OV.newEq E D s o x y = .ok (s', o', q)) (hl : OCalls E C i D (s', o') (s'', o'')) {α : Asg} (hα : s''.Sol C.Th α) :
    (α.sat q → ∀ a, o''.Selects α x a ↔ o''.Selects α y a) ∧ (¬ α.sat q → ∀ a, ¬ (o''.Selects α x a ∧ o''.Selects α y a)) := by
  have hi' := (newEq_inv h.inv hn).1
  obtain ⟨hi, g⟩ := hl.inv hi'
  exact newEq_mean h.inv hn hi g hα hx hy

theorem eqMean_agree {α β : Asg} {n : Nat} {m : List (V × Lit)} (hab : Asg.agree n α β) (hm : ∀ p ∈ m, p.2.var < n) (a : V) : Sel α m a ↔ Sel β m a := by
  unfold Sel
  constructor
  · rintro ⟨l, h1, h2⟩
    exact ⟨l, h1, by unfold Asg.sat at h2 ⊢; rw [← hab _ (hm _ (lookup_some_mem h1))]; exact h2⟩
  · rintro ⟨l, h1, h2⟩
    exact ⟨l, h1, by unfold Asg.sat at h2 ⊢; rw [hab _ (hm _ (lookup_some_mem h1))]; exact h2⟩

/-- The extension of a solution that gives the new literal its meaning. -/
theorem eq_extend (h : OInv C s o) (hL : s.Local C.Th) {l r : Nat} (hl : l < o.doms.length) (hr : r < o.doms.length) {α : Asg} (hα : s.Sol C.Th α)
    (h1 : ∀ a b, Sel α (o.dom l) a → Sel α (o.dom r) b → Sel α (o.dom l) b → a = b) (h2 : ∀ a b, Sel α (o.dom l) a → Sel α (o.dom r) b → Sel α (o.dom r) a → a = b) :
    ∃ β, Asg.agree s.nvars α β ∧ s.Sol C.Th β ∧ EqMean β (o.dom l) (o.dom r) ⟨s.nvars, true⟩ := by
  classical
  have hdl := h.dom _ (dom_mem hl)
  have hdr := h.dom _ (dom_mem hr)
  let β : Asg := upd α s.nvars (decide (∀ a, Sel α (o.dom l) a ↔ Sel α (o.dom r) a))
  have hab : Asg.agree s.nvars α β := Sat.upd_agree _ _ _
  refine ⟨β, hab, h.rinv.inv.sol_agree hL hab hα, ?_⟩
  have hq : β.sat ⟨s.nvars, true⟩ ↔ ∀ a, Sel α (o.dom l) a ↔ Sel α (o.dom r) a := by
    simp [β, Asg.sat, upd_self]
  have e1 := fun a => eqMean_agree (m := o.dom l) hab hdl.rng a
  have e2 := fun a => eqMean_agree (m := o.dom r) hab hdr.rng a
  unfold EqMean
  rw [hq]
  simp only [← e1, ← e2]
  refine ⟨id, fun hne a ⟨u, v⟩ => hne (fun b => ⟨fun hb => ?_, fun hb => ?_⟩)⟩
  · have := h1 b a hb v u
    exact this ▸ v
  · have := h2 a b u hb v
    exact this ▸ u

theorem newEq_preserves (hi : OInv C s o) {x y : Nat} {q : Lit} (hn : OV.newEq E D s o x y = .ok (s', o', q)) :
    (∀ α, s'.Sol C.Th α → s.Sol C.Th α) ∧
    (s.Local C.Th → ∀ α, s.Sol C.Th α → One o α x → One o α y → ∃ β, Asg.agree s.nvars α β ∧ s'.Sol C.Th β) := by
  refine ⟨fun α => (newEq_inv hi hn).2.grows.sol, fun hL α hα hx hy => ?_⟩
  rcases newEq_ord hn with ⟨rfl, rfl, rfl, rfl⟩ | ⟨l, r, hlr, hr, hor, ho⟩
  · exact ⟨α, fun _ _ => rfl, hα⟩
  · have hlr' : One o α l ∧ One o α r := by
      rcases hor with ⟨rfl, rfl⟩ | ⟨rfl, rfl⟩
      · exact ⟨hx, hy⟩
      · exact ⟨hy, hx⟩
    rcases newEqOrd_cases hi (Nat.lt_trans hlr hr) hr ho with ⟨rfl, rfl, -⟩ | k
    · exact ⟨α, fun _ _ => rfl, hα⟩
    · obtain ⟨⟨a, ha, hua⟩, b, hb, hub⟩ := hlr'
      simp only [selects_iff hα] at ha hua hb hub
      obtain ⟨β, b1, b2, b3⟩ := eq_extend hi hL (Nat.lt_trans hlr hr) hr hα (fun c d h1 _ h3 => (hua c h1).trans (hua d h3).symm)
        (fun c d _ h2 h3 => (hub c h3).trans (hub d h2).symm)
      exact ⟨β, b1, (k.mean β).mpr ⟨b2, by rw [k.lit]; exact b3⟩⟩

/-- C50: no solution is lost: every solution in which each of the two variables selects exactly one value extends to a solution of the resulting network, and every solution
of the resulting network is a solution of the one before. -/
theorem C50_preserves (h : OReach E C i D (s, o)) {x y : Nat} {q : Lit} (hn : OV.newEq E D s o x y = .ok (s', o', q)) :
    (∀ α, s'.Sol C.Th α → s.Sol C.Th α) ∧
    (s.Local C.Th → ∀ α, s.Sol C.Th α → One o α x → One o α y → ∃ β, Asg.agree s.nvars α β ∧ s'.Sol C.Th β) :=
  newEq_preserves h.inv hn

/-- C50: calling `new_eq` again, now or later, in either order, returns the same literal and changes nothing. -/
theorem C50_same_literal (h : OReach E C i D (s, o)) {x y : Nat} {q : Lit} (hn : OV.newEq E D s o x y = .ok (s', o', q)) (hl : OCalls E C i D (s', o') (s'', o'')) :
    OV.newEq E D s'' o'' x y = .ok (s'', o'', q) ∧ OV.newEq E D s'' o'' y x = .ok (s'', o'', q) := by
  have hi' := (newEq_inv h.inv hn)
  obtain ⟨hi, g⟩ := hl.inv hi'.1
  rcases newEq_ord hn with ⟨rfl, rfl, rfl, rfl⟩ | ⟨l, r, hlr, hr, hor, ho⟩
  · unfold OV.newEq
    simp
  · have hr'' : r < o''.doms.length := Nat.lt_of_lt_of_le hr (hi'.2.trans g).doms.length_le
    have hl'' : l < o''.doms.length := Nat.lt_trans hlr hr''
    have key : newEqOrd E D s'' o'' l r = .ok (s'', o'', q) := by
      unfold newEqOrd
      rcases newEqOrd_cases h.inv (Nat.lt_trans hlr hr) hr ho with ⟨rfl, rfl, hq | ⟨hq, he, rfl⟩⟩ | k
      · rw [g.exprs _ _ hq]
      · have hd : inter (o''.dom l) (o''.dom r) = [] := by rw [g.dom hr, g.dom (Nat.lt_trans hlr hr)]; exact he
        have hnone : o''.exprs.lookup (l, r) = none := by
          match hx : o''.exprs.lookup (l, r) with
          | none => rfl
          | some q => exact absurd hd (hi.eq l r q hx).2.2.2.1
        rw [hnone]
        simp only [hd, if_true]
      · have : o'.exprs.lookup (l, r) = some q := by
          rw [k.ov]
          show List.lookup (l, r) (((l, r), q) :: o.exprs) = some q
          simp
        rw [g.exprs _ _ this]
    have k1 : OV.newEq E D s'' o'' l r = .ok (s'', o'', q) := by
      unfold OV.newEq
      rw [if_neg (by omega), if_neg (by omega), if_neg (by omega)]
      exact key
    have k2 : OV.newEq E D s'' o'' r l = .ok (s'', o'', q) := by
      unfold OV.newEq
      rw [if_neg (by omega), if_neg (by omega), if_pos hlr]
      exact key
    rcases hor with ⟨rfl, rfl⟩ | ⟨rfl, rfl⟩
    · exact ⟨k1, k2⟩
    · exact ⟨k2, k1⟩

theorem newEq_total (hi : OInv C s o) (hr : s.root = true) (hL : s.Local C.Th) {x y : Nat} (hx : x < o.doms.length) (hy : y < o.doms.length)
    {α : Asg} (hα : s.Sol C.Th α) (h1 : One o α x) (h2 : One o α y) : ∃ s' o' q, OV.newEq E D s o x y = .ok (s', o', q) := by
  have key : ∀ l r, l < o.doms.length → r < o.doms.length → One o α l → One o α r → ∃ s' o' q, newEqOrd E D s o l r = .ok (s', o', q) := by
    intro l r hl hr' h1 h2
    unfold newEqOrd
    split
    · exact ⟨_, _, _, rfl⟩
    · split
      · exact ⟨_, _, _, rfl⟩
      · have hdl := hi.dom _ (dom_mem hl)
        have hdr := hi.dom _ (dom_mem hr')
        obtain ⟨a, b, c, d, e, f, g, i', j, kb, lb, m⟩ := Sat.newVar_spec hi.rinv.inv
        simp only [c]
        have hrng : ∀ c ∈ eqClauses D (o.dom l) (o.dom r) ⟨s.nvars, true⟩, ∀ x ∈ c, x.var < s.newVar.1.nvars := by
          rw [d]
          exact eqClauses_rng (Nat.lt_succ_self _) (fun p hp => Nat.lt_succ_of_lt (hdl.rng p hp)) (fun p hp => Nat.lt_succ_of_lt (hdr.rng p hp))
        obtain ⟨s3, b3, h3, k⟩ := Sat.postAll_spec (E := E) (C := C) _ s.newVar.1 a (by rw [b.root]; exact hr) hrng
        rw [h3]
        cases b3 with
        | true => exact ⟨_, _, _, rfl⟩
        | false =>
          exfalso
          obtain ⟨u, hu, huu⟩ := h1
          obtain ⟨v, hv, huv⟩ := h2
          simp only [selects_iff hα] at hu huu hv huv
          obtain ⟨β, b1, b2, b3⟩ := eq_extend hi hL hl hr' hα (fun c d h1 _ h3 => (huu c h1).trans (huu d h3).symm) (fun c d _ h2 h3 => (huv c h3).trans (huv d h2).symm)
          have hcl : ∀ c ∈ eqClauses D (o.dom l) (o.dom r) ⟨s.nvars, true⟩, β.clause c := (eqClauses_iff hdl.key hdr.key _ β).mpr b3
          have hsub : ∀ (cls : List (List Lit)) (s1 s2 : Sat T) (b : Bool), s1.Inv C → s1.postAll E cls = .ok (s2, b) → ∀ C ∈ s2.posted, C ∈ cls ∨ C ∈ s1.posted := by
            intro cls
            induction cls with
            | nil =>
              intro s1 s2 b hI hp
              injection hp with hp; injection hp with e1 e2; subst e1
              exact fun C hC => Or.inr hC
            | cons c cls ih =>
              intro s1 s2 b hI hp
              unfold Sat.postAll at hp
              have hpost : ∀ s2 b, s1.newClause E c = .ok (s2, b) → s2.posted = c :: s1.posted := by
                intro s2 b hc
                exact (Sat.newClause_spec hI hc).posted
              split at hp
              · cases hp
              · next s3 h3 =>
                injection hp with hp; injection hp with e1 e2; subst e1
                intro C hC
                rw [hpost _ _ h3] at hC
                rcases List.mem_cons.mp hC with rfl | hC
                · exact Or.inl List.mem_cons_self
                · exact Or.inr hC
              · next s3 h3 =>
                intro C hC
                rcases ih s3 s2 b (Sat.newClause_spec hI h3).inv hp C hC with h4 | h4
                · exact Or.inl (List.mem_cons_of_mem _ h4)
                · rw [hpost _ _ h3] at h4
                  rcases List.mem_cons.mp h4 with rfl | h4
                  · exact Or.inl List.mem_cons_self
                  · exact Or.inr h4
          refine (k.bad rfl).1 β ⟨b2.1, fun C hC => ?_, by rw [k.rstep.th, b.th]; exact b2.2.2⟩
          rcases hsub _ _ _ _ a h3 C hC with h4 | h4
          · exact hcl C h4
          · rw [f] at h4; exact b2.2.1 C h4
  unfold OV.newEq
  split
  · exact ⟨_, _, _, rfl⟩
  · rw [if_neg (by omega)]
    split
    · exact key y x hy hx h2 h1
    · exact key x y hx hy h1 h2

/-- C50: at root level `new_eq` returns, unless there is no solution in which each of the two variables selects exactly one value. -/
theorem C50_returns (h : OReach E C i D (s, o)) (hr : s.root = true) (hL : s.Local C.Th) {x y : Nat} (hx : x < o.doms.length) (hy : y < o.doms.length)
    {α : Asg} (hα : s.Sol C.Th α) (h1 : One o α x) (h2 : One o α y) : ∃ s' o' q, OV.newEq E D s o x y = .ok (s', o', q) :=
  newEq_total h.inv hr hL hx hy hα h1 h2

end OV
end Semitone
