import Verif.OV.Model

/-!
# Object variables: histories and the invariant
-/
namespace Semitone
namespace OV
variable {T V : Type} [DecidableEq V]

/-- One call: of the core, of another theory of the core, or of the object-variable theory. -/
inductive OCall (E : Env) {O : TheoryOps T} (C : Contract O) (i : Nat) (D : OEnv V) : Sat T × OV V → Sat T × OV V → Prop
  | step {s s' : Sat T} {o : OV V} {op out} : (op = .simplify → ∀ u, s.propagate E O = .ok (u, true) → u.Fix u.okQ) → s.step E O op = .ok (s', out) →
      OCall E C i D (s, o) (s', o)
  | theory {s : Sat T} {o : OV V} {t : T} : (∀ α, C.Th t α → C.Th s.th α) → C.TI t s.dl s.tru → OCall E C i D (s, o) ({ s with th := t }, o)
  | newVar {s s' : Sat T} {o o' : OV V} {items enf x} : OV.newVar E i s o items enf = .ok (s', o', x) → OCall E C i D (s, o) (s', o')
  | newVarLits {s : Sat T} {o o' : OV V} {lits vals x} : (∀ l ∈ lits, l.var < s.nvars) → o.newVarLits lits vals = .ok (o', x) → OCall E C i D (s, o) (s, o')
  | newEq {s s' : Sat T} {o o' : OV V} {x y r} : OV.newEq E D s o x y = .ok (s', o', r) → OCall E C i D (s, o) (s', o')

/-- Sequences of calls. -/
inductive OCalls (E : Env) {O : TheoryOps T} (C : Contract O) (i : Nat) (D : OEnv V) : Sat T × OV V → Sat T × OV V → Prop
  | refl {a} : OCalls E C i D a a
  | tail {a b c} : OCalls E C i D a b → OCall E C i D b c → OCalls E C i D a c

/-- The states reachable from an empty core and an empty theory. -/
inductive OReach (E : Env) {O : TheoryOps T} (C : Contract O) (i : Nat) (D : OEnv V) : Sat T × OV V → Prop
  | init {t : T} : C.TI t 0 (Sat.init t).tru → OReach E C i D (Sat.init t, OV.init)
  | call {a b} : OReach E C i D a → OCall E C i D a b → OReach E C i D b

variable {E : Env} {O : TheoryOps T} {C : Contract O} {i : Nat} {D : OEnv V}

theorem OReach.calls {a b : Sat T × OV V} (h : OReach E C i D a) (hc : OCalls E C i D a b) : OReach E C i D b := by
  induction hc with
  | refl => exact h
  | tail _ h2 ih => exact ih.call h2

/-! ### Maps -/

theorem lookup_some_mem {m : List (V × Lit)} {a : V} {l : Lit} (h : m.lookup a = some l) : (a, l) ∈ m := by
  induction m with
  | nil => cases h
  | cons p m ih =>
    rw [List.lookup_cons] at h
    split at h
    · next e =>
      injection h with h
      have e : a = p.1 := by simpa using e
      subst e h
      exact List.mem_cons_self
    · exact List.mem_cons_of_mem _ (ih h)

theorem mem_lookup {m : List (V × Lit)} (hn : (m.map Prod.fst).Nodup) {a : V} {l : Lit} (h : (a, l) ∈ m) : m.lookup a = some l := by
  induction m with
  | nil => cases h
  | cons p m ih =>
    rw [List.map_cons, List.nodup_cons] at hn
    rw [List.lookup_cons]
    rcases List.mem_cons.mp h with e | h
    · subst e; simp
    · have : (a == p.1) = false := by
        rw [beq_eq_false_iff_ne]
        rintro rfl
        exact hn.1 (List.mem_map.mpr ⟨_, h, rfl⟩)
      rw [this]
      exact ih hn.2 h

theorem mem_iff_lookup {m : List (V × Lit)} (hn : (m.map Prod.fst).Nodup) (p : V × Lit) : p ∈ m ↔ m.lookup p.1 = some p.2 :=
  ⟨fun h => mem_lookup hn h, fun h => lookup_some_mem h⟩

theorem lookup_none_iff {m : List (V × Lit)} {a : V} : m.lookup a = none ↔ a ∉ m.map Prod.fst := by
  induction m with
  | nil => simp
  | cons p m ih =>
    rw [List.lookup_cons, List.map_cons, List.mem_cons, not_or]
    by_cases e : a = p.1
    · simp [e]
    · have : (a == p.1) = false := by rw [beq_eq_false_iff_ne]; exact e
      rw [this]
      simp only [ih]
      exact ⟨fun h => ⟨e, h⟩, fun h => h.2⟩

theorem lookup_isSome_iff {m : List (V × Lit)} {a : V} : (m.lookup a).isSome = true ↔ a ∈ m.map Prod.fst := by
  rw [← not_iff_not, ← lookup_none_iff, Bool.not_eq_true, Option.isSome_eq_false_iff, Option.isNone_iff_eq_none]

theorem emplace_keys (m : List (V × Lit)) (a : V) (l : Lit) (b : V) : b ∈ (emplace m a l).map Prod.fst ↔ b ∈ m.map Prod.fst ∨ b = a := by
  unfold emplace
  split
  · next h =>
    have : a ∈ m.map Prod.fst := lookup_isSome_iff.mp (by rw [h]; rfl)
    exact ⟨Or.inl, fun h => h.elim id (fun e => e ▸ this)⟩
  · simp

theorem emplace_nodup {m : List (V × Lit)} (hn : (m.map Prod.fst).Nodup) (a : V) (l : Lit) : ((emplace m a l).map Prod.fst).Nodup := by
  unfold emplace
  split
  · exact hn
  · next h =>
    rw [List.map_append, List.nodup_append]
    refine ⟨hn, by simp, ?_⟩
    intro x hx y hy e
    simp only [List.map_cons, List.map_nil, List.mem_singleton] at hy
    subst e hy
    exact lookup_none_iff.mp h hx

theorem emplace_mem {m : List (V × Lit)} {a : V} {l : Lit} {p : V × Lit} (h : p ∈ emplace m a l) : p ∈ m ∨ p = (a, l) := by
  unfold emplace at h
  split at h
  · exact Or.inl h
  · rw [List.mem_append, List.mem_singleton] at h
    exact h

theorem emplace_sub {m : List (V × Lit)} {a : V} {l : Lit} {p : V × Lit} (h : p ∈ m) : p ∈ emplace m a l := by
  unfold emplace
  split
  · exact h
  · exact List.mem_append_left _ h

/-! ### Creation of the variables of the values -/

/-- Distinct values with distinct new positive literals. -/
structure Fr (n0 n : Nat) (m : List (V × Lit)) : Prop where
  key : (m.map Prod.fst).Nodup
  lit : (m.map Prod.snd).Nodup
  rng : ∀ p ∈ m, p.2.sign = true ∧ n0 ≤ p.2.var ∧ p.2.var < n

theorem Fr.emplace {n0 n : Nat} {m : List (V × Lit)} (h : Fr n0 n m) (h0 : n0 ≤ n) (a : V) : Fr n0 (n + 1) (emplace m a ⟨n, true⟩) := by
  refine ⟨emplace_nodup h.key _ _, ?_, fun p hp => ?_⟩
  · unfold OV.emplace
    split
    · exact h.lit
    · rw [List.map_append, List.nodup_append]
      refine ⟨h.lit, by simp, ?_⟩
      intro x hx y hy e
      simp only [List.map_cons, List.map_nil, List.mem_singleton] at hy
      subst e
      obtain ⟨p, hp, e⟩ := List.mem_map.mp hx
      have := (h.rng p hp).2.2
      rw [e, hy] at this
      exact Nat.lt_irrefl _ this
  · rcases emplace_mem hp with hp | rfl
    · obtain ⟨a, b, c⟩ := h.rng p hp
      exact ⟨a, b, Nat.lt_succ_of_lt c⟩
    · exact ⟨rfl, h0, Nat.lt_succ_self _⟩

/-- What does not change in the core when variables are created. -/
structure Same (s s' : Sat T) : Prop where
  posted : s'.posted = s.posted
  th : s'.th = s.th
  assigns : s'.assigns = s.assigns
  dec : s'.decisions = s.decisions
  lim : s'.trailLim = s.trailLim
  exprs : ∀ k ms r, (Sat.key k ms, r) ∈ s'.exprs → (Sat.key k ms, r) ∈ s.exprs

theorem fresh_spec (id : Nat) : ∀ (items : List V) (s : Sat T) (m : List (V × Lit)) (c : Nat → List Nat) (n0 : Nat), s.RInv C → n0 ≤ s.nvars → Fr n0 s.nvars m →
    (fresh i id items s m c).1.RInv C ∧ Sat.Grows C s (fresh i id items s m c).1 ∧ (fresh i id items s m c).1.nvars = s.nvars + items.length ∧
    Same s (fresh i id items s m c).1 ∧ Fr n0 (s.nvars + items.length) (fresh i id items s m c).2.1 ∧
    (∀ a, a ∈ (fresh i id items s m c).2.1.map Prod.fst ↔ a ∈ m.map Prod.fst ∨ a ∈ items)
  | [], s, m, c, n0, h, _, hf => ⟨h, Sat.Grows.refl C s, rfl, ⟨rfl, rfl, rfl, rfl, rfl, fun _ _ _ h => h⟩, hf, fun a => by simp [fresh]⟩
  | a :: as, s, m, c, n0, h, h0, hf => by
    have hE := Sat.newVar_eq h.inv.wf
    have h1 : s.newVar.1.RInv C := Sat.step_rinv (E := stdEnv) (O := O) h (fun e => by cases e) (op := .newVar) rfl
    have g1 : Sat.Grows C s s.newVar.1 := Sat.step_grows (E := stdEnv) (O := O) h (fun e => by cases e) (op := .newVar) rfl
    have h2 : (s.newVar.1.bind s.newVar.2 i).RInv C := Sat.step_rinv (E := stdEnv) (O := O) h1 (fun e => by cases e) (op := .bind s.newVar.2 i) rfl
    have g2 : Sat.Grows C s.newVar.1 (s.newVar.1.bind s.newVar.2 i) := Sat.step_grows (E := stdEnv) (O := O) h1 (fun e => by cases e) (op := .bind s.newVar.2 i) rfl
    have hn : (s.newVar.1.bind s.newVar.2 i).nvars = s.nvars + 1 := by rw [hE]; rfl
    have hf1 : Fr n0 (s.newVar.1.bind s.newVar.2 i).nvars (emplace m a ⟨s.newVar.2, true⟩) := by
      rw [hn, hE]
      exact hf.emplace h0 a
    obtain ⟨r1, r2, r3, r4, r5, r6⟩ := fresh_spec id as (s.newVar.1.bind s.newVar.2 i) (emplace m a ⟨s.newVar.2, true⟩) (contain c s.newVar.2 id) n0 h2 (by rw [hn]; omega) hf1
    refine ⟨r1, (g1.trans g2).trans r2, ?_, ?_, ?_, fun b => ?_⟩
    · show (fresh i id as _ _ _).1.nvars = _
      rw [r3, hn, List.length_cons]; omega
    · have e1 : (s.newVar.1.bind s.newVar.2 i).posted = s.posted := by rw [hE]; rfl
      have e2 : (s.newVar.1.bind s.newVar.2 i).th = s.th := by rw [hE]; rfl
      have e3 : (s.newVar.1.bind s.newVar.2 i).assigns = s.assigns := by rw [hE]; rfl
      have e4 : (s.newVar.1.bind s.newVar.2 i).decisions = s.decisions := by rw [hE]; rfl
      have e5 : (s.newVar.1.bind s.newVar.2 i).trailLim = s.trailLim := by rw [hE]; rfl
      refine ⟨r4.posted.trans e1, r4.th.trans e2, r4.assigns.trans e3, r4.dec.trans e4, r4.lim.trans e5, fun k ms r hr => ?_⟩
      have := r4.exprs k ms r hr
      rw [hE] at this
      rcases List.mem_cons.mp this with e | e
      · injection e with e1 e2
        exact absurd e1 (Sat.key_ne_var _ _ _)
      · exact e
    · have : s.nvars + (a :: as).length = (s.newVar.1.bind s.newVar.2 i).nvars + as.length := by rw [hn, List.length_cons]; omega
      rw [this]
      exact r5
    · show b ∈ (fresh i id as _ _ _).2.1.map Prod.fst ↔ _
      rw [r6, emplace_keys, List.mem_cons]
      exact or_assoc

end OV
end Semitone
