import Verif.OV.NewVar
import Verif.DL.Sys

/-!
# Object variables: `new_eq` and the invariant of all histories
-/
namespace Semitone
namespace OV
variable {T V : Type} [DecidableEq V] {E : Env} {O : TheoryOps T} {C : Contract O} {i : Nat} {D : OEnv V}

/-- The assignment selects the value `a` in the domain `m`. -/
def Sel (α : Asg) (m : List (V × Lit)) (a : V) : Prop := ∃ l, m.lookup a = some l ∧ α.sat l

theorem mem_inter {ml mr : List (V × Lit)} {p : V × Lit} : p ∈ inter ml mr ↔ p ∈ ml ∧ ∃ r, mr.lookup p.1 = some r := by
  unfold inter
  rw [List.mem_filter, Option.isSome_iff_exists]

/-- What the clauses of an equality say. -/
theorem eqClauses_iff {ml mr : List (V × Lit)} (hl : (ml.map Prod.fst).Nodup) (hr : (mr.map Prod.fst).Nodup) (e : Lit) (α : Asg) :
    (∀ c ∈ eqClauses D ml mr e, α.clause c) ↔ (α.sat e → ∀ a, Sel α ml a ↔ Sel α mr a) ∧ (¬ α.sat e → ∀ a, ¬ (Sel α ml a ∧ Sel α mr a)) := by
  unfold eqClauses
  simp only [List.mem_append, List.mem_map, List.mem_filter, List.mem_flatMap, List.mem_cons, List.not_mem_nil, or_false, (D.ord_perm _).mem_iff, mem_inter]
  constructor
  · intro h
    have h1 : ∀ a l, ml.lookup a = some l → mr.lookup a = none → α.sat e → ¬ α.sat l := by
      intro a l h1 h2 he hs
      obtain ⟨q, hq, hs'⟩ := h [e.neg, l.neg] (Or.inl (Or.inl ⟨(a, l), ⟨lookup_some_mem h1, by simp [h2]⟩, rfl⟩))
      simp only [List.mem_cons, List.not_mem_nil, or_false] at hq
      rcases hq with rfl | rfl
      · exact (Asg.sat_neg α e).mp hs' he
      · exact (Asg.sat_neg α l).mp hs' hs
    have h2 : ∀ a l, mr.lookup a = some l → ml.lookup a = none → α.sat e → ¬ α.sat l := by
      intro a l h1 h2 he hs
      obtain ⟨q, hq, hs'⟩ := h [e.neg, l.neg] (Or.inl (Or.inr ⟨(a, l), ⟨lookup_some_mem h1, by simp [h2]⟩, rfl⟩))
      simp only [List.mem_cons, List.not_mem_nil, or_false] at hq
      rcases hq with rfl | rfl
      · exact (Asg.sat_neg α e).mp hs' he
      · exact (Asg.sat_neg α l).mp hs' hs
    have h3 : ∀ a l r, ml.lookup a = some l → mr.lookup a = some r → α.clause [e.neg, l.neg, r] ∧ α.clause [e.neg, l, r.neg] ∧ α.clause [e, l.neg, r.neg] := by
      intro a l r h1 h2
      have hg : (mr.lookup a).getD FALSE_lit = r := by rw [h2]; rfl
      refine ⟨h _ (Or.inr ⟨(a, l), ⟨lookup_some_mem h1, r, h2⟩, ?_⟩), h _ (Or.inr ⟨(a, l), ⟨lookup_some_mem h1, r, h2⟩, ?_⟩), h _ (Or.inr ⟨(a, l), ⟨lookup_some_mem h1, r, h2⟩, ?_⟩)⟩ <;>
        simp only [hg] <;> simp
    have cl3 : ∀ x y z : Lit, α.clause [x, y, z] ↔ α.sat x ∨ α.sat y ∨ α.sat z := by
      intro x y z; simp [Asg.clause]
    refine ⟨fun he a => ⟨?_, ?_⟩, fun he a => ?_⟩
    · rintro ⟨l, hl1, hs⟩
      match hm : mr.lookup a with
      | none => exact absurd hs (h1 a l hl1 hm he)
      | some r =>
        obtain ⟨c1, -, -⟩ := h3 a l r hl1 hm
        rw [cl3, Asg.sat_neg, Asg.sat_neg] at c1
        exact ⟨r, hm, by tauto⟩
    · rintro ⟨r, hr1, hs⟩
      match hm : ml.lookup a with
      | none => exact absurd hs (h2 a r hr1 hm he)
      | some l =>
        obtain ⟨-, c2, -⟩ := h3 a l r hm hr1
        rw [cl3, Asg.sat_neg, Asg.sat_neg] at c2
        exact ⟨l, hm, by tauto⟩
    · rintro ⟨⟨l, hl1, hs⟩, ⟨r, hr1, hs'⟩⟩
      obtain ⟨-, -, c3⟩ := h3 a l r hl1 hr1
      rw [cl3, Asg.sat_neg, Asg.sat_neg] at c3
      tauto
  · rintro ⟨h1, h2⟩ c ((⟨⟨a, l⟩, ⟨hm, hx⟩, rfl⟩ | ⟨⟨a, l⟩, ⟨hm, hx⟩, rfl⟩) | ⟨⟨a, l⟩, ⟨hm, r, hx⟩, hc⟩)
    · by_cases he : α.sat e
      · refine ⟨l.neg, by simp, (Asg.sat_neg α l).mpr (fun hs => ?_)⟩
        obtain ⟨r, hr1, -⟩ := (h1 he a).mp ⟨l, mem_lookup hl hm, hs⟩
        simp only at hx
        rw [hr1] at hx
        cases hx
      · exact ⟨e.neg, by simp, (Asg.sat_neg α e).mpr he⟩
    · by_cases he : α.sat e
      · refine ⟨l.neg, by simp, (Asg.sat_neg α l).mpr (fun hs => ?_)⟩
        obtain ⟨r, hr1, -⟩ := (h1 he a).mpr ⟨l, mem_lookup hr hm, hs⟩
        simp only at hx
        rw [hr1] at hx
        cases hx
      · exact ⟨e.neg, by simp, (Asg.sat_neg α e).mpr he⟩
    · simp only at hx
      have hg : (mr.lookup a).getD FALSE_lit = r := by rw [hx]; rfl
      simp only [hg] at hc
      have hL : Sel α ml a ↔ α.sat l := ⟨fun ⟨l', h3, h4⟩ => by rw [mem_lookup hl hm] at h3; injection h3 with h3; exact h3 ▸ h4, fun h3 => ⟨l, mem_lookup hl hm, h3⟩⟩
      have hR : Sel α mr a ↔ α.sat r := ⟨fun ⟨l', h3, h4⟩ => by rw [hx] at h3; injection h3 with h3; exact h3 ▸ h4, fun h3 => ⟨r, hx, h3⟩⟩
      have h1 := fun he => h1 he a
      have h2 := fun he => h2 he a
      rw [hL, hR] at h1 h2
      have cl3 : ∀ x y z : Lit, α.clause [x, y, z] ↔ α.sat x ∨ α.sat y ∨ α.sat z := by
        intro x y z; simp [Asg.clause]
      rcases hc with rfl | rfl | rfl <;> rw [cl3] <;> simp only [Asg.sat_neg] <;> tauto

theorem postAll_rinv : ∀ (cls : List (List Lit)) {s s' : Sat T} {b : Bool}, s.RInv C → s.postAll E cls = .ok (s', b) → s'.RInv C ∧ Sat.Grows C s s'
  | [], s, s', b, h, hn => by
    injection hn with hn; injection hn with e1 e2; subst e1
    exact ⟨h, Sat.Grows.refl C s⟩
  | c :: cls, s, s', b, h, hn => by
    unfold Sat.postAll at hn
    split at hn
    · cases hn
    · next s1 h1 =>
      injection hn with hn; injection hn with e1 e2; subst e1
      have st : s.step E O (.newClause c) = .ok (s1, .bool false) := by simp only [Sat.step, h1]; rfl
      exact ⟨Sat.step_rinv h (fun e => by cases e) st, Sat.step_grows h (fun e => by cases e) st⟩
    · next s1 h1 =>
      have st : s.step E O (.newClause c) = .ok (s1, .bool true) := by simp only [Sat.step, h1]; rfl
      obtain ⟨a, b⟩ := postAll_rinv cls (Sat.step_rinv (C := C) h (fun e => by cases e) st) hn
      exact ⟨a, (Sat.step_grows h (fun e => by cases e) st).trans b⟩

/-- Well-formed domains. -/
structure DomOK (s : Sat T) (m : List (V × Lit)) : Prop where
  ne : m ≠ []
  key : (m.map Prod.fst).Nodup
  rng : ∀ p ∈ m, p.2.var < s.nvars

/-- The meaning of an equality literal. -/
def EqMean (α : Asg) (ml mr : List (V × Lit)) (q : Lit) : Prop :=
  (α.sat q → ∀ a, Sel α ml a ↔ Sel α mr a) ∧ (¬ α.sat q → ∀ a, ¬ (Sel α ml a ∧ Sel α mr a))

/-- The invariant. -/
structure OInv (C : Contract O) (s : Sat T) (o : OV V) : Prop where
  rinv : s.RInv C
  dom : ∀ m ∈ o.doms, DomOK s m
  eq : ∀ l r q, o.exprs.lookup (l, r) = some q → l < r ∧ r < o.doms.length ∧ q.var < s.nvars ∧ inter (o.dom l) (o.dom r) ≠ [] ∧
    ∀ α, s.Sol C.Th α → EqMean α (o.dom l) (o.dom r) q

/-- How the state changes. -/
structure OGrows (C : Contract O) (s : Sat T) (o : OV V) (s' : Sat T) (o' : OV V) : Prop where
  grows : Sat.Grows C s s'
  doms : o.doms <+: o'.doms
  exprs : ∀ k q, o.exprs.lookup k = some q → o'.exprs.lookup k = some q

theorem OGrows.refl (s : Sat T) (o : OV V) : OGrows C s o s o := ⟨Sat.Grows.refl C s, List.prefix_rfl, fun _ _ h => h⟩

theorem OGrows.trans {s1 s2 s3 : Sat T} {o1 o2 o3 : OV V} (h1 : OGrows C s1 o1 s2 o2) (h2 : OGrows C s2 o2 s3 o3) : OGrows C s1 o1 s3 o3 :=
  ⟨h1.grows.trans h2.grows, h1.doms.trans h2.doms, fun k q h => h2.exprs k q (h1.exprs k q h)⟩

theorem OGrows.dom {s s' : Sat T} {o o' : OV V} (h : OGrows C s o s' o') {x : Nat} (hx : x < o.doms.length) : o'.dom x = o.dom x := by
  obtain ⟨t, ht⟩ := h.doms
  unfold OV.dom
  rw [← ht, List.getElem?_append_left hx]

theorem DomOK.mono {s s' : Sat T} {m : List (V × Lit)} (h : DomOK s m) (hn : s.nvars ≤ s'.nvars) : DomOK s' m :=
  ⟨h.ne, h.key, fun p hp => Nat.lt_of_lt_of_le (h.rng p hp) hn⟩

theorem dom_mem {o : OV V} {x : Nat} (hx : x < o.doms.length) : o.dom x ∈ o.doms := by
  unfold OV.dom
  rw [List.getElem?_eq_getElem hx]
  exact List.getElem_mem hx

/-- The core changes, or a domain is added. -/
theorem OInv.grow {s s' : Sat T} {o o' : OV V} (h : OInv C s o) (h' : s'.RInv C) (g : OGrows C s o s' o') (hd : ∀ m ∈ o'.doms, m ∈ o.doms ∨ DomOK s' m)
    (he : o'.exprs = o.exprs) : OInv C s' o' := by
  refine ⟨h', fun m hm => (hd m hm).elim (fun hm => (h.dom m hm).mono g.grows.nv) id, fun l r q hq => ?_⟩
  rw [he] at hq
  obtain ⟨a, b, c, d, e⟩ := h.eq l r q hq
  rw [g.dom b, g.dom (Nat.lt_trans a b)]
  exact ⟨a, Nat.lt_of_lt_of_le b g.doms.length_le, Nat.lt_of_lt_of_le c g.grows.nv, d, fun α hα => e α (g.grows.sol hα)⟩

/-- What `new_eq` does when a new literal is created. -/
structure EqMade (C : Contract O) (s : Sat T) (o : OV V) (l r : Nat) (s' : Sat T) (o' : OV V) (q : Lit) : Prop where
  new : o.exprs.lookup (l, r) = none
  int : inter (o.dom l) (o.dom r) ≠ []
  lit : q = ⟨s.nvars, true⟩
  ov : o' = { o with exprs := ((l, r), q) :: o.exprs }
  rinv : s'.RInv C
  grows : Sat.Grows C s s'
  nv : s'.nvars = s.nvars + 1
  th : s'.th = s.th
  dec : s'.decisions = s.decisions
  mean : ∀ α, s'.Sol C.Th α ↔ s.Sol C.Th α ∧ EqMean α (o.dom l) (o.dom r) q

theorem eqClauses_rng {ml mr : List (V × Lit)} {e : Lit} {n : Nat} (he : e.var < n) (hl : ∀ p ∈ ml, p.2.var < n) (hr : ∀ p ∈ mr, p.2.var < n) :
    ∀ c ∈ eqClauses D ml mr e, ∀ l ∈ c, l.var < n := by
  unfold eqClauses
  simp only [List.mem_append, List.mem_map, List.mem_filter, List.mem_flatMap, List.mem_cons, List.not_mem_nil, or_false, (D.ord_perm _).mem_iff, mem_inter]
  rintro c ((⟨⟨a, l⟩, ⟨hm, hx⟩, rfl⟩ | ⟨⟨a, l⟩, ⟨hm, hx⟩, rfl⟩) | ⟨⟨a, l⟩, ⟨hm, r, hx⟩, hc⟩) q hq
  · simp only [List.mem_cons, List.not_mem_nil, or_false] at hq
    rcases hq with rfl | rfl
    · exact he
    · exact hl _ hm
  · simp only [List.mem_cons, List.not_mem_nil, or_false] at hq
    rcases hq with rfl | rfl
    · exact he
    · exact hr _ hm
  · have hg : (mr.lookup a).getD FALSE_lit = r := by simp only at hx; rw [hx]; rfl
    have h1 := hl _ hm
    have h2 := hr _ (lookup_some_mem hx)
    simp only [hg] at hc
    rcases hc with rfl | rfl | rfl <;> simp only [List.mem_cons, List.not_mem_nil, or_false] at hq <;> rcases hq with rfl | rfl | rfl <;> first | exact he | exact h1 | exact h2

theorem newEqOrd_cases {s s' : Sat T} {o o' : OV V} {l r : Nat} {q : Lit} (h : OInv C s o) (hl : l < o.doms.length) (hr : r < o.doms.length)
    (hn : newEqOrd E D s o l r = .ok (s', o', q)) :
    (s' = s ∧ o' = o ∧ (o.exprs.lookup (l, r) = some q ∨ o.exprs.lookup (l, r) = none ∧ inter (o.dom l) (o.dom r) = [] ∧ q = FALSE_lit)) ∨ EqMade C s o l r s' o' q := by
  unfold newEqOrd at hn
  split at hn
  · next q' hq =>
    injection hn with hn; injection hn with e1 hn; injection hn with e2 e3; subst e1 e2 e3
    exact Or.inl ⟨rfl, rfl, Or.inl hq⟩
  · next hq =>
    split at hn
    · next hi =>
      injection hn with hn; injection hn with e1 hn; injection hn with e2 e3; subst e1 e2 e3
      exact Or.inl ⟨rfl, rfl, Or.inr ⟨hq, hi, rfl⟩⟩
    · next hi =>
      right
      have hdl := h.dom _ (dom_mem hl)
      have hdr := h.dom _ (dom_mem hr)
      have h1 : s.newVar.1.RInv C := Sat.step_rinv (E := stdEnv) (O := O) h.rinv (fun e => by cases e) (op := .newVar) rfl
      have g1 : Sat.Grows C s s.newVar.1 := Sat.step_grows (E := stdEnv) (O := O) h.rinv (fun e => by cases e) (op := .newVar) rfl
      obtain ⟨a, b, c, d, e, f, g, i', j, kb, lb, m⟩ := Sat.newVar_spec h.rinv.inv
      simp only [c] at hn
      split at hn
      · cases hn
      · cases hn
      · next s2 h2 =>
        injection hn with hn; injection hn with e1 hn; injection hn with e2 e3; subst e1 e2 e3
        obtain ⟨r1, r2⟩ := postAll_rinv (C := C) _ h1 h2
        have hroot : s.newVar.1.root = true := by
          by_contra hx
          have hx : s.newVar.1.root = false := by simpa using hx
          have hne : eqClauses D (o.dom l) (o.dom r) ⟨s.nvars, true⟩ ≠ [] := by
            obtain ⟨p, hp⟩ := List.exists_mem_of_ne_nil _ hi
            obtain ⟨hp1, q', hq'⟩ := mem_inter.mp hp
            intro h0
            have : ∀ c, c ∉ eqClauses D (o.dom l) (o.dom r) ⟨s.nvars, true⟩ := by rw [h0]; simp
            apply this [(⟨s.nvars, true⟩ : Lit).neg, p.2.neg, ((o.dom r).lookup p.1).getD FALSE_lit]
            unfold eqClauses
            simp only [List.mem_append, List.mem_flatMap, (D.ord_perm _).mem_iff]
            exact Or.inr ⟨p, hp, by simp⟩
          obtain ⟨c0, cs, h0⟩ := List.exists_cons_of_ne_nil hne
          rw [h0] at h2
          unfold Sat.postAll at h2
          have : s.newVar.1.newClause E c0 = .error .assert := by unfold Sat.newClause; rw [if_pos hx]
          rw [this] at h2
          cases h2
        have hrng : ∀ c ∈ eqClauses D (o.dom l) (o.dom r) ⟨s.nvars, true⟩, ∀ x ∈ c, x.var < s.newVar.1.nvars := by
          rw [d]
          exact eqClauses_rng (Nat.lt_succ_self _) (fun p hp => Nat.lt_succ_of_lt (hdl.rng p hp)) (fun p hp => Nat.lt_succ_of_lt (hdr.rng p hp))
        obtain ⟨s3, b3, h3, k⟩ := Sat.postAll_spec (E := E) (C := C) _ s.newVar.1 h1.inv hroot hrng
        rw [h2] at h3
        injection h3 with h3; injection h3 with e1 e2; subst e1 e2
        obtain ⟨-, -, hpost⟩ := k.good rfl
        refine ⟨hq, hi, rfl, rfl, r1, g1.trans r2, by rw [k.nv, d], by rw [k.rstep.th, b.th], by rw [k.rstep.dec, b.dec], fun α => ?_⟩
        unfold EqMean
        rw [← eqClauses_iff (D := D) hdl.key hdr.key]
        unfold Sat.Sol
        rw [hpost, k.rstep.th, b.th, f]
        simp only [List.mem_append, List.mem_reverse]
        constructor
        · rintro ⟨x1, x2, x3⟩
          exact ⟨⟨x1, fun D hD => x2 D (Or.inr hD), x3⟩, fun c hc => x2 c (Or.inl hc)⟩
        · rintro ⟨⟨x1, x2, x3⟩, x4⟩
          exact ⟨x1, fun D hD => hD.elim (x4 D) (x2 D), x3⟩

theorem EqMade.ogrows {s s' : Sat T} {o o' : OV V} {l r : Nat} {q : Lit} (h : EqMade C s o l r s' o' q) : OGrows C s o s' o' := by
  refine ⟨h.grows, by rw [h.ov], fun k q' hk => ?_⟩
  rw [h.ov]
  show List.lookup k (((l, r), q) :: o.exprs) = some q'
  rw [List.lookup_cons]
  have : (k == (l, r)) = false := by
    rw [beq_eq_false_iff_ne]
    rintro rfl
    rw [h.new] at hk
    cases hk
  rw [this]
  exact hk

theorem EqMade.inv {s s' : Sat T} {o o' : OV V} {l r : Nat} {q : Lit} (h : EqMade C s o l r s' o' q) (hi : OInv C s o) (hlr : l < r) (hr : r < o.doms.length) :
    OInv C s' o' := by
  have g := h.ogrows
  have hd : o'.doms = o.doms := by rw [h.ov]
  have hdd : ∀ x, o'.dom x = o.dom x := fun x => by unfold OV.dom; rw [hd]
  refine ⟨h.rinv, fun m hm => (hi.dom m (by rw [← hd]; exact hm)).mono h.grows.nv, fun l' r' q' hq => ?_⟩
  rw [hdd, hdd, hd]
  have hq : List.lookup (l', r') (((l, r), q) :: o.exprs) = some q' := by rw [h.ov] at hq; exact hq
  rw [List.lookup_cons] at hq
  split at hq
  · next e =>
    have e : (l', r') = (l, r) := by simpa using e
    injection e with e1 e2; injection hq with hq; subst e1 e2 hq
    refine ⟨hlr, hr, ?_, h.int, fun α hα => ((h.mean α).mp hα).2⟩
    rw [h.lit, h.nv]
    exact Nat.lt_succ_self _
  · obtain ⟨a, b, c, d, e⟩ := hi.eq l' r' q' hq
    exact ⟨a, b, Nat.lt_of_lt_of_le c h.grows.nv, d, fun α hα => e α (h.grows.sol hα)⟩

/-- What `new_eq` does, in the order of the variables. -/
theorem newEq_ord {s : Sat T} {o : OV V} {x y : Nat} {s' : Sat T} {o' : OV V} {q : Lit} (hn : OV.newEq E D s o x y = .ok (s', o', q)) :
    (x = y ∧ s' = s ∧ o' = o ∧ q = TRUE_lit) ∨
      ∃ l r, l < r ∧ r < o.doms.length ∧ ((l = x ∧ r = y) ∨ (l = y ∧ r = x)) ∧ newEqOrd E D s o l r = .ok (s', o', q) := by
  unfold OV.newEq at hn
  split at hn
  · next e =>
    injection hn with hn; injection hn with e1 hn; injection hn with e2 e3
    exact Or.inl ⟨e, e1.symm, e2.symm, e3.symm⟩
  · next hne =>
    split at hn
    · cases hn
    · next hx =>
      rw [not_or, Nat.not_le, Nat.not_le] at hx
      split at hn
      · next hlt => exact Or.inr ⟨y, x, hlt, hx.1, Or.inr ⟨rfl, rfl⟩, hn⟩
      · next hlt => exact Or.inr ⟨x, y, by omega, hx.2, Or.inl ⟨rfl, rfl⟩, hn⟩

theorem newEq_inv {s s' : Sat T} {o o' : OV V} {x y : Nat} {q : Lit} (h : OInv C s o) (hn : OV.newEq E D s o x y = .ok (s', o', q)) :
    OInv C s' o' ∧ OGrows C s o s' o' := by
  rcases newEq_ord hn with ⟨-, rfl, rfl, -⟩ | ⟨l, r, hlr, hr, -, ho⟩
  · exact ⟨h, OGrows.refl _ _⟩
  · rcases newEqOrd_cases h (Nat.lt_trans hlr hr) hr ho with ⟨rfl, rfl, -⟩ | k
    · exact ⟨h, OGrows.refl _ _⟩
    · exact ⟨k.inv h hlr hr, k.ogrows⟩

theorem foldl_emplace : ∀ (ps : List (V × Lit)) (m : List (V × Lit)), (m.map Prod.fst).Nodup →
    ((ps.foldl (fun m p => emplace m p.1 p.2) m).map Prod.fst).Nodup ∧
    (∀ a, a ∈ (ps.foldl (fun m p => emplace m p.1 p.2) m).map Prod.fst ↔ a ∈ m.map Prod.fst ∨ a ∈ ps.map Prod.fst) ∧
    (∀ p ∈ ps.foldl (fun m p => emplace m p.1 p.2) m, p ∈ m ∨ p ∈ ps) ∧ (∀ p ∈ m, p ∈ ps.foldl (fun m p => emplace m p.1 p.2) m)
  | [], m, h => ⟨h, fun a => by simp, fun p hp => Or.inl hp, fun p hp => hp⟩
  | p :: ps, m, h => by
    obtain ⟨a, b, c, d⟩ := foldl_emplace ps (emplace m p.1 p.2) (emplace_nodup h _ _)
    refine ⟨a, fun x => ?_, fun x hx => ?_, fun x hx => d x (emplace_sub hx)⟩
    · rw [List.foldl_cons, b, emplace_keys, List.map_cons, List.mem_cons]
      exact or_assoc
    · rcases c x hx with h1 | h1
      · rcases emplace_mem h1 with h2 | h2
        · exact Or.inl h2
        · exact Or.inr (h2 ▸ List.mem_cons_self)
      · exact Or.inr (List.mem_cons_of_mem _ h1)

theorem newVarLits_made {s : Sat T} {o o' : OV V} {lits : List Lit} {vals : List V} {x : Nat} (hv : ∀ l ∈ lits, l.var < s.nvars)
    (hn : o.newVarLits lits vals = .ok (o', x)) :
    x = o.doms.length ∧ o'.exprs = o.exprs ∧ ∃ m, o'.doms = o.doms ++ [m] ∧ DomOK s m ∧ (∀ a, a ∈ m.map Prod.fst ↔ a ∈ vals) ∧ (∀ p ∈ m, p ∈ vals.zip lits) := by
  unfold OV.newVarLits at hn
  split at hn
  · cases hn
  · next h0 =>
    rw [not_or, not_not] at h0
    injection hn with hn; injection hn with e1 e2; subst e1 e2
    obtain ⟨a, b, c, -⟩ := foldl_emplace (vals.zip lits) [] (by simp)
    have hk : ∀ a, a ∈ ((vals.zip lits).foldl (fun m p => emplace m p.1 p.2) []).map Prod.fst ↔ a ∈ vals := by
      intro x
      rw [b, List.map_fst_zip (Nat.le_of_eq h0.2.symm)]
      simp
    have hc : ∀ p ∈ (vals.zip lits).foldl (fun m p => emplace m p.1 p.2) [], p ∈ vals.zip lits := fun p hp => (c p hp).resolve_left (by simp)
    refine ⟨rfl, rfl, _, rfl, ⟨fun e => ?_, a, fun p hp => hv _ (List.of_mem_zip (hc p hp)).2⟩, hk, hc⟩
    match vals, lits, h0, e, hk with
    | [], [], h0, _, _ => exact h0.1 rfl
    | [], _ :: _, h0, _, _ => simp at h0
    | v :: vs, _, _, e, hk =>
      have := (hk v).mpr List.mem_cons_self
      rw [e] at this
      cases this

theorem OCall.inv {a b : Sat T × OV V} (hc : OCall E C i D a b) (h : OInv C a.1 a.2) : OInv C b.1 b.2 ∧ OGrows C a.1 a.2 b.1 b.2 := by
  cases hc with
  | @step s s' o op out hsf hs =>
    have h1 := Sat.step_rinv h.rinv hsf hs
    have g := Sat.step_grows h.rinv hsf hs
    have og : OGrows C s o s' o := ⟨g, List.prefix_rfl, fun _ _ h => h⟩
    exact ⟨h.grow h1 og (fun m hm => Or.inl hm) rfl, og⟩
  | @theory s o t hth hti =>
    have h1 : ({ s with th := t } : Sat T).RInv C := h.rinv.theory hth hti
    have og : OGrows C s o { s with th := t } o := ⟨⟨fun _ h => h, hth, fun _ h => h, Nat.le_refl _, id⟩, List.prefix_rfl, fun _ _ h => h⟩
    exact ⟨h.grow h1 og (fun m hm => Or.inl hm) rfl, og⟩
  | @newVar s s' o o' items enf x hn =>
    have k := newVar_made h.rinv hn
    obtain ⟨m, hd, h1, h2, h3, h4, h5, -⟩ := k.dom
    have og : OGrows C s o s' o' := ⟨k.grows, by rw [hd]; exact List.prefix_append _ _, fun k' q hq => by rw [k.exprs]; exact hq⟩
    refine ⟨h.grow k.rinv og (fun m' hm => ?_) k.exprs, og⟩
    rw [hd, List.mem_append, List.mem_singleton] at hm
    rcases hm with hm | rfl
    · exact Or.inl hm
    · exact Or.inr ⟨h1, h2, h5⟩
  | @newVarLits s o o' lits vals x hv hn =>
    obtain ⟨hx, he, m, hd, hm, -⟩ := newVarLits_made hv hn
    have og : OGrows C s o s o' := ⟨Sat.Grows.refl C _, by rw [hd]; exact List.prefix_append _ _, fun k' q hq => by rw [he]; exact hq⟩
    refine ⟨h.grow h.rinv og (fun m' hm' => ?_) he, og⟩
    rw [hd, List.mem_append, List.mem_singleton] at hm'
    rcases hm' with hm' | rfl
    · exact Or.inl hm'
    · exact Or.inr hm
  | newEq hn => exact newEq_inv h hn

theorem OCalls.inv {a b : Sat T × OV V} (hc : OCalls E C i D a b) (h : OInv C a.1 a.2) : OInv C b.1 b.2 ∧ OGrows C a.1 a.2 b.1 b.2 := by
  induction hc with
  | refl => exact ⟨h, OGrows.refl _ _⟩
  | tail _ h2 ih => exact ⟨(h2.inv ih.1).1, ih.2.trans (h2.inv ih.1).2⟩

theorem OReach.inv {a : Sat T × OV V} (h : OReach E C i D a) : OInv C a.1 a.2 := by
  induction h with
  | @init t hti =>
    refine ⟨(Sat.Reach.init (E := E) hti).rinv, fun m hm => ?_, fun l r q hq => ?_⟩
    · cases hm
    · cases hq
  | call _ h2 ih => exact (h2.inv ih).1

end OV
end Semitone
