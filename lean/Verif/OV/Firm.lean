import Verif.OV.Props
import Verif.Lib.Comp

/-!
# Object variables as one of the theories of the core

The theory keeps its invariant whatever the other theories record, and its constructors mean what they should in the assignments the core can end with.
-/
namespace Semitone
namespace OV
variable {V : Type} [DecidableEq V] {E : Env} {D : OEnv V}

/-- What the core calls (`ov_theory.h:32-35`): nothing happens. -/
def ops : TheoryOps (OV V) where
  ids := [0]
  propagate := fun _ t _ _ => .ok t
  check := fun _ t _ => .ok (t, none)
  push := id
  pop := .ok

/-- The invariant of the theory: the variables bound are existing ones; the domains are well formed. -/
structure FI (t : OV V) (nv : Nat) (b : Nat → List Nat) : Prop where
  one : ∀ v, b v = [] ∨ b v = [0]
  frs : ∀ v, nv ≤ v → b v = []
  dom : ∀ m ∈ t.doms, m ≠ [] ∧ (m.map Prod.fst).Nodup ∧ ∀ p ∈ m, p.2.var < nv

theorem FI.mono {t : OV V} {nv nv' : Nat} {b : Nat → List Nat} (h : FI t nv b) (hn : nv ≤ nv') : FI t nv' b :=
  ⟨h.one, fun v hv => h.frs v (hn.trans hv), fun m hm => ⟨(h.dom m hm).1, (h.dom m hm).2.1, fun p hp => ((h.dom m hm).2.2 p hp).trans_le hn⟩⟩

theorem FI.unbind {t : OV V} {nv : Nat} {b : Nat → List Nat} (h : FI t nv b) (w : Nat) : FI t nv (upd b w []) := by
  refine ⟨fun v => ?_, fun v hv => ?_, h.dom⟩
  · by_cases e : v = w
    · rw [e, upd_self]; exact .inl rfl
    · rw [upd_ne _ _ e]; exact h.one v
  · by_cases e : v = w
    · rw [e, upd_self]
    · rw [upd_ne _ _ e]; exact h.frs v hv

def firm : Firm (ops (V := V)) where
  LI := fun t nv b _ _ _ => FI t nv b
  Done := fun _ => True
  adv := fun h h1 _ _ _ _ => h.mono h1
  pop := fun h hp => by injection hp with hp; subst hp; exact h
  pop_ok := fun _ => ⟨_, rfl⟩
  push := fun h _ _ => h
  prop := fun {t nv b n A P P1 val p} h _ _ _ _ => by
    rcases h.one p.var with e | e
    · exact .inl ⟨e, h⟩
    · exact .inr ⟨0, e, .ok ⟨h, fun _ => h.unbind _⟩⟩
  check := fun h _ _ _ hk => by
    have hk : Except.ok (_, Option.none) = Except.ok (_, _) := hk
    injection hk with hk; injection hk with e1 e2; subst e1 e2
    exact ⟨fun _ => ⟨h, trivial⟩, fun _ e => by cases e⟩
  check_ok := fun _ _ _ _ => ⟨_, rfl⟩

theorem keeps_eq (t0 : OV V) : Keeps (ops (V := V)) (fun t => t = t0) where
  prop := fun _ _ _ _ h => h
  check := fun _ _ _ _ _ h hk => by
    have hk : Except.ok (_, Option.none) = Except.ok (_, _) := hk
    injection hk with hk; injection hk with e1 e2; subst e1; exact h
  push := fun _ h => h
  pop := fun _ _ h hp => by injection hp with hp; subst hp; exact h

variable {s s' : Sat (OV V)} {o : OV V}

/-- Calm and faithful, and nothing retracted. -/
structure Good (s s' : Sat (OV V)) : Prop extends Sat.Onw s s' where
  calm : s'.Calm firm
  vow : s'.Vow
  mild : s.Mild s'
  bnd : ∀ v, v < s.nvars → s'.bounds v = s.bounds v
  th : s'.th = s.th

theorem Good.refl (h : s.Calm firm) (hv : s.Vow) : Good s s := ⟨.refl s, h, hv, .refl s, fun _ _ => rfl, rfl⟩

theorem Good.trans {s1 s2 s3 : Sat (OV V)} (h1 : Good s1 s2) (h2 : Good s2 s3) : Good s1 s3 :=
  ⟨h1.toOnw.trans h2.toOnw, h2.calm, h2.vow, h1.mild.trans h2.mild, fun v hv => (h2.bnd v (hv.trans_le h1.nv)).trans (h1.bnd v hv), h2.th.trans h1.th⟩

/-- The core gets new constraints, at root level. -/
theorem good_adds (h : s.Calm firm) (hr : s.root = true) (ha : ∀ K : Firm (ops (V := V)), Sat.Adds K s s') (hg : s'.dead = true ∨ Sat.Grown firm s s') : s'.dead = true ∨ Good s s' := by
  rcases hg with hd | g
  · exact .inl hd
  rcases (ha firm).calm hr h with hd | hc
  · exact .inl hd
  rcases (ha firm).ok hr h.toSteady with hd | ⟨-, hM⟩
  · exact .inl hd
  rcases (ha (firm.with (keeps_eq s.th))).ok hr (h.with (keeps_eq s.th) rfl).toSteady with hd | ⟨hk, -⟩
  · exact .inl hd
  exact .inr ⟨g.toOnw, hc, g.vow, hM, fun v _ => by rw [(ha firm).bnd], hk.li.2⟩

/-- A new variable of the core, not bound. -/
theorem good_newVar (h : s.Calm firm) (hv : s.Vow) : Good s s.newVar.1 := by
  have g := Sat.newVar_grown h.toSteady hv
  exact ⟨g.toOnw, ⟨g.st, h.qr⟩, g.vow, h.tw.newVar_mild, fun _ _ => rfl, rfl⟩

/-- A new variable of the core, bound to the theory. -/
theorem good_bind (h : s.Calm firm) (hv : s.Vow) : Good s (s.newVar.1.bind s.newVar.2 0) := by
  have g := good_newVar h hv
  have hb : (s.newVar.1.bind s.newVar.2 0).bounds = upd s.bounds s.nvars [0] := by
    show upd s.bounds s.nvars (0 :: (s.bounds s.nvars).erase 0) = _
    rw [h.li.frs s.nvars (Nat.le_refl _)]; rfl
  have hli : FI s.th s.nvars s.bounds := h.li
  refine ⟨⟨g.nv, g.post, g.lit⟩, (g.calm.sound.retheory s.th (upd s.bounds s.nvars (0 :: (s.bounds s.nvars).erase 0))).calm ?_, Sat.Vow.onw g.vow ⟨Nat.le_refl _, fun _ h => h, fun _ h => h⟩ rfl,
    ⟨g.mild.dl, g.mild.nv, g.mild.up, g.mild.low, g.mild.new, g.mild.pen⟩, fun v hvv => ?_, rfl⟩
  · show FI s.th (s.nvars + 1) (upd s.bounds s.nvars (0 :: (s.bounds s.nvars).erase 0))
    rw [hli.frs s.nvars (Nat.le_refl _)]
    refine ⟨fun v => ?_, fun v hvv => ?_, (hli.mono (Nat.le_succ _)).dom⟩
    · by_cases e : v = s.nvars
      · rw [e, upd_self]; exact .inr rfl
      · rw [upd_ne _ _ e]; exact hli.one v
    · rw [upd_ne _ _ (by omega)]; exact hli.frs v (by omega)
  · rw [hb, upd_ne _ _ (Nat.ne_of_lt hvv)]

/-- The variables of the values. -/
theorem fresh_good (id : Nat) : ∀ (items : List V) (s : Sat (OV V)) (m : List (V × Lit)) (c : Nat → List Nat) (n0 : Nat), s.Calm firm → s.Vow → n0 ≤ s.nvars → Fr n0 s.nvars m →
    Good s (fresh 0 id items s m c).1 ∧ (fresh 0 id items s m c).1.assigns = s.assigns ∧ (fresh 0 id items s m c).1.trailLim = s.trailLim ∧ (fresh 0 id items s m c).1.dead = s.dead ∧
    Fr n0 (fresh 0 id items s m c).1.nvars (fresh 0 id items s m c).2.1 ∧
    (∀ a, a ∈ (fresh 0 id items s m c).2.1.map Prod.fst ↔ a ∈ m.map Prod.fst ∨ a ∈ items)
  | [], s, m, c, n0, h, hv, _, hf => ⟨.refl h hv, rfl, rfl, rfl, hf, fun a => by simp [fresh]⟩
  | a :: as, s, m, c, n0, h, hv, h0, hf => by
    have g := good_bind h hv
    have hf1 : Fr n0 (s.newVar.1.bind s.newVar.2 0).nvars (emplace m a ⟨s.newVar.2, true⟩) := hf.emplace h0 a
    obtain ⟨r1, r2, r3, r4, r5, r6⟩ := fresh_good id as (s.newVar.1.bind s.newVar.2 0) (emplace m a ⟨s.newVar.2, true⟩) (contain c s.newVar.2 id) n0 g.calm g.vow (h0.trans (Nat.le_succ _)) hf1
    refine ⟨g.trans r1, r2.trans (Sat.newVar_assigns h.tw).1, r3, r4, r5, fun b => ?_⟩
    show b ∈ (fresh 0 id as _ _ _).2.1.map Prod.fst ↔ _
    rw [r6, emplace_keys, List.mem_cons]
    exact or_assoc

/-- The state of the theory changes. -/
theorem Good.setTh (h : Good s s') {o : OV V} (hd : ∀ m ∈ o.doms, m ∈ s.th.doms ∨ (m ≠ [] ∧ (m.map Prod.fst).Nodup ∧ ∀ p ∈ m, p.2.var < s'.nvars)) :
    ({ s' with th := o } : Sat (OV V)).Calm firm ∧ ({ s' with th := o } : Sat (OV V)).Vow ∧ Sat.Onw s { s' with th := o } ∧ s.Mild { s' with th := o } ∧
      (∀ v, v < s.nvars → ({ s' with th := o } : Sat (OV V)).bounds v = s.bounds v) := by
  have hli : FI s'.th s'.nvars s'.bounds := h.calm.li
  refine ⟨(h.calm.sound.retheory o s'.bounds).calm ?_, Sat.Vow.onw h.vow ⟨Nat.le_refl _, fun _ h => h, fun _ h => h⟩ rfl, ⟨h.nv, h.post, h.lit⟩,
    ⟨h.mild.dl, h.mild.nv, h.mild.up, h.mild.low, h.mild.new, h.mild.pen⟩, h.bnd⟩
  refine ⟨hli.one, hli.frs, fun m hm => ?_⟩
  rcases hd m hm with hm | hm
  · exact hli.dom m (by rw [h.th]; exact hm)
  · exact hm

/-- `new_var(items)`. -/
theorem newVar_good {items : List V} {enf : Bool} {x : Nat} (h : s.Calm firm) (hv : s.Vow) (hn : OV.newVar E 0 s s.th items enf = .ok (s', o, x)) :
    s'.dead = true ∨ (Good s s' ∧ x = s.th.doms.length ∧ o.exprs = s.th.exprs ∧ ∃ m, o.doms = s.th.doms ++ [m] ∧ m ≠ [] ∧ (m.map Prod.fst).Nodup ∧ (m.map Prod.snd).Nodup ∧
      (∀ a, a ∈ m.map Prod.fst ↔ a ∈ items) ∧ (∀ p ∈ m, p.2.var < s'.nvars) ∧ (enf = true ∨ items.length ≤ 1 → ∀ α, s'.Rt α → α.exactlyOne (m.map Prod.snd))) := by
  unfold OV.newVar at hn
  split at hn
  · cases hn
  · next a =>
    injection hn with hn; injection hn with e1 hn; injection hn with e2 e3; subst e1 e2 e3
    refine .inr ⟨.refl h hv, rfl, rfl, [(a, TRUE_lit)], rfl, by simp, by simp, by simp, by simp, ?_, fun _ α hα => ?_⟩
    · intro p hp
      rw [List.mem_singleton] at hp
      subst hp
      exact h.tw.nv
    · refine ⟨⟨TRUE_lit, by simp, hα.sat_true⟩, fun x hx y hy _ _ => ?_⟩
      simp only [List.map_cons, List.map_nil, List.mem_singleton] at hx hy
      rw [hx, hy]
  · next h0 h1 =>
    have hlen : 2 ≤ items.length := by
      match items, h0, h1 with
      | [], h0, _ => exact absurd rfl h0
      | [a], _, h1 => exact absurd rfl (h1 a)
      | _ :: _ :: _, _, _ => simp
    obtain ⟨r1, r2, r3, r4, r5, r6⟩ := fresh_good s.th.doms.length items s [] s.th.cont s.nvars h hv (Nat.le_refl _) ⟨by simp, by simp, by simp⟩
    simp only at hn
    generalize fresh 0 s.th.doms.length items s [] s.th.cont = f at r1 r2 r3 r4 r5 r6 hn
    obtain ⟨s1, m, c⟩ := f
    simp only at r1 r2 r3 r4 r5 r6 hn
    have r6 : ∀ a, a ∈ m.map Prod.fst ↔ a ∈ items := fun a => by rw [r6]; simp
    have hne : m ≠ [] := by
      intro e
      obtain ⟨a, ha⟩ := List.exists_mem_of_ne_nil items (by intro e; rw [e] at hlen; simp at hlen)
      have := (r6 a).mpr ha
      rw [e] at this
      cases this
    split at hn
    · next he =>
      split at hn
      · cases hn
      · next s2 r h2 =>
        split at hn
        · cases hn
        · cases hn
        · next s3 h3 =>
          injection hn with hn; injection hn with e1' hn; injection hn with e2' e3'; subst e1' e2' e3'
          have hr := (Sat.newEXO_pre h2).1
          have v2 := Sat.newEXO_vow r1.calm.toSteady r1.vow h2
          rcases good_adds r1.calm hr (fun K => Sat.newEXO_adds (K := K) h2) (v2.imp_right (·.1)) with hd | g2
          · exact .inl (((Sat.newClause_adds (K := firm) h3).1).dead hd)
          have hr2 : s2.root = true := by rw [(Sat.newEXO_adds (K := firm) h2).root]; exact hr
          have v3 := Sat.newClause_grown g2.calm.toSteady g2.vow hr2 h3
          rcases good_adds g2.calm hr2 (fun K => (Sat.newClause_adds (K := K) h3).1) (v3.imp_right (·.1)) with hd | g3
          · exact .inl hd
          by_cases hd3 : s3.dead = true
          · exact .inl hd3
          have p3 := (v3.resolve_left hd3).2
          have hd2 : ¬ s2.dead = true := fun hd => hd3 (((Sat.newClause_adds (K := firm) h3).1).dead hd)
          have m2 := (v2.resolve_left hd2).2
          refine .inr ⟨r1.trans (g2.trans g3), rfl, rfl, m, rfl, hne, r5.key, r5.lit, r6, fun p hp => ?_, fun _ α hα => ?_⟩
          · exact Nat.lt_of_lt_of_le (r5.rng p hp).2.2 (Nat.le_trans g2.nv g3.nv)
          · have hsat : α.sat r := by
              obtain ⟨q, hq, hs⟩ := hα.cls _ p3
              rw [List.mem_singleton] at hq
              exact hq ▸ hs
            have key := m2 (fun l hl => ?_) α (g3.rt hα) hsat
            · unfold Asg.exactlyOne Asg.clause Asg.atMostOne at key ⊢
              simp only [lookup_lits r5.key r6] at key
              exact key
            · obtain ⟨p, hp, rfl⟩ := List.mem_map.mp ((lookup_lits r5.key r6 l).mp hl)
              have : s1.value p.2 = none := by
                rw [Sat.value_none, r2]
                exact Sat.fresh_none h.tw (r5.rng p hp).2.1
              rw [this]; simp
    · next he =>
      injection hn with hn; injection hn with e1' hn; injection hn with e2' e3'; subst e1' e2' e3'
      refine .inr ⟨r1, rfl, rfl, m, rfl, hne, r5.key, r5.lit, r6, fun p hp => (r5.rng p hp).2.2, fun e => ?_⟩
      rcases e with e | e
      · exact absurd e he
      · omega

/-- `new_eq`: nothing is forgotten, and the literal means the equality of the sets of values. -/
theorem newEqOrd_good {l r : Nat} {q : Lit} (h : s.Calm firm) (hv : s.Vow) (hl : l < s.th.doms.length) (hr : r < s.th.doms.length) (hn : newEqOrd E D s s.th l r = .ok (s', o, q)) :
    s'.dead = true ∨ (Good s s' ∧ ((o = s.th ∧ (s.th.exprs.lookup (l, r) = some q ∨ inter (s.th.dom l) (s.th.dom r) = [] ∧ q = FALSE_lit)) ∨
      (s.th.exprs.lookup (l, r) = none ∧ o = { s.th with exprs := ((l, r), q) :: s.th.exprs } ∧ ∀ α, s'.Rt α → EqMean α (s.th.dom l) (s.th.dom r) q))) := by
  unfold newEqOrd at hn
  split at hn
  · next q' hq =>
    injection hn with hn; injection hn with e1 hn; injection hn with e2 e3; subst e1 e2 e3
    exact .inr ⟨.refl h hv, .inl ⟨rfl, .inl hq⟩⟩
  · next hq =>
    split at hn
    · next hi =>
      injection hn with hn; injection hn with e1 hn; injection hn with e2 e3; subst e1 e2 e3
      exact .inr ⟨.refl h hv, .inl ⟨rfl, .inr ⟨hi, rfl⟩⟩⟩
    · next hi =>
      have hli : FI s.th s.nvars s.bounds := h.li
      have hdl := hli.dom _ (dom_mem hl)
      have hdr := hli.dom _ (dom_mem hr)
      have g1 := good_newVar h hv
      simp only at hn
      split at hn
      · cases hn
      · cases hn
      · next s2 h2 =>
        injection hn with hn; injection hn with e1 hn; injection hn with e2 e3; subst e1 e2 e3
        have hroot : s.newVar.1.root = true := by
          by_contra hx
          have hx : s.newVar.1.root = false := by simpa using hx
          have hne : eqClauses D (s.th.dom l) (s.th.dom r) ⟨s.newVar.2, true⟩ ≠ [] := by
            obtain ⟨p, hp⟩ := List.exists_mem_of_ne_nil _ hi
            obtain ⟨hp1, q', hq'⟩ := mem_inter.mp hp
            intro h0
            have : ∀ c, c ∉ eqClauses D (s.th.dom l) (s.th.dom r) ⟨s.newVar.2, true⟩ := by rw [h0]; simp
            apply this [(⟨s.newVar.2, true⟩ : Lit).neg, p.2.neg, ((s.th.dom r).lookup p.1).getD FALSE_lit]
            unfold eqClauses
            simp only [List.mem_append, List.mem_flatMap, (D.ord_perm _).mem_iff]
            exact Or.inr ⟨p, hp, by simp⟩
          obtain ⟨c0, cs, h0⟩ := List.exists_cons_of_ne_nil hne
          rw [h0] at h2
          unfold Sat.postAll at h2
          have : s.newVar.1.newClause E c0 = .error .assert := by unfold Sat.newClause; rw [if_pos hx]
          rw [this] at h2
          cases h2
        have ad := fun K : Firm (ops (V := V)) => Sat.postAll_adds (K := K) _ h2
        have pp := Sat.postAll_posted _ h2
        by_cases hd : s2.dead = true
        · exact .inl hd
        have hM := ((ad firm).ok hroot g1.calm.toSteady).resolve_left hd
        have o2 := hM.2.onw pp.1
        have g2 := (good_adds g1.calm hroot ad (.inr ⟨o2, hM.1, g1.vow.onw o2 (Sat.postAll_exprs _ h2).1, (ad firm).lim⟩)).resolve_left hd
        refine .inr ⟨g1.trans g2, .inr ⟨hq, rfl, fun α hα => ?_⟩⟩
        exact (eqClauses_iff (D := D) hdl.2.1 hdr.2.1 _ α).mp (fun c hc => hα.cls c (pp.2.1 rfl c hc))

end OV
end Semitone
