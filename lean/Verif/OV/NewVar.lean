import Verif.OV.Core

/-!
# Object variables: `new_var`
-/
namespace Semitone
namespace OV
variable {T V : Type} [DecidableEq V] {E : Env} {O : TheoryOps T} {C : Contract O} {i : Nat}

/-- `new_exct_one` on new positive literals: what it returns implies that exactly one is true, and any of them can be the one. -/
theorem exo_fresh {s s1 : Sat T} {m : List (V × Lit)} {lits : List Lit} (h : s.RInv C) (h1 : s1.RInv C) (hr : s.root = true) (hS : Same s s1)
    (hn : s.nvars ≤ s1.nvars) (hf : Fr s.nvars s1.nvars m) (hl : ∀ l, l ∈ lits ↔ l ∈ m.map Prod.snd) (hne : m ≠ []) :
    ∃ s2 r, s1.newEXO E lits = .ok (s2, r) ∧ Sat.Defd C s1 s2 ∧ r.var < s2.nvars ∧ (∀ α, s2.Sol C.Th α → α.sat r → α.exactlyOne (m.map Prod.snd)) ∧
      (s.Local C.Th → ∀ α, s.Sol C.Th α → ∀ p ∈ m, ∃ β, Asg.agree s.nvars α β ∧ s2.Sol C.Th β ∧ β.sat r ∧ β.sat p.2) := by
  have hi := h1.inv
  have hroot : s1.root = true := by unfold Sat.root; rw [hS.lim]; exact hr
  have hmem : ∀ l ∈ lits, l.sign = true ∧ s.nvars ≤ l.var ∧ l.var < s1.nvars := by
    intro l hl'
    obtain ⟨p, hp, rfl⟩ := List.mem_map.mp ((hl l).mp hl')
    exact hf.rng p hp
  have hval : ∀ l ∈ lits, s1.value l = none := by
    intro l hl'
    rw [Sat.value_none, hS.assigns]
    by_contra hx
    exact absurd (h.inv.wf.rng _ hx) (Nat.not_lt.mpr (hmem l hl').2.1)
  have hv : ∀ l ∈ lits, l.var < s1.nvars := fun l hl' => (hmem l hl').2.2
  have hp := E.sortVar_perm lits
  have hnt : ∀ l ∈ E.sortVar lits, s1.value l ≠ some true := fun l hl' => by rw [hval l (hp.mem_iff.1 hl')]; simp
  obtain ⟨s2, r, e1, e2, -⟩ := Sat.newEXO_spec (E := E) (C := C) hi hroot hv
  obtain ⟨out, ho, hsub, hon, ho2⟩ := Sat.amoFilt_some s1.value (E.sortVar lits) none hnt
  have A := e2 out ho
  have hout : ∀ l, l ∈ out ↔ l ∈ m.map Prod.snd := by
    intro l
    rw [← hl]
    refine ⟨fun h => hp.mem_iff.1 (hsub.subset h), fun h => ?_⟩
    rcases ho2 l (hp.mem_iff.2 h) with h2 | h2 | h2
    · exact h2
    · rw [hval l h] at h2; cases h2
    · cases h2
  have hexo : ∀ α : Asg, α.exactlyOne out ↔ α.exactlyOne (m.map Prod.snd) := by
    intro α
    unfold Asg.exactlyOne Asg.clause Asg.atMostOne
    simp only [hout]
  refine ⟨s2, r, e1, A.defd, A.var, fun α hα hx => (hexo α).mp (A.rel α hα hx), fun hL α hα p hp' => ?_⟩
  -- the assignment that selects `p`
  have hpr := hf.rng p hp'
  let γ : Asg := fun v => if v < s.nvars then α v else decide (v = p.2.var)
  have hag : Asg.agree s.nvars α γ := fun v hv => by simp [γ, hv]
  have hγs : s.Sol C.Th γ := h.inv.sol_agree hL hag hα
  have hγ1 : s1.Sol C.Th γ := ⟨hγs.1, by rw [hS.posted]; exact hγs.2.1, by rw [hS.th]; exact hγs.2.2⟩
  have hsat : ∀ q ∈ m, (γ.sat q.2 ↔ q.2 = p.2) := by
    intro q hq
    obtain ⟨a, b, c⟩ := hf.rng q hq
    have : γ q.2.var = decide (q.2.var = p.2.var) := by simp [γ, Nat.not_lt.mpr b]
    unfold Asg.sat
    rw [this, a, decide_eq_true_eq]
    refine ⟨fun e => ?_, fun e => by rw [e]⟩
    cases hq2 : q.2; cases hp2 : p.2
    rw [hq2] at a e; rw [hp2] at hpr e
    simp_all
  have hsatp : γ.sat p.2 := (hsat p hp').mpr rfl
  have hex : γ.exactlyOne out := by
    rw [hexo]
    refine ⟨⟨p.2, List.mem_map.mpr ⟨p, hp', rfl⟩, hsatp⟩, fun x hx y hy sx sy => ?_⟩
    obtain ⟨q, hq, rfl⟩ := List.mem_map.mp hx
    obtain ⟨q', hq', rfl⟩ := List.mem_map.mp hy
    exact ((hsat q hq).mp sx).trans ((hsat q' hq').mp sy).symm
  have hL1 : s1.Local C.Th := fun α β hab => by
    rw [hS.th]; exact hL α β (fun v hv => hab v (Nat.lt_of_lt_of_le hv hn))
  have hcache : ∀ k ms r, ms ≠ [] → (∀ l ∈ ms, l ∈ out) → (Sat.key k ms, r) ∉ s1.exprs := by
    intro k ms r hms hsb hm
    obtain ⟨a, -, -⟩ := h.inv.cache k ms r (hS.exprs k ms r hm)
    obtain ⟨l, hl'⟩ := List.exists_mem_of_ne_nil ms hms
    have h3 := (hmem l ((hl l).mpr ((hout l).mp (hsb l hl')))).2.1
    exact absurd (a l hl') (Nat.not_lt.mpr h3)
  have hfind : ∀ k ms, ms ≠ [] → (∀ l ∈ ms, l ∈ out) → s1.findExpr (Sat.key k ms) = none := by
    intro k ms hms hsb
    match hfx : s1.findExpr (Sat.key k ms) with
    | none => rfl
    | some r => exact absurd (Sat.findExpr_mem hfx) (hcache k ms r hms hsb)
  have hno : out ≠ [] := by
    intro e
    obtain ⟨p, hp⟩ := List.exists_mem_of_ne_nil m hne
    have := (hout p.2).mpr (List.mem_map.mpr ⟨p, hp, rfl⟩)
    rw [e] at this
    cases this
  by_cases hlen : 2 ≤ out.length
  · have hnd : out.Nodup := by
      refine Sat.amoFilt_nodup s1.value _ none out (E.sortVar_sorted lits) (fun l hl1 hl2 => ?_) hnt ho
      have a := (hmem l (hp.mem_iff.1 hl1)).1
      have b := (hmem _ (hp.mem_iff.1 hl2)).1
      rw [Lit.neg_sign, a] at b
      cases b
    obtain ⟨β, b1, b2, b3⟩ := A.fresh hlen (hfind _ out hno (fun _ h => h)) (fun ms hms => hfind _ ms (fun e => by
      obtain ⟨l, hl'⟩ := List.exists_mem_of_ne_nil out hno
      have := (hms l).mpr hl'
      rw [e] at this
      cases this) (fun l hl' => (hms l).1 hl')) hL1 γ hγ1 true (fun _ => ⟨hex.1, Sat.Alone.of_amo hnd hex.2⟩)
    refine ⟨β, fun v hv => (hag v hv).trans (b1 v (Nat.lt_of_lt_of_le hv hn)), b2, b3.mpr rfl, ?_⟩
    unfold Asg.sat
    rw [← b1 _ hpr.2.2]
    exact hsatp
  · match hout' : out, hlen, hno with
    | [l], _, _ =>
      have hl1 : l ∈ lits := (hl l).mpr ((hout l).mp List.mem_cons_self)
      obtain ⟨f1, f2⟩ := A.one l rfl (hmem l hl1).1
      subst f1 f2
      have : p.2 = r := List.mem_singleton.mp ((hout p.2).mpr (List.mem_map.mpr ⟨p, hp', rfl⟩))
      exact ⟨γ, hag, hγ1, this ▸ hsatp, hsatp⟩
    | _ :: _ :: _, hlen, _ => simp at hlen

/-- What `new_var(items)` does. -/
structure Made (C : Contract O) (s : Sat T) (o : OV V) (items : List V) (enf : Bool) (s' : Sat T) (o' : OV V) (x : Nat) : Prop where
  rinv : s'.RInv C
  grows : Sat.Grows C s s'
  th : s'.th = s.th
  dec : s'.decisions = s.decisions
  x : x = o.doms.length
  exprs : o'.exprs = o.exprs
  dom : ∃ m, o'.doms = o.doms ++ [m] ∧ m ≠ [] ∧ (m.map Prod.fst).Nodup ∧ (m.map Prod.snd).Nodup ∧ (∀ a, a ∈ m.map Prod.fst ↔ a ∈ items) ∧ (∀ p ∈ m, p.2.var < s'.nvars) ∧
    (2 ≤ items.length → ∀ p ∈ m, p.2.sign = true ∧ s.nvars ≤ p.2.var) ∧
    (enf = true ∨ items.length ≤ 1 → ∀ α, s'.Sol C.Th α → α.exactlyOne (m.map Prod.snd)) ∧
    (enf = false → s'.posted = s.posted) ∧
    (s.Local C.Th → ∀ α, s.Sol C.Th α → ∀ p ∈ m, ∃ β, Asg.agree s.nvars α β ∧ s'.Sol C.Th β ∧ β.sat p.2)

theorem lookup_lits {m : List (V × Lit)} {items : List V} (hn : (m.map Prod.fst).Nodup) (hk : ∀ a, a ∈ m.map Prod.fst ↔ a ∈ items) (l : Lit) :
    l ∈ items.map (fun a => (m.lookup a).getD FALSE_lit) ↔ l ∈ m.map Prod.snd := by
  constructor
  · intro h
    obtain ⟨a, ha, rfl⟩ := List.mem_map.mp h
    obtain ⟨p, hp, rfl⟩ := List.mem_map.mp ((hk a).mpr ha)
    rw [(mem_iff_lookup hn p).mp hp]
    exact List.mem_map.mpr ⟨p, hp, rfl⟩
  · intro h
    obtain ⟨p, hp, rfl⟩ := List.mem_map.mp h
    refine List.mem_map.mpr ⟨p.1, (hk p.1).mp (List.mem_map.mpr ⟨p, hp, rfl⟩), ?_⟩
    rw [(mem_iff_lookup hn p).mp hp]
    rfl

theorem newVar_made {s s' : Sat T} {o o' : OV V} {items : List V} {enf : Bool} {x : Nat} (h : s.RInv C) (hn : OV.newVar E i s o items enf = .ok (s', o', x)) :
    Made C s o items enf s' o' x := by
  unfold OV.newVar at hn
  split at hn
  · cases hn
  · next a =>
    injection hn with hn; injection hn with e1 hn; injection hn with e2 e3; subst e1 e2 e3
    refine ⟨h, Sat.Grows.refl C s, rfl, rfl, rfl, rfl, [(a, TRUE_lit)], rfl, by simp, by simp, by simp, by simp, ?_, by simp, fun _ α hα => ?_, fun _ => rfl, fun _ α hα p hp => ?_⟩
    · intro p hp
      rw [List.mem_singleton] at hp
      subst hp
      exact h.inv.wf.nv
    · have ht := Sat.sat_true_lit hα
      refine ⟨⟨TRUE_lit, by simp, ht⟩, fun x hx y hy _ _ => ?_⟩
      simp only [List.map_cons, List.map_nil, List.mem_singleton] at hx hy
      rw [hx, hy]
    · rw [List.mem_singleton] at hp
      subst hp
      exact ⟨α, fun _ _ => rfl, hα, Sat.sat_true_lit hα⟩
  · next h0 h1 =>
    have hlen : 2 ≤ items.length := by
      match items, h0, h1 with
      | [], h0, _ => exact absurd rfl h0
      | [a], _, h1 => exact absurd rfl (h1 a)
      | _ :: _ :: _, _, _ => simp
    obtain ⟨r1, r2, r3, r4, r5, r6⟩ := fresh_spec (C := C) (i := i) o.doms.length items s [] o.cont s.nvars h (Nat.le_refl _) ⟨by simp, by simp, by simp⟩
    simp only at hn
    generalize fresh i o.doms.length items s [] o.cont = f at r1 r2 r3 r4 r5 r6 hn
    obtain ⟨s1, m, c⟩ := f
    simp only at r1 r2 r3 r4 r5 r6 hn
    have r6 : ∀ a, a ∈ m.map Prod.fst ↔ a ∈ items := fun a => by rw [r6]; simp
    rw [← r3] at r5
    have hnv : s.nvars ≤ s1.nvars := by rw [r3]; exact Nat.le_add_right _ _
    have hne : m ≠ [] := by
      intro e
      obtain ⟨a, ha⟩ := List.exists_mem_of_ne_nil items (by intro e; rw [e] at hlen; simp at hlen)
      have := (r6 a).mpr ha
      rw [e] at this
      cases this
    split at hn
    · next he =>
      have hroot : s.root = true := by
        by_contra hx
        have : s1.root = false := by unfold Sat.root; rw [r4.lim]; simpa [Sat.root] using hx
        unfold Sat.newEXO at hn
        rw [if_pos this] at hn
        cases hn
      obtain ⟨s2, r, e1, e2, e3, e4, e5⟩ := exo_fresh (E := E) h r1 hroot r4 hnv r5 (fun l => lookup_lits r5.key r6 l) hne
      rw [e1] at hn
      simp only at hn
      split at hn
      · cases hn
      · cases hn
      · next s3 h3 =>
        injection hn with hn; injection hn with e1' hn; injection hn with e2' e3'; subst e1' e2' e3'
        have h2 : s2.RInv C := e2.rinv r1
        have g2 : Sat.Grows C s1 s2 := e2.grows
        have k := Sat.newClause_spec h2.inv h3
        have st : s2.step E O (.newClause [r]) = .ok (s3, .bool true) := by simp only [Sat.step, h3]; rfl
        have hri : s3.RInv C := Sat.step_rinv h2 (fun e => by cases e) st
        have hg : Sat.Grows C s2 s3 := Sat.step_grows h2 (fun e => by cases e) st
        refine ⟨hri, (r2.trans g2).trans hg, by rw [k.rstep.th, e2.rstep.th, r4.th], by rw [k.rstep.dec, e2.rstep.dec, r4.dec], rfl, rfl, m, rfl, hne, r5.key, r5.lit, r6,
          fun p hp => ?_, fun _ p hp => ⟨(r5.rng p hp).1, (r5.rng p hp).2.1⟩, fun _ α hα => ?_, fun e => ?_, fun hL α hα p hp => ?_⟩
        · exact Nat.lt_of_lt_of_le (r5.rng p hp).2.2 (Nat.le_trans e2.rstep.nv k.rstep.nv)
        · refine e4 α (k.rstep.sol hα) ?_
          have : α.clause [r] := hα.2.1 [r] (by rw [k.posted]; exact List.mem_cons_self)
          obtain ⟨q, hq, hs⟩ := this
          rw [List.mem_singleton] at hq
          exact hq ▸ hs
        · rw [he] at e; cases e
        · obtain ⟨β, b1, b2, b3, b4⟩ := e5 hL α hα p hp
          refine ⟨β, b1, ⟨b2.1, fun D hD => ?_, by rw [k.rstep.th]; exact b2.2.2⟩, b4⟩
          rw [k.posted] at hD
          rcases List.mem_cons.mp hD with rfl | hD
          · exact ⟨r, by simp, b3⟩
          · exact b2.2.1 D hD
    · next he =>
      injection hn with hn; injection hn with e1' hn; injection hn with e2' e3'; subst e1' e2' e3'
      refine ⟨r1, r2, r4.th, r4.dec, rfl, rfl, m, rfl, hne, r5.key, r5.lit, r6, fun p hp => (r5.rng p hp).2.2, fun _ p hp => ⟨(r5.rng p hp).1, (r5.rng p hp).2.1⟩,
        fun e => ?_, fun _ => r4.posted, fun hL α hα p hp => ?_⟩
      · rcases e with e | e
        · exact absurd e he
        · omega
      · have hpr := r5.rng p hp
        let γ : Asg := fun v => if v < s.nvars then α v else true
        have hag : Asg.agree s.nvars α γ := fun v hv => by simp [γ, hv]
        have hγs : s.Sol C.Th γ := h.inv.sol_agree hL hag hα
        refine ⟨γ, hag, ⟨hγs.1, by rw [r4.posted]; exact hγs.2.1, by rw [r4.th]; exact hγs.2.2⟩, ?_⟩
        unfold Asg.sat
        rw [hpr.1]
        simp [γ, Nat.not_lt.mpr hpr.2.1]

/-- `new_var(items)` returns, unless the network has no solution. -/
theorem newVar_total {s : Sat T} {o : OV V} {items : List V} {enf : Bool} (h : s.RInv C) (hr : s.root = true) (hne : items ≠ []) (hL : s.Local C.Th)
    {α : Asg} (hα : s.Sol C.Th α) : ∃ s' o' x, OV.newVar E i s o items enf = .ok (s', o', x) := by
  unfold OV.newVar
  split
  · exact absurd rfl hne
  · exact ⟨_, _, _, rfl⟩
  · next h0 h1 =>
    obtain ⟨r1, r2, r3, r4, r5, r6⟩ := fresh_spec (C := C) (i := i) o.doms.length items s [] o.cont s.nvars h (Nat.le_refl _) ⟨by simp, by simp, by simp⟩
    simp only
    generalize fresh i o.doms.length items s [] o.cont = f at r1 r2 r3 r4 r5 r6
    obtain ⟨s1, m, c⟩ := f
    simp only at r1 r2 r3 r4 r5 r6
    have r6 : ∀ a, a ∈ m.map Prod.fst ↔ a ∈ items := fun a => by rw [r6]; simp
    rw [← r3] at r5
    have hnv : s.nvars ≤ s1.nvars := by rw [r3]; exact Nat.le_add_right _ _
    obtain ⟨a, ha⟩ := List.exists_mem_of_ne_nil items hne
    obtain ⟨p, hp, -⟩ := List.mem_map.mp ((r6 a).mpr ha)
    split
    · obtain ⟨s2, r, e1, e2, e3, e4, e5⟩ := exo_fresh (E := E) h r1 hr r4 hnv r5 (fun l => lookup_lits r5.key r6 l) (List.ne_nil_of_mem hp)
      rw [e1]
      simp only
      have hr2 : s2.root = true := by rw [e2.rstep.root]; unfold Sat.root; rw [r4.lim]; exact hr
      obtain ⟨s3, b, h3⟩ := Sat.newClause_ok (E := E) (lits := [r]) hr2 (fun l hl => by rw [List.mem_singleton] at hl; exact hl ▸ e3)
      rw [h3]
      cases b with
      | true => exact ⟨_, _, _, rfl⟩
      | false =>
        exfalso
        have k := Sat.newClause_spec e2.inv h3
        obtain ⟨β, b1, b2, b3, b4⟩ := e5 hL α hα p hp
        refine (k.bad rfl).1 β ⟨b2.1, fun D hD => ?_, by rw [k.rstep.th]; exact b2.2.2⟩
        rw [k.posted] at hD
        rcases List.mem_cons.mp hD with rfl | hD
        · exact ⟨r, by simp, b3⟩
        · exact b2.2.1 D hD
    · exact ⟨_, _, _, rfl⟩

end OV
end Semitone
