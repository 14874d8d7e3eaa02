import Verif.Sat.Vow

/-!
# At most one, exactly one, and the whole session
-/
namespace Semitone
namespace Sat
variable {T : Type} {O : TheoryOps T} {K : Firm O} {E : Env}

theorem newVars_vow : ∀ (n : Nat) {s : Sat T}, s.Steady K → s.Vow →
    Grown K s (newVars n s).1 ∧ (newVars n s).1.assigns = s.assigns ∧ (newVars n s).1.nvars = s.nvars + n ∧ (newVars n s).2 = (List.range n).map (fun i => ⟨s.nvars + i, true⟩)
  | 0, s, h, hv => ⟨.refl h hv, rfl, rfl, rfl⟩
  | n + 1, s, h, hv => by
    have g := newVar_grown h hv
    have a := (newVar_assigns h.tw).1
    obtain ⟨b1, b2, b3, b4⟩ := newVars_vow n g.st g.vow
    refine ⟨g.trans b1, b2.trans a, ?_, ?_⟩
    · show (newVars n s.newVar.1).1.nvars = _
      rw [b3]; show s.nvars + 1 + n = _; omega
    · show (⟨s.nvars, true⟩ : Lit) :: (newVars n s.newVar.1).2 = _
      rw [b4, List.range_succ_eq_map]
      show (⟨s.nvars, true⟩ : Lit) :: (List.range n).map (fun i => ⟨s.nvars + 1 + i, true⟩) = _
      simp only [List.map_cons, List.map_map, Nat.add_zero]
      congr 1
      apply List.map_congr_left
      intro i _
      simp only [Function.comp]
      congr 1
      omega

/-- What the call on the filtered literals guarantees. -/
def AmoVow (E : Env) (s s' : Sat T) (r : Lit) (ls : List Lit) : Prop :=
  (∀ out, amoFilt s.value none (E.sortVar ls) = some out → ∀ α, s'.Rt α → α.sat r → α.atMostOne out) ∧ (amoFilt s.value none (E.sortVar ls) = none → r = FALSE_lit)

/-- On fresh literals. -/
theorem AmoVow.fresh {s s' : Sat T} {r : Lit} {m n : Nat} (h : AmoVow E s s' r ((List.range n).map (fun i => ⟨m + i, true⟩))) (hun : ∀ i, i < n → s.assigns (m + i) = none) {α : Asg} (hα : s'.Rt α)
    (hr : α.sat r) : ∀ i j, i < n → j < n → α (m + i) = true → α (m + j) = true → i = j := by
  have hp := E.sortVar_perm ((List.range n).map (fun i => (⟨m + i, true⟩ : Lit)))
  have hnn : ∀ l ∈ E.sortVar ((List.range n).map (fun i => (⟨m + i, true⟩ : Lit))), s.value l = none := by
    intro l hl
    have := hp.mem_iff.1 hl
    rw [List.mem_map] at this
    obtain ⟨i, hi, rfl⟩ := this
    rw [value_none]; exact hun i (List.mem_range.1 hi)
  obtain ⟨out, h1, h2, h3, h4⟩ := amoFilt_some s.value _ none (fun l hl => by rw [hnn l hl]; simp)
  have ham := h.1 out h1 α hα hr
  have hin : ∀ i, i < n → (⟨m + i, true⟩ : Lit) ∈ out := by
    intro i hi
    have hmem : (⟨m + i, true⟩ : Lit) ∈ E.sortVar ((List.range n).map (fun i => (⟨m + i, true⟩ : Lit))) := hp.mem_iff.2 (List.mem_map.2 ⟨i, List.mem_range.2 hi, rfl⟩)
    rcases h4 _ hmem with h5 | h5 | h5
    · exact h5
    · rw [hnn _ hmem] at h5; cases h5
    · cases h5
  intro i j hi hj si sj
  have := ham _ (hin i hi) _ (hin j hj) si sj
  injection this with e _
  omega

theorem newAMOGo_vow (f : Nat) : ∀ {s s' : Sat T} {ls : List Lit} {r : Lit}, s.Steady K → s.Vow → newAMOGo E f s ls = .ok (s', r) →
    s'.dead = true ∨ (Grown K s s' ∧ s'.assigns = s.assigns ∧ AmoVow E s s' r ls) := by
  induction f with
  | zero => intro s s' ls r h hv he; cases he
  | succ f ih =>
    intro s s' ls r h hv he
    unfold newAMOGo at he
    split at he
    · cases he
    next hr =>
    have hr : s.root = true := by simpa using hr
    split at he
    · cases he
    next hin =>
    have hin : ∀ l ∈ ls, l.var < s.nvars := inRange_true hin
    match hf : amoFilt s.value none (E.sortVar ls) with
    | none =>
      simp only [hf] at he
      injection he with he; injection he with e1 e2; subst e1; subst e2
      exact .inr ⟨.refl h hv, rfl, by unfold AmoVow; rw [hf]; exact ⟨(fun _ e => by cases e), fun _ => rfl⟩⟩
    | some [] =>
      simp only [hf] at he
      injection he with he; injection he with e1 e2; subst e1; subst e2
      refine .inr ⟨.refl h hv, rfl, ?_⟩
      unfold AmoVow; rw [hf]
      refine ⟨fun out e α hα _ => ?_, (fun e => by cases e)⟩
      injection e with e; subst e
      intro x hx; cases hx
    | some [x] =>
      simp only [hf] at he
      injection he with he; injection he with e1 e2; subst e1; subst e2
      refine .inr ⟨.refl h hv, rfl, ?_⟩
      unfold AmoVow; rw [hf]
      refine ⟨fun out e α hα _ => ?_, (fun e => by cases e)⟩
      injection e with e; subst e
      intro y hy z hz _ _
      simp at hy hz; rw [hy, hz]
    | some (l0 :: l1 :: r') =>
      simp only [hf] at he
      have hkey : "amo" ++ litsStr (l0 :: l1 :: r') = key .amo (l0 :: l1 :: r') := rfl
      rw [hkey] at he
      obtain ⟨hsub, hnn⟩ := amoFilt_sublist _ _ _ _ hf
      have hrng : ∀ l ∈ l0 :: l1 :: r', l.var < s.nvars := fun l hl => hin l ((E.sortVar_perm ls).mem_iff.1 (hsub.subset hl))
      have fin : ∀ {u : Sat T} {q : Lit}, (∀ α, u.Rt α → α.sat q → α.atMostOne (l0 :: l1 :: r')) → AmoVow E s u q ls := by
        intro u q hx
        unfold AmoVow; rw [hf]
        refine ⟨fun out e => ?_, (fun e => by cases e)⟩
        injection e with e; subst e; exact hx
      generalize hout : l0 :: l1 :: r' = out at *
      match hfe : s.findExpr (key .amo out) with
      | some c =>
        simp only [hfe] at he
        injection he with he; injection he with e1 e2; subst e1; subst e2
        exact .inr ⟨.refl h hv, rfl, fin (fun α hα => hv _ _ _ (findExpr_mem hfe) α hα)⟩
      | none =>
        simp only [hfe] at he
        split at he
        · have hnv : s.newVar.2 = s.nvars := rfl
          rw [hnv] at he
          have hdef : ∀ α : Asg, (∀ c ∈ (pairs out).map (fun (a, b) => [a.neg, b.neg, Lit.neg ⟨s.nvars, true⟩]), α.clause c) → mean .amo α out ⟨s.nvars, true⟩ := by
            intro α hc hs
            refine Alone.amo ?_
            rw [← pairs_alone]
            intro p hp hpp
            obtain ⟨l, hl, hls⟩ := hc _ (List.mem_map.2 ⟨p, hp, rfl⟩)
            simp at hl
            rcases hl with rfl | rfl | rfl
            · exact (α.sat_neg _).1 hls hpp.1
            · exact (α.sat_neg _).1 hls hpp.2
            · exact (α.sat_neg _).1 hls hs
          rcases define_new h hv hr he hdef (by
              intro c hc
              rw [List.mem_map] at hc
              obtain ⟨⟨a, b⟩, hp, rfl⟩ := hc
              have := mem_pairs hp
              refine ⟨Lit.neg ⟨s.nvars, true⟩, by simp, a.neg, by simp, rfl, hrng a this.1, ?_⟩
              rw [value_neg, hnn a this.1]; rfl) with hd | ⟨e, g, q, c⟩
          · exact .inl hd
          · exact .inr ⟨g, q, fin (fun α hα => by rw [e]; exact hdef α (c α hα))⟩
        · next hlen =>
          obtain ⟨p1, p2, q1, q2, q3⟩ := grid_size (by omega : 4 ≤ out.length)
          generalize hps : ceilSqrt out.length = ps at *
          generalize hqs : (out.length + ps - 1) / ps = qs at *
          have hq0 : 0 < qs := by omega
          obtain ⟨a1, a2, a3, a4⟩ := newVars_vow ps h hv
          obtain ⟨b1, b2, b3, b4⟩ := newVars_vow qs a1.st a1.vow
          generalize hn1 : newVars ps s = x1 at *
          obtain ⟨s1, us⟩ := x1
          simp only at a1 a2 a3 a4 b1 b2 b3 b4 he
          generalize hn2 : newVars qs s1 = x2 at *
          obtain ⟨s2, vs⟩ := x2
          simp only at b1 b2 b3 b4 he
          subst a4
          subst b4
          match h3 : newAMOGo E f s2 ((List.range ps).map (fun i => ⟨s.nvars + i, true⟩)) with
          | .error e => rw [h3] at he; cases he
          | .ok (s3, au) =>
            rw [h3] at he
            simp only at he
            match h4 : newAMOGo E f s3 ((List.range qs).map (fun i => ⟨s1.nvars + i, true⟩)) with
            | .error e => rw [h4] at he; cases he
            | .ok (s4, av) =>
              rw [h4] at he
              simp only at he
              match h5 : newConj E s4 [au, av] with
              | .error e => rw [h5] at he; cases he
              | .ok (s5, ctr) =>
                rw [h5] at he
                simp only at he
                rcases ih b1.st b1.vow h3 with hd | ⟨g3, k3, m3⟩
                · exact .inl ((define_adds (K := K) he).dead ((newConj_adds (K := K) h5).dead ((newAMOGo_adds (K := K) f h4).dead hd)))
                rcases ih g3.st g3.vow h4 with hd | ⟨g4, k4, m4⟩
                · exact .inl ((define_adds (K := K) he).dead ((newConj_adds (K := K) h5).dead hd))
                rcases newConj_vow g4.st g4.vow h5 with hd | ⟨g5, k5, m5⟩
                · exact .inl ((define_adds (K := K) he).dead hd)
                have hass : s5.assigns = s.assigns := by rw [k5, k4, k3, b2, a2]
                have hun : ∀ v, s.nvars ≤ v → s.assigns v = none := fun v hv => fresh_none h.tw hv
                rw [a3] at he m4
                have hsz : out.length ≤ qs * ps := q3
                have hmean : ∀ α : Asg, s5.Rt α → (∀ c ∈ gridClauses out ((List.range ps).map (fun i => ⟨s.nvars + i, true⟩)) ((List.range qs).map (fun i => ⟨s.nvars + ps + i, true⟩)) qs ctr, α.clause c) →
                    α.sat ctr → α.atMostOne out := by
                  intro α hα hc hs
                  have hall := (m5 α hα).1 hs
                  have hu := m3.fresh (fun i hi => by rw [b2, a2]; exact hun _ (by omega)) (g4.rt (g5.rt hα)) (hall au (by simp))
                  have hvv := m4.fresh (fun i hi => by rw [k3, b2, a2]; exact hun _ (by omega)) (g5.rt hα) (hall av (by simp))
                  refine Alone.amo ?_
                  rw [alone_iff]
                  intro i j a b hi hj sa sb
                  have hin : ∀ (k : Nat) (l : Lit), out[k]? = some l → α.sat l → α (s.nvars + k / qs) = true ∧ α (s.nvars + ps + k % qs) = true := by
                    intro k l hk sl
                    constructor
                    · obtain ⟨x, hx, sx⟩ := hc _ ((mem_grid hq0 hsz).2 ⟨k, l, hk, Or.inl rfl⟩)
                      simp at hx
                      rcases hx with rfl | rfl | rfl
                      · exact absurd sl ((α.sat_neg _).1 sx)
                      · exact sx
                      · exact absurd hs ((α.sat_neg _).1 sx)
                    · obtain ⟨x, hx, sx⟩ := hc _ ((mem_grid hq0 hsz).2 ⟨k, l, hk, Or.inr rfl⟩)
                      simp at hx
                      rcases hx with rfl | rfl | rfl
                      · exact absurd sl ((α.sat_neg _).1 sx)
                      · exact sx
                      · exact absurd hs ((α.sat_neg _).1 sx)
                  have hlt : ∀ (k : Nat) (l : Lit), out[k]? = some l → k / qs < ps ∧ k % qs < qs := by
                    intro k l hk
                    obtain ⟨h1, -⟩ := List.getElem?_eq_some_iff.1 hk
                    exact ⟨Nat.div_lt_of_lt_mul (by omega), Nat.mod_lt _ hq0⟩
                  have x1 := hu (i / qs) (j / qs) (hlt i a hi).1 (hlt j b hj).1 (hin i a hi sa).1 (hin j b hj sb).1
                  have x2 := hvv (i % qs) (j % qs) (hlt i a hi).2 (hlt j b hj).2 (hin i a hi sa).2 (hin j b hj sb).2
                  have y1 := Nat.div_add_mod i qs
                  have y2 := Nat.div_add_mod j qs
                  rw [x1, x2] at y1
                  omega
                have g := a1.trans (b1.trans (g3.trans (g4.trans g5)))
                rcases define_vow g5.st g5.vow (by rw [g.root]; exact hr) he hmean with hd | ⟨e, g6, c6, q6⟩
                · exact .inl hd
                refine .inr ⟨g.trans g6, ?_, fin (fun α hα hs => ?_)⟩
                · rw [q6, hass]
                  intro c hc
                  obtain ⟨k, x, hk, hc⟩ := (mem_grid hq0 hsz).1 hc
                  obtain ⟨hk1, hk2⟩ := List.getElem?_eq_some_iff.1 hk
                  have hxm : x ∈ out := hk2 ▸ List.getElem_mem hk1
                  have hx := hrng x hxm
                  have hxv : s5.value x.neg = none := by
                    rw [value_none, hass, Lit.neg_var, ← value_none]; exact hnn x hxm
                  rcases hc with rfl | rfl
                  · refine ⟨x.neg, by simp, ⟨s.nvars + k / qs, true⟩, by simp, ?_, hxv, ?_⟩
                    · exact Nat.ne_of_lt (Nat.lt_of_lt_of_le hx (Nat.le_add_right _ _))
                    · rw [value_none, hass]; exact hun _ (Nat.le_add_right _ _)
                  · refine ⟨x.neg, by simp, ⟨s.nvars + ps + k % qs, true⟩, by simp, ?_, hxv, ?_⟩
                    · show x.var ≠ s.nvars + ps + k % qs; omega
                    · rw [value_none, hass]; exact hun _ (by show s.nvars ≤ s.nvars + ps + k % qs; omega)
                · rw [e] at hs
                  exact hmean α (g6.rt hα) (fun c hc => hα.cls c (c6 c hc)) hs

/-- Literals removed by the filter are false in every assignment considered. -/
theorem filtered_rt {s : Sat T} {ls out : List Lit} (h : s.TW) (hr : s.root = true) (hnt : ∀ l ∈ ls, s.value l ≠ some true) (hf : amoFilt s.value none (E.sortVar ls) = some out) :
    (∀ l ∈ out, l ∈ ls) ∧ ∀ α, s.Rt α → ∀ l ∈ ls, α.sat l → l ∈ out := by
  have hp := E.sortVar_perm ls
  obtain ⟨out', h1, h2, h3, h4⟩ := amoFilt_some s.value (E.sortVar ls) none (fun l hl => hnt l (hp.mem_iff.1 hl))
  rw [hf] at h1; injection h1 with h1; subst h1
  refine ⟨fun l hl => hp.mem_iff.1 (h2.subset hl), ?_⟩
  intro α hα l hl hx
  rcases h4 l (hp.mem_iff.2 hl) with h5 | h5 | h5
  · exact h5
  · exact absurd hx (hα.root_false h hr h5)
  · cases h5

/-- `new_at_most_one`: the literal returned implies the constraint, if no literal was true already (C16). -/
theorem newAMO_vow {s s' : Sat T} {ls : List Lit} {r : Lit} (h : s.Steady K) (hv : s.Vow) (he : s.newAMO E ls = .ok (s', r)) :
    s'.dead = true ∨ (Grown K s s' ∧ s'.assigns = s.assigns ∧ ((∀ l ∈ ls, s.value l ≠ some true) → ∀ α, s'.Rt α → α.sat r → α.atMostOne ls)) := by
  rcases newAMOGo_vow _ h hv he with hd | ⟨g, q, m⟩
  · exact .inl hd
  refine .inr ⟨g, q, fun hnt α hα hs => ?_⟩
  have hr : s.root = true := by
    unfold newAMO newAMOGo at he
    split at he
    · cases he
    · next hr => simpa using hr
  have hp := E.sortVar_perm ls
  obtain ⟨out, h1, -⟩ := amoFilt_some s.value (E.sortVar ls) none (fun l hl => hnt l (hp.mem_iff.1 hl))
  exact amo_filtered ((filtered_rt h.tw hr hnt h1).2 α (g.rt hα)) (m.1 out h1 α hα hs)

/-- `new_exct_one`: the literal returned implies the constraint, if no literal was true already (C17). -/
theorem newEXO_vow {s s' : Sat T} {ls : List Lit} {r : Lit} (h : s.Steady K) (hv : s.Vow) (he : s.newEXO E ls = .ok (s', r)) :
    s'.dead = true ∨ (Grown K s s' ∧ ((∀ l ∈ ls, s.value l ≠ some true) → ∀ α, s'.Rt α → α.sat r → α.exactlyOne ls)) := by
  unfold newEXO at he
  split at he
  · cases he
  next hr =>
  have hr : s.root = true := by simpa using hr
  split at he
  · cases he
  have main : ∀ out, amoFilt s.value none (E.sortVar ls) = some out → ∀ {u : Sat T} {q : Lit}, Onw s u → (∀ α, u.Rt α → α.sat q → α.exactlyOne out) →
      (∀ l ∈ ls, s.value l ≠ some true) → ∀ α, u.Rt α → α.sat q → α.exactlyOne ls := by
    intro out hf u q ho hx hnt α hα hs
    obtain ⟨f1, f2⟩ := filtered_rt h.tw hr hnt hf
    obtain ⟨⟨x, hx1, hx2⟩, hx3⟩ := hx α hα hs
    exact ⟨⟨x, f1 x hx1, hx2⟩, amo_filtered (f2 α (ho.rt hα)) hx3⟩
  match hf : amoFilt s.value none (E.sortVar ls) with
  | none =>
    simp only [hf] at he
    injection he with he; injection he with e1 e2; subst e1; subst e2
    exact .inr ⟨.refl h hv, fun _ α hα hs => absurd hs hα.not_false⟩
  | some [] =>
    simp only [hf] at he
    injection he with he; injection he with e1 e2; subst e1; subst e2
    exact .inr ⟨.refl h hv, fun _ α hα hs => absurd hs hα.not_false⟩
  | some (x :: rest) =>
    simp only [hf] at he
    split at he
    · next l hl =>
      injection he with he; injection he with e1 e2; subst e1; subst e2
      refine .inr ⟨.refl h hv, main _ hf (.refl s) (fun α hα hs => ?_)⟩
      unfold exoOne at hl
      split at hl
      · next y hy =>
        rw [hy]
        split at hl
        · injection hl with hl; subst hl
          exact ⟨⟨_, List.mem_singleton.2 rfl, hs⟩, fun a ha b hb _ _ => by simp at ha hb; rw [ha, hb]⟩
        · cases hl
      · cases hl
    · have hkey : "^" ++ litsStr (x :: rest) = key .exo (x :: rest) := rfl
      rw [hkey] at he
      match hfe : s.findExpr (key .exo (x :: rest)) with
      | some c =>
        simp only [hfe] at he
        injection he with he; injection he with e1 e2; subst e1; subst e2
        exact .inr ⟨.refl h hv, main _ hf (.refl s) (fun α hα => hv _ _ _ (findExpr_mem hfe) α hα)⟩
      | none =>
        simp only [hfe] at he
        obtain ⟨hsub, hnn⟩ := amoFilt_sublist _ _ _ _ hf
        match h1 : s.newAMO E (x :: rest) with
        | .error e => rw [h1] at he; cases he
        | .ok (s1, ctr) =>
          rw [h1] at he
          simp only at he
          rcases newAMO_vow h hv h1 with hd | ⟨g1, -, m1⟩
          · exact .inl ((define_adds (K := K) he).dead hd)
          have hdef : ∀ α : Asg, s1.Rt α → (∀ c ∈ [(x :: rest) ++ [ctr.neg]], α.clause c) → mean .exo α (x :: rest) ctr := by
            intro α hα hc hs
            refine ⟨?_, m1 (fun l hl => by rw [hnn l hl]; simp) α hα hs⟩
            obtain ⟨l, hl, hls⟩ := hc _ (List.mem_singleton.2 rfl)
            rcases List.mem_append.1 hl with hl | hl
            · exact ⟨l, hl, hls⟩
            · simp at hl; rw [hl] at hls; exact absurd hs ((α.sat_neg _).1 hls)
          rcases define_vow g1.st g1.vow (by rw [g1.root]; exact hr) he hdef with hd | ⟨e, g2, c2, -⟩
          · exact .inl hd
          · refine .inr ⟨g1.trans g2, main _ hf (g1.toOnw.trans g2.toOnw) (fun α hα hs => ?_)⟩
            rw [e] at hs
            exact hdef α (g2.rt hα) (fun c hc => hα.cls c (c2 c hc)) hs

end Sat
end Semitone
