import Verif.Sat.Check

/-!
# `simplify_db` keeps the invariant and the solutions
-/
namespace Semitone
namespace Sat
variable {T : Type}

/-- `simplifyLits` when no literal is true: the undefined literals remain. -/
theorem simplifyLits_false {val : Lit → Option Bool} {orig : List Lit} (ls : List Lit) : ∀ (kept res : List Lit),
    simplifyLits val orig kept ls = (false, res) →
    (∀ l ∈ ls, val l ≠ some true) ∧ res = kept ++ ls.filter (fun l => decide (val l = none)) := by
  induction ls with
  | nil => intro kept res h; simp [simplifyLits] at h; simp [h]
  | cons l ls ih =>
    intro kept res h
    simp only [simplifyLits] at h
    match hv : val l with
    | some true => rw [hv] at h; simp at h
    | none =>
      rw [hv] at h; simp only at h
      obtain ⟨a, b⟩ := ih _ _ h
      refine ⟨fun x hx => ?_, ?_⟩
      · rcases List.mem_cons.1 hx with rfl | hx
        · simp [hv]
        · exact a x hx
      · rw [b]; simp [hv]
    | some false =>
      rw [hv] at h; simp only at h
      obtain ⟨a, b⟩ := ih _ _ h
      refine ⟨fun x hx => ?_, ?_⟩
      · rcases List.mem_cons.1 hx with rfl | hx
        · simp [hv]
        · exact a x hx
      · rw [b]; simp [hv]

/-- `simplifyLits` when a literal is true. -/
theorem simplifyLits_true {val : Lit → Option Bool} {orig : List Lit} (ls : List Lit) : ∀ (kept res : List Lit),
    simplifyLits val orig kept ls = (true, res) →
    (∃ l ∈ ls, val l = some true) ∧ ∃ k, k <:+: kept ++ ls.filter (fun l => decide (val l = none)) ∧ kept <+: k ∧ res = k ++ orig.drop k.length := by
  induction ls with
  | nil => intro kept res h; simp [simplifyLits] at h
  | cons l ls ih =>
    intro kept res h
    simp only [simplifyLits] at h
    match hv : val l with
    | some true =>
      rw [hv] at h; simp at h
      refine ⟨⟨l, by simp, hv⟩, kept, ?_, List.prefix_refl _, h.symm⟩
      exact (List.prefix_append _ _).isInfix
    | none =>
      rw [hv] at h; simp only at h
      obtain ⟨⟨x, hx, hxv⟩, k, h1, h2, h3⟩ := ih _ _ h
      refine ⟨⟨x, by simp [hx], hxv⟩, k, ?_, (List.prefix_append _ _).trans h2, h3⟩
      simpa [hv] using h1
    | some false =>
      rw [hv] at h; simp only at h
      obtain ⟨⟨x, hx, hxv⟩, k, h1, h2, h3⟩ := ih _ _ h
      refine ⟨⟨x, by simp [hx], hxv⟩, k, ?_, h2, h3⟩
      simpa [hv] using h1

/-- The watched literals survive `clause::simplify` at a fixpoint, whatever it answers. -/
theorem simplifyLits_two {val : Lit → Option Bool} {w w' : Lit} {r : List Lit}
    (h1 : val w = some false → val w' = some true) (h2 : val w' = some false → val w = some true) :
    ∃ r', (simplifyLits val (w :: w' :: r) [] (w :: w' :: r)).2 = w :: w' :: r' ∧ (∀ l ∈ r', l ∈ w :: w' :: r) := by
  have hpre : ∀ (ls kept : List Lit) (b : Bool) res, simplifyLits val (w :: w' :: r) (w :: w' :: kept) ls = (b, res) → (∀ l ∈ kept, l ∈ w :: w' :: r) →
      (∀ l ∈ ls, l ∈ w :: w' :: r) → ∃ r', res = w :: w' :: r' ∧ (∀ l ∈ r', l ∈ w :: w' :: r) := by
    intro ls kept b res h hk hl
    cases b with
    | true =>
      obtain ⟨-, k, i1, i2, i3⟩ := simplifyLits_true _ _ _ h
      obtain ⟨t, rfl⟩ := i2
      refine ⟨kept ++ t ++ List.drop (w :: w' :: kept ++ t).length (w :: w' :: r), by rw [i3]; simp, ?_⟩
      intro l hl'
      rcases List.mem_append.1 hl' with h3 | h3
      · have := i1.subset (show l ∈ w :: w' :: kept ++ t by
          rcases List.mem_append.1 h3 with h4 | h4 <;> simp [h4])
        simp only [List.cons_append, List.mem_cons, List.mem_append, List.mem_filter] at this
        rcases this with rfl | rfl | h4 | h4
        · simp
        · simp
        · exact hk l h4
        · exact hl l h4.1
      · exact List.mem_of_mem_drop h3
    | false =>
      obtain ⟨-, i2⟩ := simplifyLits_false _ _ _ h
      refine ⟨kept ++ ls.filter (fun l => decide (val l = none)), by rw [i2]; simp, ?_⟩
      intro l hl'
      rcases List.mem_append.1 hl' with h3 | h3
      · exact hk l h3
      · exact hl l (List.mem_filter.1 h3).1
  simp only [simplifyLits]
  match hv : val w with
  | some true => exact ⟨r, by simp, fun l hl => by simp [hl]⟩
  | none =>
    simp only [List.nil_append]
    match hv' : val w' with
    | some true => exact ⟨r, by simp, fun l hl => by simp [hl]⟩
    | none =>
      simp only [List.cons_append, List.nil_append]
      exact hpre r [] _ _ (Prod.mk.eta (p := simplifyLits val (w :: w' :: r) [w, w'] r)).symm (by simp) (fun l hl => by simp [hl])
    | some false => have := h2 hv'; rw [hv] at this; cases this
  | some false =>
    simp only
    have := h1 hv
    rw [this]
    exact ⟨r, by simp, fun l hl => by simp [hl]⟩

/-- Effect of `deleteClause`. -/
theorem deleteClause_spec {s : Sat T} {c : Nat} {l0 l1 : Lit} {r : List Lit} (hd : s.db c = l0 :: l1 :: r)
    (hw : ∀ m, (s.watches m).count c = wc (s.db c) m) :
    ∃ w rs, s.deleteClause c = .ok { s with watches := w, reason := rs } ∧
      (∀ m x, (w m).count x = if x = c then 0 else (s.watches m).count x) ∧
      (∀ v, rs v = if v ∈ (s.db c).map Lit.var ∧ s.reason v = some c then none else s.reason v) := by
  unfold deleteClause
  have hm0 : c ∈ s.watches l0.neg := by
    have := hw l0.neg
    rw [hd] at this
    simp only [wc, Lit.neg_neg, if_true] at this
    exact List.count_pos_iff.1 (by omega)
  have hm1 : c ∈ upd s.watches l0.neg ((s.watches l0.neg).erase c) l1.neg := by
    have := hw l1.neg
    rw [hd] at this
    simp only [wc, Lit.neg_neg, if_true] at this
    apply List.count_pos_iff.1
    by_cases e : l1.neg = l0.neg
    · rw [e, upd_self, List.count_erase_self, ← e, this]
      have : l0 = l1 := by rw [← Lit.neg_neg l0, ← e, Lit.neg_neg]
      simp [this]
    · rw [upd_ne _ _ e]; omega
  rw [hd]
  simp only [hm0, hm1, if_true]
  refine ⟨_, _, rfl, ?_, fun v => rfl⟩
  intro m x
  have hwm := hw m
  rw [hd] at hwm
  simp only [wc] at hwm
  have key : ∀ (f : Lit → List Nat) (l : Lit), (upd f l ((f l).erase c) m).count x = (f m).count x - if x = c ∧ m = l then 1 else 0 := by
    intro f l
    by_cases e : m = l
    · subst e
      rw [upd_self, List.count_erase]
      by_cases ex : x = c
      · subst ex; simp
      · simp [ex, Ne.symm ex]
    · rw [upd_ne _ _ e]; simp [e]
  rw [key, key]
  have e0 : (l0 = m.neg) ↔ (m = l0.neg) := ⟨fun h => by rw [h, Lit.neg_neg], fun h => by rw [h, Lit.neg_neg]⟩
  have e1 : (l1 = m.neg) ↔ (m = l1.neg) := ⟨fun h => by rw [h, Lit.neg_neg], fun h => by rw [h, Lit.neg_neg]⟩
  simp only [e0, e1] at hwm
  by_cases ex : x = c
  · subst ex
    simp only [true_and, if_true]
    omega
  · simp [ex]

theorem deleteAll_spec (cs : List Nat) : ∀ (s : Sat T), cs.Nodup → (∀ c ∈ cs, ∃ l0 l1 r, s.db c = l0 :: l1 :: r) →
    (∀ c ∈ cs, ∀ m, (s.watches m).count c = wc (s.db c) m) →
    ∃ w rs, deleteAll cs s = .ok { s with watches := w, reason := rs } ∧
      (∀ m x, (w m).count x = if x ∈ cs then 0 else (s.watches m).count x) ∧
      (∀ v, rs v = none ∨ (rs v = s.reason v ∧ ∀ c ∈ cs, s.reason v = some c → v ∉ (s.db c).map Lit.var)) := by
  induction cs with
  | nil => intro s _ _ _; exact ⟨_, _, rfl, by simp, fun v => Or.inr ⟨rfl, by simp⟩⟩
  | cons c cs ih =>
    intro s hnd hdb hw
    rw [List.nodup_cons] at hnd
    obtain ⟨l0, l1, r, hd⟩ := hdb c (by simp)
    obtain ⟨w, rs, h1, h2, h3⟩ := deleteClause_spec hd (hw c (by simp))
    simp only [deleteAll, h1]
    obtain ⟨w', rs', i1, i2, i3⟩ := ih { s with watches := w, reason := rs } hnd.2 (fun d hd' => hdb d (by simp [hd'])) (by
      intro d hd' m
      show (w m).count d = wc (s.db d) m
      rw [h2, if_neg (fun e : d = c => hnd.1 (e ▸ hd'))]
      exact hw d (by simp [hd']) m)
    refine ⟨w', rs', i1, ?_, ?_⟩
    · intro m x
      rw [i2]
      show (if x ∈ cs then 0 else (w m).count x) = _
      rw [h2]
      by_cases e1 : x ∈ cs <;> by_cases e2 : x = c <;> simp [e1, e2]
    · intro v
      rcases i3 v with h4 | ⟨h4, h5⟩
      · exact Or.inl h4
      · have h4' : rs' v = rs v := h4
        have h5' : ∀ c ∈ cs, rs v = some c → v ∉ (s.db c).map Lit.var := h5
        by_cases hc : v ∈ (s.db c).map Lit.var ∧ s.reason v = some c
        · left; rw [h4', h3, if_pos hc]
        · right
          have h6 : rs v = s.reason v := by rw [h3, if_neg hc]
          refine ⟨by rw [h4', h6], ?_⟩
          intro d hd' hr
          rcases List.mem_cons.1 hd' with e | hd'
          · rw [e] at hr ⊢; exact fun hv => hc ⟨hv, hr⟩
          · exact h5' d hd' (by rw [h6]; exact hr)

/-- The loop of `simplify_db`. -/
theorem simplifyGo_spec (n : Nat) : ∀ (s : Sat T) (kept act rem : List Nat), act.length < n → (kept ++ act ++ rem).Nodup →
    ∃ db' kept' rem', simplifyGo n s kept act rem = ({ s with db := db' }, kept ++ kept', rem' ++ rem) ∧ (kept' ++ rem').Perm act ∧
      (∀ c, c ∉ act → db' c = s.db c) ∧
      (∀ c ∈ kept', simplifyLits s.value (s.db c) [] (s.db c) = (false, db' c)) ∧
      (∀ c ∈ rem', simplifyLits s.value (s.db c) [] (s.db c) = (true, db' c)) := by
  induction n with
  | zero => intro s kept act rem h; omega
  | succ n ih =>
    intro s kept act rem hl hnd
    match act with
    | [] => exact ⟨s.db, [], [], by simp [simplifyGo], by simp, fun _ _ => rfl, by simp, by simp⟩
    | c :: act =>
      simp only [simplifyGo]
      match hx : simplifyLits s.value (s.db c) [] (s.db c) with
      | (true, res) =>
        simp only [if_true]
        have hperm : (swapLast act).Perm act := by
          unfold swapLast
          match hg : act.getLast? with
          | none => rw [List.getLast?_eq_none_iff] at hg; simp [hg]
          | some z =>
            simp only
            have : act = act.dropLast ++ [z] := by
              rw [List.dropLast_append_getLast?]; exact hg
            conv_rhs => rw [this]
            exact (List.perm_append_singleton z _).symm
        generalize swapLast act = act' at hperm ⊢
        have hca : c ∉ act ∧ act.Nodup := by
          have : (c :: act).Nodup := by
            refine List.Nodup.sublist ?_ hnd
            exact (List.sublist_append_right kept (c :: act)).trans (List.sublist_append_left _ rem)
          exact List.nodup_cons.1 this
        obtain ⟨db', k', r', e1, e2, e3, e4, e5⟩ := ih { s with db := upd s.db c res } kept act' (c :: rem)
          (by rw [hperm.length_eq]; simp at hl; omega) (by
            refine (List.Perm.nodup_iff ?_).1 hnd
            simp only [List.append_assoc]
            refine List.Perm.append_left kept ?_
            show (c :: (act ++ rem)).Perm (act' ++ c :: rem)
            refine List.Perm.trans ?_ (List.perm_middle.symm)
            exact List.Perm.cons _ (List.Perm.append_right rem hperm.symm))
        have hmem : ∀ d, d ∈ k' ∨ d ∈ r' → d ∈ act := by
          intro d hd
          exact hperm.subset (e2.subset (List.mem_append.2 hd))
        have hne : ∀ d, d ∈ k' ∨ d ∈ r' → d ≠ c := fun d hd e => hca.1 (e ▸ hmem d hd)
        have hv : ({ s with db := upd s.db c res } : Sat T).value = s.value := rfl
        refine ⟨db', k', r' ++ [c], by rw [e1]; simp, ?_, ?_, ?_, ?_⟩
        · rw [← List.append_assoc]
          exact (List.perm_append_singleton c _).trans (List.Perm.cons _ (e2.trans hperm))
        · intro d hd
          simp at hd
          rw [e3 d (fun h => hd.2 (hperm.subset h))]
          exact upd_ne _ _ hd.1
        · intro d hd
          have := e4 d hd
          rw [hv] at this
          simpa only [upd_ne _ _ (hne d (Or.inl hd))] using this
        · intro d hd
          rcases List.mem_append.1 hd with hd | hd
          · have := e5 d hd
            rw [hv] at this
            simpa only [upd_ne _ _ (hne d (Or.inr hd))] using this
          · have : d = c := by simpa using hd
            subst this
            rw [hx, e3 d (fun h => hca.1 (hperm.subset h))]
            simp
      | (false, res) =>
        simp only [Bool.false_eq_true, if_false]
        have hca : c ∉ act := by
          have : (c :: act).Nodup := by
            refine List.Nodup.sublist ?_ hnd
            exact (List.sublist_append_right kept (c :: act)).trans (List.sublist_append_left _ rem)
          exact (List.nodup_cons.1 this).1
        obtain ⟨db', k', r', e1, e2, e3, e4, e5⟩ := ih { s with db := upd s.db c res } (kept ++ [c]) act rem
          (by simp at hl; omega) (by simpa using hnd)
        have hmem : ∀ d, d ∈ k' ∨ d ∈ r' → d ∈ act := fun d hd => e2.subset (List.mem_append.2 hd)
        have hne : ∀ d, d ∈ k' ∨ d ∈ r' → d ≠ c := fun d hd e => hca (e ▸ hmem d hd)
        have hv : ({ s with db := upd s.db c res } : Sat T).value = s.value := rfl
        refine ⟨db', c :: k', r', by rw [e1]; simp, ?_, ?_, ?_, ?_⟩
        · exact List.Perm.cons _ e2
        · intro d hd
          simp at hd
          rw [e3 d hd.2]
          exact upd_ne _ _ hd.1
        · intro d hd
          rcases List.mem_cons.1 hd with rfl | hd
          · rw [hx, e3 d hca]; simp
          · have := e4 d hd
            rw [hv] at this
            simpa only [upd_ne _ _ (hne d (Or.inl hd))] using this
        · intro d hd
          have := e5 d hd
          rw [hv] at this
          simpa only [upd_ne _ _ (hne d (Or.inr hd))] using this

/-- What removing the satisfied clauses and the false literals leaves. -/
structure Simpl (s s' : Sat T) : Prop where
  fr : s' = { s with db := s'.db, constrs := s'.constrs, watches := s'.watches, reason := fun _ => none }
  wf : s'.WF noEx
  fix : s'.Fix s'.okQ
  kept : ∀ c ∈ s'.constrs, c ∈ s.constrs ∧ s'.db c = (s.db c).filter (fun l => decide (s.value l = none)) ∧ ∀ l ∈ s.db c, s.value l ≠ some true
  gone : ∀ c ∈ s.constrs, c ∉ s'.constrs → ∃ l ∈ s.db c, s.value l = some true

theorem simplify_core {s : Sat T} (hw : s.WF noEx) (hr : s.root = true) (hq : s.propQ = []) (hF : s.Fix s.okQ) :
    ∃ r1 r2 r3 x, simplifyGo (s.constrs.length + 1) s [] s.constrs [] = (r1, r2, r3) ∧ deleteAll r3 r1 = .ok x ∧ Simpl s { x with constrs := r2 } := by
  obtain ⟨db', k, r, e1, e2, e3, e4, e5⟩ := simplifyGo_spec (s.constrs.length + 1) s [] s.constrs [] (by omega) (by simpa using hw.cnd)
  simp only [List.nil_append, List.append_nil] at e1
  have hlv := hw.root_level hr
  have hmem : ∀ c, c ∈ k ∨ c ∈ r ↔ c ∈ s.constrs := fun c => by rw [← List.mem_append]; exact e2.mem_iff
  have hnd : (k ++ r).Nodup := e2.nodup_iff.2 hw.cnd
  rw [List.nodup_append] at hnd
  -- the watched literals survive
  have htwo : ∀ c ∈ s.constrs, ∃ w w' q q', s.db c = w :: w' :: q ∧ db' c = w :: w' :: q' ∧ ∀ l ∈ q', l ∈ s.db c := by
    intro c hc
    obtain ⟨w, w', q, hd⟩ := hw.cln c hc
    have hno : ∀ x, ¬ s.okQ x c := by intro x; simp [okQ, hq]
    obtain ⟨q', h1, h2⟩ := simplifyLits_two (val := s.value) (w := w) (w' := w') (r := q)
      (fun h => by
        rcases hF.fx c hc w w' q (Or.inl hd) h with h1 | h1
        · exact absurd h1 (hno _)
        · exact h1.1)
      (fun h => by
        rcases hF.fx c hc w' w q (Or.inr hd) h with h1 | h1
        · exact absurd h1 (hno _)
        · exact h1.1)
    refine ⟨w, w', q, q', hd, ?_, by rw [hd]; exact h2⟩
    rw [← hd] at h1
    rcases (hmem c).2 hc with hk | hk
    · rw [e4 c hk] at h1; exact h1
    · rw [e5 c hk] at h1; exact h1
  have hwc : ∀ c ∈ s.constrs, ∀ m, wc (db' c) m = wc (s.db c) m := by
    intro c hc m
    obtain ⟨w, w', q, q', h1, h2, -⟩ := htwo c hc
    rw [h1, h2]; rfl
  have hcnt : ∀ c m, (s.watches m).count c = if c ∈ s.constrs then wc (s.db c) m else 0 := by
    intro c m; have := hw.wat c m; simpa [noEx] using this
  obtain ⟨w, rs, d1, d2, d3⟩ := deleteAll_spec r { s with db := db' } hnd.2.1
    (fun c hc => by
      obtain ⟨w, w', q, q', -, h2, -⟩ := htwo c ((hmem c).1 (Or.inr hc))
      exact ⟨w, w', q', h2⟩)
    (fun c hc m => by
      show (s.watches m).count c = wc (db' c) m
      have hc' := (hmem c).1 (Or.inr hc)
      rw [hcnt, if_pos hc', hwc c hc'])
  have hrs : rs = fun _ => none := by
    funext v
    rcases d3 v with h | ⟨h, h'⟩
    · exact h
    · have h : rs v = s.reason v := h
      have h' : ∀ c ∈ r, s.reason v = some c → v ∉ (db' c).map Lit.var := h'
      rw [h]
      match hv : s.reason v with
      | none => rfl
      | some c =>
        exfalso
        obtain ⟨hc, b, rest, hb, hd⟩ := hw.rsn v c hv
        obtain ⟨x, x', q, q', h1, h2, -⟩ := htwo c hc
        rw [hd] at h1
        have hx : x = ⟨v, b⟩ := by injection h1 with h1 _; exact h1.symm
        rcases (hmem c).2 hc with hk | hk
        · have := (simplifyLits_false _ _ _ (e4 c hk)).1 ⟨v, b⟩ (by rw [hd]; simp)
          exact this (by rw [value_true]; exact hb)
        · exact h' c hk hv (by rw [h2, hx]; simp)
  have hkept : ∀ c ∈ k, c ∈ s.constrs ∧ db' c = (s.db c).filter (fun l => decide (s.value l = none)) ∧ ∀ l ∈ s.db c, s.value l ≠ some true := by
    intro c hc
    obtain ⟨h1, h2⟩ := simplifyLits_false _ _ _ (e4 c hc)
    exact ⟨(hmem c).1 (Or.inl hc), by simpa using h2, h1⟩
  have hsub : ∀ c ∈ k, ∀ l ∈ db' c, l ∈ s.db c ∧ s.value l = none := by
    intro c hc l hl
    rw [(hkept c hc).2.1] at hl
    simpa using List.mem_filter.1 hl
  refine ⟨_, _, _, _, e1, d1, ?_⟩
  refine ⟨by rw [hrs], ?_, ?_, hkept, ?_⟩
  · exact {
      nv := hw.nv
      fv := hw.fv
      fvt := hw.fvt
      rng := hw.rng
      tval := hw.tval
      tnd := hw.tnd
      off := hw.off
      rsn := fun v c h => by
        have h : rs v = some c := h
        rw [hrs] at h; cases h
      trs := fun p tr htr c rest h => by
        have h : rs p.var = some c := h
        rw [hrs] at h; cases h
      tlv := hw.tlv
      tdc := fun p tr htr _ => Or.inl (hlv p.var)
      lims := hw.lims
      limle := hw.limle
      dec := hw.dec
      que := hw.que
      cnd := hnd.1
      clt := fun c hc => hw.clt c (hkept c hc).1
      cln := fun c hc => by
        obtain ⟨w, w', q, q', -, h2, -⟩ := htwo c (hkept c hc).1
        exact ⟨w, w', q', h2⟩
      crng := fun c hc l hl => hw.crng c (hkept c hc).1 l (hsub c hc l hl).1
      cnc := fun c hc l hl h => hw.cnc c (hkept c hc).1 l (hsub c hc l hl).1 (hsub c hc _ h).1
      wat := fun c m => by
        show (w m).count c + (noEx m).count c = if c ∈ k then wc (db' c) m else 0
        have : (noEx m).count c = 0 := by simp [noEx]
        rw [this, d2]
        show (if c ∈ r then 0 else (s.watches m).count c) + 0 = _
        rw [hcnt]
        by_cases hk : c ∈ k
        · have hcr : c ∉ r := fun h => hnd.2.2 c hk c h rfl
          rw [if_neg hcr, if_pos hk, if_pos (hkept c hk).1, hwc c (hkept c hk).1]
          rfl
        · by_cases hcr : c ∈ r
          · rw [if_pos hcr, if_neg hk]
          · rw [if_neg hcr, if_neg hk, if_neg (fun h => ((hmem c).2 h).elim hk hcr)] }
  · refine ⟨fun c hc => ?_, ?_⟩
    · have hpw : (db' c).Pairwise (fun a b => a = b → s.rootF a) := by
        rw [(hkept c hc).2.1]
        exact (hF.nd c (hkept c hc).1).1.filter _
      refine ⟨hpw, ?_⟩
      intro w q hd
      have hd : db' c = w :: w :: q := hd
      rw [hd] at hpw
      have h1 := (List.rel_of_pairwise_cons hpw (a' := w) (by simp) rfl).1
      have h2 := (hsub c hc w (by rw [hd]; simp)).2
      rw [h2] at h1; cases h1
    · intro c hc w w' q hd hv
      exfalso
      have hm : w ∈ db' c := by
        rcases hd with hd | hd
        · have hd : db' c = _ := hd
          rw [hd]; simp
        · have hd : db' c = _ := hd
          rw [hd]; simp
      have h1 := (hsub c hc w hm).2
      have hv : s.value w = some false := hv
      rw [h1] at hv; cases hv
  · intro c hc hk
    have hcr : c ∈ r := ((hmem c).2 hc).resolve_left hk
    exact (simplifyLits_true _ _ _ (e5 c hcr)).1

theorem Simpl.sem {O : TheoryOps T} {C : Contract O} {s s' : Sat T} (h : Simpl s s') (hr : s.root = true) (hI : s.Inv C) : s'.Inv C := by
  have hsol : ∀ α, s'.Sol C.Th α ↔ s.Sol C.Th α := by intro α; rw [h.fr]; rfl
  refine ⟨h.wf, ⟨?_, ?_⟩, ?_, ?_, ?_, ?_⟩
  · intro c hc α hα
    obtain ⟨h1, h2, h3⟩ := h.kept c hc
    rw [hsol] at hα
    obtain ⟨l, hl, hs⟩ := hI.sem.cls c h1 α hα
    refine ⟨l, ?_, hs⟩
    rw [h2, List.mem_filter]
    refine ⟨hl, ?_⟩
    match hv : s.value l with
    | none => simp
    | some true => exact absurd hv (h3 l hl)
    | some false => exact absurd hs (hI.root_false hr hv hα)
  · intro q hq α hα hd
    rw [hsol] at hα
    rw [h.fr] at hq hd
    exact hI.sem.val q hq α hα hd
  · rw [h.fr]; exact hI.ti
  · rw [h.fr]; exact hI.qr
  · rw [h.fr]; exact hI.prng
  · have := hI.cache
    intro k ls r hm
    have hm' : (key k ls, r) ∈ s.exprs := by rw [h.fr] at hm; exact hm
    obtain ⟨a, b, c⟩ := this k ls r hm'
    have hn : s'.nvars = s.nvars := by rw [h.fr]
    exact ⟨by rw [hn]; exact a, by rw [hn]; exact b, fun α hα => c α ((hsol α).1 hα)⟩

theorem Simpl.linked {s s' : Sat T} (h : Simpl s s') (hr : s.root = true) (hw : s.WF noEx) {D} (hD : s.Linked D) : s'.Linked D := by
  have hv : s'.value = s.value := by rw [h.fr]; rfl
  have hl : s'.level = s.level := by rw [h.fr]
  rcases hD with ⟨l, hl', h1, h2⟩ | h1 | ⟨c, hc, h1⟩
  · left; exact ⟨l, hl', by rw [hv]; exact h1, by rw [hl]; exact h2⟩
  · exact Or.inr (Or.inl h1)
  · by_cases hk : c ∈ s'.constrs
    · right; right
      refine ⟨c, hk, fun l hl' => ?_⟩
      rw [(h.kept c hk).2.1] at hl'
      exact h1 l (List.mem_filter.1 hl').1
    · obtain ⟨l, hl', h2⟩ := h.gone c hc hk
      left
      exact ⟨l, h1 l hl', by rw [hv]; exact h2, by rw [hl]; exact hw.root_level hr _⟩

/-- What `simplify_db` guarantees. -/
structure SimplF {O : TheoryOps T} (C : Contract O) (s s' : Sat T) (b : Bool) : Prop where
  root : s.root = true
  inv : s'.Inv C
  queue : s'.propQ = []
  root' : s'.root = true
  dec : s'.decisions = s.decisions
  keep : ∀ v, s.assigns v ≠ none → s'.assigns v = s.assigns v ∧ s'.level v = s.level v
  posted : s'.posted = s.posted
  nv : s'.nvars = s.nvars
  exprs : s'.exprs = s.exprs
  linked : ∀ D, s.Linked D → s'.Linked D
  th : ∀ α, C.Th s'.th α ↔ C.Th s.th α
  dead : s.dead = true → s'.dead = true
  bad : s'.dead = true → s.dead = true ∨ (b = false ∧ s.Unsat C.Th)
  ans : b = false → s'.dead = true ∧ s.Unsat C.Th
  fix : b = true → s'.Fix s'.okQ

theorem simplifyDb_spec {E : Env} {O : TheoryOps T} {C : Contract O} {s s' : Sat T} {b : Bool} (h : s.Inv C)
    (hF : ∀ u, s.propagate E O = .ok (u, true) → u.Fix u.okQ) (hs : s.simplifyDb E O = .ok (s', b)) : SimplF C s s' b := by
  unfold simplifyDb at hs
  by_cases hr : s.root = false
  · rw [if_pos hr] at hs; cases hs
  rw [if_neg hr] at hs
  have hr' : s.root = true := by simpa using hr
  have hkeep : ∀ u b, Done C s u b → u.root = true ∧ u.decisions = s.decisions ∧ ∀ v, s.assigns v ≠ none → u.assigns v = s.assigns v ∧ u.level v = s.level v := by
    intro u b d
    have h0 := (root_iff s).1 hr'
    have h1 := d.evo.dl
    refine ⟨(root_iff u).2 (by omega), ?_, ?_⟩
    · rw [h.wf.root_dec hr', d.inv.wf.root_dec ((root_iff u).2 (by omega))]
    · intro v hv
      have := d.evo.low v hv (by have := h.wf.level_le v; omega)
      exact ⟨this.1, this.2.1⟩
  match hp : s.propagate E O with
  | .error e => rw [hp] at hs; cases hs
  | .ok (u, false) =>
    rw [hp] at hs
    simp only at hs
    injection hs with hs; injection hs with e1 e2; subst e1 e2
    have d := propagate_spec h hp
    obtain ⟨a, b, c⟩ := hkeep _ _ d
    have hb := d.bad rfl
    exact ⟨hr', d.inv, d.queue, a, b, c, d.evo.posted, d.evo.nv, d.evo.exprs, d.linked, d.th, fun _ => hb.1, fun _ => Or.inr ⟨rfl, hb.2.2⟩, fun _ => ⟨hb.1, hb.2.2⟩, by simp⟩
  | .ok (u, true) =>
    rw [hp] at hs
    simp only at hs
    have d := propagate_spec h hp
    obtain ⟨a, bb, c⟩ := hkeep _ _ d
    obtain ⟨r1, r2, r3, x, h1, h2, S⟩ := simplify_core d.inv.wf a d.queue (hF u hp)
    rw [h1] at hs
    simp only at hs
    rw [h2] at hs
    simp only at hs
    injection hs with hs; injection hs with e1 e2
    subst e2
    rw [e1] at S
    have hfr := S.fr
    have e3 : s'.propQ = u.propQ := by rw [hfr]
    have e4 : s'.root = u.root := by rw [hfr]; rfl
    have e5 : s'.decisions = u.decisions := by rw [hfr]
    have e6 : s'.assigns = u.assigns := by rw [hfr]
    have e7 : s'.level = u.level := by rw [hfr]
    have e8 : s'.posted = u.posted := by rw [hfr]
    have e9 : s'.nvars = u.nvars := by rw [hfr]
    have e10 : s'.exprs = u.exprs := by rw [hfr]
    have e11 : s'.th = u.th := by rw [hfr]
    have e12 : s'.dead = u.dead := by rw [hfr]
    refine ⟨hr', S.sem a d.inv, e3.trans d.queue, e4.trans a, e5.trans bb, ?_, e8.trans d.evo.posted, e9.trans d.evo.nv, e10.trans d.evo.exprs,
      fun D hD => S.linked a d.inv.wf (d.linked D hD), ?_, ?_, ?_, by simp, fun _ => S.fix⟩
    · intro v hv; rw [e6, e7]; exact c v hv
    · rw [e11]; exact d.th
    · rw [e12, d.dead rfl]; exact id
    · rw [e12, d.dead rfl]; exact Or.inl

theorem simplifyDb_ok {E : Env} {O : TheoryOps T} {C : Contract O} {s : Sat T} (h : s.Inv C) (hr : s.root = true) {u b} (hp : s.propagate E O = .ok (u, b))
    (hF : b = true → u.Fix u.okQ) : ∃ s', s.simplifyDb E O = .ok (s', b) := by
  unfold simplifyDb
  rw [if_neg (by simp [hr]), hp]
  cases b with
  | false => exact ⟨u, rfl⟩
  | true =>
    have d := propagate_spec h hp
    have h0 := (root_iff s).1 hr
    have h1 := d.evo.dl
    obtain ⟨r1, r2, r3, x, h1, h2, S⟩ := simplify_core d.inv.wf ((root_iff u).2 (by omega)) d.queue (hF rfl)
    simp only [h1, h2]
    exact ⟨_, rfl⟩

end Sat
end Semitone
