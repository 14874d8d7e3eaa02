import Verif.Sat.Record

/-!
# Resolving a conflict: analysis, backjump, recording of the no-good
-/
namespace Semitone
namespace Sat
variable {T : Type}

theorem lit_ext {p q : Lit} (h1 : p.var = q.var) (h2 : p.sign = q.sign) : p = q := by
  cases p; cases q; simp_all

/-- Some stored clause uses only literals of `D`. -/
def HasSub (s : Sat T) (D : List Lit) : Prop := ∃ c ∈ s.constrs, ∀ l ∈ s.db c, l ∈ D

theorem decUpTo_cut {s s' : Sat T} (h : s'.decisions <:+ s.decisions) {n : Nat} (hn : n ≤ s'.decisions.length) :
    s'.decUpTo n = s.decUpTo n := by
  obtain ⟨pre, hp⟩ := h
  unfold decUpTo
  rw [← hp, List.length_append]
  have : pre.length + s'.decisions.length - n = pre.length + (s'.decisions.length - n) := by omega
  rw [this, List.drop_append]
  have e : List.drop (pre.length + (s'.decisions.length - n)) pre = [] := List.drop_eq_nil_of_le (by omega)
  rw [e]
  simp

theorem decUpTo_all (s : Sat T) : s.decUpTo s.decisions.length = s.decisions := by
  unfold decUpTo; simp

/-- Removing assignments keeps the semantic invariant. -/
theorem Sem.cut {O : TheoryOps T} {C : Contract O} {s s' : Sat T} {ex} (hS : s.Sem C) (hw' : s'.WF ex) (h : Cut s s')
    (hth : ∀ α, C.Th s'.th α ↔ C.Th s.th α) : s'.Sem C := by
  have hpost : s'.posted = s.posted := h.fields.2.2.1
  have hsol : ∀ α, s'.Sol C.Th α ↔ s.Sol C.Th α := Sol.congr hpost hth
  constructor
  · intro c hc α hα
    rw [h.fields.1]
    rw [h.fields.2.1] at hc
    exact hS.cls c hc α ((hsol α).1 hα)
  · intro q hq α hα hd
    have hl := h.level_some hq
    have h1 := hS.val q (h.value_some hq) α ((hsol α).1 hα)
    apply h1
    rw [← hl, ← decUpTo_cut h.dec (by rw [hw'.dec]; exact hw'.level_le _)]
    exact hd

theorem popLevels_th {O : TheoryOps T} (C : Contract O) (n : Nat) : ∀ {s s' : Sat T}, popLevels O n s = .ok s' → ∀ m A, C.TI s.th (m + n) A →
    C.TI s'.th m A ∧ ∀ α, C.Th s'.th α ↔ C.Th s.th α := by
  induction n with
  | zero =>
    intro s s' h m A hti
    simp only [popLevels] at h; injection h with h; subst h
    exact ⟨hti, fun _ => Iff.rfl⟩
  | succ n ih =>
    intro s s' h m A hti
    simp only [popLevels] at h
    match h1 : s.pop O with
    | .error _ => simp [h1] at h
    | .ok s1 =>
      simp only [h1] at h
      have ht : ∃ t, O.pop t = .ok s1.th ∧ t = s.th := by
        unfold pop at h1
        match hlim : s.trailLim, hdec : s.decisions with
        | [], _ => simp [hlim] at h1
        | _ :: _, [] => simp [hlim, hdec] at h1
        | lim :: lims, d :: ds =>
          simp only [hlim, hdec] at h1
          have e : ∀ k (x : Sat T), (popN k x).th = x.th := by
            intro k; induction k with
            | zero => intro x; rfl
            | succ k ih2 => intro x; simp only [popN]; rw [ih2]; unfold popOne; split <;> rfl
          rw [e] at h1
          match h2 : O.pop s.th with
          | .error _ => simp [h2] at h1
          | .ok t' =>
            simp only [h2] at h1
            injection h1 with h1; subst h1
            exact ⟨_, h2, rfl⟩
      obtain ⟨t, ht, rfl⟩ := ht
      obtain ⟨a, b⟩ := C.pop _ _ (m + n) A hti ht
      obtain ⟨c, d⟩ := ih h m A a
      exact ⟨c, fun α => (d α).trans (b α)⟩

/-- The theories backtrack `n` levels. -/
def popTh (O : TheoryOps T) : Nat → T → Except Err T
  | 0, t => .ok t
  | n + 1, t =>
    match O.pop t with
    | .error e => .error e
    | .ok t => popTh O n t

theorem pop_th {O : TheoryOps T} {s s' : Sat T} (h1 : s.pop O = .ok s') : O.pop s.th = .ok s'.th := by
  unfold pop at h1
  match hlim : s.trailLim, hdec : s.decisions with
  | [], _ => simp [hlim] at h1
  | _ :: _, [] => simp [hlim, hdec] at h1
  | lim :: lims, d :: ds =>
    simp only [hlim, hdec] at h1
    have e : ∀ k (x : Sat T), (popN k x).th = x.th := by
      intro k; induction k with
      | zero => intro x; rfl
      | succ k ih2 => intro x; simp only [popN]; rw [ih2]; unfold popOne; split <;> rfl
    rw [e] at h1
    match h2 : O.pop s.th with
    | .error _ => simp [h2] at h1
    | .ok t' =>
      simp only [h2] at h1
      injection h1 with h1; subst h1; rfl

theorem popLevels_popTh {O : TheoryOps T} (n : Nat) : ∀ {s s' : Sat T}, popLevels O n s = .ok s' → popTh O n s.th = .ok s'.th := by
  induction n with
  | zero => intro s s' h; simp only [popLevels] at h; injection h with h; subst h; rfl
  | succ n ih =>
    intro s s' h
    simp only [popLevels] at h
    match h1 : s.pop O with
    | .error _ => simp [h1] at h
    | .ok s1 =>
      simp only [h1] at h
      simp only [popTh, pop_th h1]
      exact ih h

theorem popLevels_ok {O : TheoryOps T} {ex} (n : Nat) : ∀ {s : Sat T}, s.WF ex → s.propQ = [] → n ≤ s.dl → (∃ t', popTh O n s.th = .ok t') →
    ∃ s', popLevels O n s = .ok s' := by
  induction n with
  | zero => intro s _ _ _ _; exact ⟨s, rfl⟩
  | succ n ih =>
    rintro s h hq hn ⟨t', ht⟩
    simp only [popTh] at ht
    match hp : O.pop s.th with
    | .error _ => simp [hp] at ht
    | .ok t1 =>
      simp only [hp] at ht
      obtain ⟨s1, h1⟩ := pop_ok h hq (by omega) ⟨t1, hp⟩
      obtain ⟨a, b, c, -, -⟩ := pop_spec h hq h1
      have hq1 : s1.propQ = [] := by rw [b.fr]; exact hq
      have e := pop_th h1
      rw [hp] at e; injection e with e
      obtain ⟨s2, h2⟩ := ih a hq1 (by omega) ⟨t', by rw [← e]; exact ht⟩
      exact ⟨s2, by simp [popLevels, h1, h2]⟩

/-- What a conflict resolution guarantees. -/
structure Resolved {O : TheoryOps T} (C : Contract O) (P : Prop) (s s' : Sat T) : Prop where
  wf : s'.WF noEx
  evo : Evo s s'
  dl : s'.dl < s.dl
  learnt : ∃ l0 : Lit, s'.propQ = [l0] ∧ s.value l0 = some false ∧ s.level l0.var = s.dl ∧ s'.value l0 = some true
  len : s'.trail.length ≤ s.trail.length + 1
  dead : s'.dead = s.dead
  bounds : s'.bounds = s.bounds
  sem : P → s'.Sem C ∧ s'.TInv C ∧ (∀ α, C.Th s'.th α ↔ C.Th s.th α)
  fix : s.Fix s.okC → s'.Fix s'.okQ
  sub : ∀ D, s.HasSub D → s'.HasSub D
  pops : ∃ l0, s'.propQ = [l0] ∧ popTh O (s.dl - s'.dl) s.th = .ok s'.th ∧
    (∀ i q, i ≤ s'.dl → s'.tru i q → s.tru i q ∨ (i = s'.dl ∧ q = l0)) ∧ (∀ i q, i ≤ s'.dl → s.tru i q → s'.tru i q)

theorem resolve_spec {E : Env} {O : TheoryOps T} (C : Contract O) {s s' : Sat T} {cl : List Lit} (hw : s.WF noEx)
    (hq : s.propQ = []) (hd : 0 < s.dl) (P : Prop) (hSP : P → s.Sem C) (hTP : P → s.TInv C) (hE : P → s.Ent C.Th cl) (h : s.resolveConflict E O cl = .ok s') :
    Resolved C P s s' ∧ ∀ q ∈ cl, s.value q = some false := by
  unfold resolveConflict at h
  match h1 : s.analyze cl with
  | .error _ => simp [h1] at h
  | .ok (s1, ng, bt) =>
    simp only [h1] at h
    match h2 : popLevels O (s1.dl - bt) s1 with
    | .error _ => simp [h2] at h
    | .ok s2 =>
      simp only [h2] at h
      obtain ⟨hA, hcl⟩ := (analyze_spec C hw hq hd P hSP hE).2 _ _ _ h1
      have hq1 : s1.propQ = [] := by rw [hA.cut.fr]; exact hq
      obtain ⟨hw2, hcut2, hdl2, hfull2⟩ := popLevels_spec _ hA.wf hq1 h2
      have hbt := hA.bt
      have hdl1 := hA.dl
      have hdl2' : s2.dl = bt := by omega
      have hq2 : s2.propQ = [] := by rw [hcut2.fr]; exact hq1
      have hcut : Cut s s2 := hA.cut.trans hcut2
      have hfull : ∀ q ∈ s.trail, s.level q.var ≤ s2.dl → q ∈ s2.trail := by
        intro q hqm hl
        have ht1 := hA.low q hqm (by omega)
        apply (hfull2 q ht1).1
        rw [hA.cut.level_some (hA.wf.trail_true ht1)]
        exact hl
      obtain ⟨p, learnt, rfl, hpn, hpt, hpl, hpr, hlv, hbl, hln, hnd, hpos⟩ := hA.shape
      obtain ⟨l0, rest, hlits, hv0, hfl, hrng, hw', hevo, hdl', hth', hpq, htr', hdead, hbounds, hdec', hv0', hsem, hfix, hsub, hsub2⟩ :=
        record_spec C hw2 h
      injection hlits with e1 e2
      subst e1; subst e2
      have hevo' : Evo s s' := (hcut.evo hw hfull).trans hw' hevo
      have hsv : ∀ l ∈ learnt, s2.level l.var = s1.level l.var := fun l hl => hcut2.level_some (hfl l hl)
      refine ⟨⟨hw', hevo', by omega, ⟨p.neg, ?_, ?_, ?_, hv0'⟩, ?_, ?_, ?_, ?_, ?_, ?_, p.neg, ?_, ?_, ?_, ?_⟩, hcl⟩
      · rw [hpq, hq2]; rfl
      · rw [value_neg_false]; exact hw.trail_true hpt
      · exact hpl
      · rw [htr']; have := hcut.suf.length_le; simp; exact this
      · rw [hdead, hcut.fr]
      · rw [hbounds, hcut.fr]
      · intro hP
        have hS := hSP hP
        have hTI := hTP hP
        obtain ⟨hTI2, hth2⟩ := popLevels_th C _ h2 bt s.tru (by
          rw [hA.th]
          have : bt + (s1.dl - bt) = s.dl := by omega
          rw [this]; exact hTI)
        rw [hA.th] at hth2
        have hS2 := hS.cut hw2 hcut hth2
        have hTI2' : s2.TInv C := by
          unfold TInv
          rw [hdl2']
          refine C.mono _ _ _ _ hTI2 ?_
          intro i hi q ⟨a, b⟩
          have := hcut.survive hw hfull a (by omega)
          exact ⟨this, by rw [hcut.level_some this]; exact b⟩
        have hsol : ∀ α, s2.Sol C.Th α ↔ s.Sol C.Th α := Sol.congr hcut.fields.2.2.1 hth2
        refine ⟨hsem hS2 (fun α hα => hA.ent hP α ((hsol α).1 hα)), hTI2'.evo hevo hdl' hth', ?_⟩
        rw [hth']; exact hth2
      · intro hF
        apply hfix
        · constructor
          · intro c hc
            rw [hcut.fields.1]
            rw [hcut.fields.2.1] at hc
            exact (hF.nd c hc).mono (fun a _ ha => by
              have := hcut.survive hw hfull ha.1 (by rw [ha.2]; exact Nat.zero_le _)
              exact ⟨this, by rw [hcut.level_some this]; exact ha.2⟩)
          · intro c hc w w' r hdb hv
            rw [hcut.fields.2.1] at hc
            rw [hcut.fields.1] at hdb
            have hlw := hcut.level_some hv
            rcases hF.fx c hc w w' r hdb (hcut.value_some hv) with h3 | ⟨h3, h4⟩
            · exfalso
              have := hw2.level_le w.var
              simp only [okC] at h3; omega
            · right
              have := hw2.level_le w.var
              have h5 := hcut.survive hw hfull h3 (by omega)
              exact ⟨h5, by rw [hcut.level_some h5, hlw]; exact h4⟩
        · have : (learnt.map Lit.var).Nodup := hnd
          exact (List.pairwise_map.1 this).imp (fun h e => absurd (by rw [e]) h)
        · rcases hbl with hb | ⟨l, hl, hb⟩
          · left
            match learnt, hlv, hpos with
            | [], _, _ => rfl
            | l :: _, hlv, hpos =>
              have a := (hlv l (by simp)).2
              have b := hpos l (by simp)
              omega
          · exact Or.inr ⟨l, hl, by rw [hsv l hl]; omega⟩
      · intro D hD
        apply hsub
        obtain ⟨c, hc, hD⟩ := hD
        exact ⟨c, by rw [hcut.fields.2.1]; exact hc, by rw [hcut.fields.1]; exact hD⟩
      · rw [hpq, hq2]; rfl
      · have := popLevels_popTh _ h2
        rw [hth', ← this, hA.th]
        congr 1
        omega
      · rintro i q hi ⟨a, b⟩
        have ha := record_assigns h
        have hqa := (value_true _ _).1 a
        rw [ha] at hqa
        by_cases e : q.var = p.neg.var
        · rw [e, upd_self] at hqa
          injection hqa with hqa
          have hqe : q = p.neg := lit_ext e hqa.symm
          subst hqe
          right
          refine ⟨?_, rfl⟩
          have := (hw'.que p.neg (by rw [hpq, hq2]; simp)).2
          omega
        · rw [upd_ne _ _ e] at hqa
          left
          have h3 : s2.value q = some true := (value_true _ _).2 hqa
          have h4 := hevo.low q.var (by rw [(value_true _ _).1 h3]; simp) (by have := hw2.level_le q.var; omega)
          refine ⟨hcut.value_some h3, ?_⟩
          rw [← hcut.level_some h3, ← h4.2.1]; exact b
      · rintro i q hi ⟨a, b⟩
        have h3 := hevo'.low q.var (by rw [(value_true _ _).1 a]; simp) (by omega)
        exact ⟨by rw [value_true, h3.1]; exact (value_true _ _).1 a, by rw [h3.2.1]; exact b⟩

/-- Conflict resolution succeeds when the conflict is real and involves the current level. -/
theorem resolve_ok {E : Env} {O : TheoryOps T} (C : Contract O) {s : Sat T} {cl : List Lit} (hw : s.WF noEx)
    (hq : s.propQ = []) (hd : 0 < s.dl) (hf : ∀ q ∈ cl, s.value q = some false) (hl : ∃ q ∈ cl, s.level q.var = s.dl)
    (hO : ∀ k, k ≤ s.dl → ∃ t', popTh O k s.th = .ok t') :
    ∃ s', s.resolveConflict E O cl = .ok s' := by
  obtain ⟨⟨s1, ng, bt⟩, h1⟩ := (analyze_spec C hw hq hd False False.elim False.elim).1 hf hl
  obtain ⟨hA, -⟩ := (analyze_spec C hw hq hd False False.elim False.elim).2 _ _ _ h1
  have hq1 : s1.propQ = [] := by rw [hA.cut.fr]; exact hq
  obtain ⟨s2, h2⟩ := popLevels_ok (s1.dl - bt) hA.wf hq1 (by omega) (by rw [hA.th]; exact hO _ (by have := hA.dl; omega))
  obtain ⟨hw2, hcut2, hdl2, hfull2⟩ := popLevels_spec _ hA.wf hq1 h2
  have hbt := hA.bt
  have hdl1 := hA.dl
  have hdl2' : s2.dl = bt := by omega
  obtain ⟨p, learnt, rfl, hpn, hpt, hpl, hpr, hlv, hbl, hln, hnd, hpos⟩ := hA.shape
  have hcut : Cut s s2 := hA.cut.trans hcut2
  have hfalse : ∀ q ∈ learnt, s2.value q = some false := by
    intro q hq
    obtain ⟨a, b⟩ := hlv q hq
    exact hcut2.survive hA.wf (fun x hx => (hfull2 x hx).1) a (by omega)
  have hnv : s2.nvars = s.nvars := by rw [hcut.fr]
  obtain ⟨s3, h3⟩ := record_ok (E := E) (s := s2) (l0 := p.neg) (rest := learnt) (by
      intro l hl
      rcases List.mem_cons.1 hl with rfl | hl
      · rw [hnv]; exact hpr
      · have := hfalse l hl
        rw [value_false] at this
        exact hw2.rng _ (by rw [this]; simp)) (by
      cases hv : s2.value p.neg with
      | none => rfl
      | some b => 
        have := hcut2.value_some hv
        rw [value_neg, hpn] at this; cases this) hfalse (by
      intro e
      have := hln e
      have : s2.trailLim.length = 0 := by rw [← this]; exact hdl2'
      simp [root, List.length_eq_zero_iff.1 this])
  exact ⟨s3, by simp [resolveConflict, h1, h2, h3]⟩

end Sat
end Semitone
