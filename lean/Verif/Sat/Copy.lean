import Verif.Sat.Simplify

/-!
# Copying a core (`sat_core(const sat_core &)`, used by `sat_stack::push`)
-/
namespace Semitone
namespace Sat
variable {T : Type}

/-- `s'` is `s` with more clauses. -/
structure MoreC (orig s s' : Sat T) (m m' : Nat → Option Nat) (cs : List Nat) : Prop where
  fr : s' = { s with ncls := s'.ncls, db := s'.db, constrs := s'.constrs, watches := s'.watches }
  wf : s'.WF noEx
  old : ∀ d ∈ s.constrs, d ∈ s'.constrs ∧ s'.db d = s.db d
  new : ∀ d ∈ s'.constrs, d ∈ s.constrs ∨ ∃ c ∈ cs, s'.db d = orig.db c
  map : ∀ c ∈ cs, ∃ d, m' c = some d ∧ d ∈ s'.constrs ∧ s'.db d = orig.db c
  mold : ∀ c, c ∉ cs → m' c = m c

theorem copyClauses_spec {orig : Sat T} (cs : List Nat) : ∀ (s : Sat T) (m : Nat → Option Nat), s.WF noEx → cs.Nodup →
    (∀ c ∈ cs, (∃ l0 l1 r, orig.db c = l0 :: l1 :: r) ∧ (∀ l ∈ orig.db c, l.var < s.nvars) ∧ ∀ l ∈ orig.db c, l.neg ∉ orig.db c) →
    ∃ s' m', copyClauses orig cs s m = .ok (s', m') ∧ MoreC orig s s' m m' cs := by
  induction cs with
  | nil => intro s m hw _ _; exact ⟨s, m, rfl, rfl, hw, fun d h => ⟨h, rfl⟩, fun d h => Or.inl h, by simp, fun _ _ => rfl⟩
  | cons c cs ih =>
    intro s m hw hnd hcs
    rw [List.nodup_cons] at hnd
    obtain ⟨⟨l0, l1, r, hd⟩, h1, h2⟩ := hcs c (by simp)
    obtain ⟨s1, e1, e2, -⟩ := newClauseObj_eq s l0 l1 r
    have hw1 := hw.addC (l0 := l0) (l1 := l1) (r := r) (by rw [← hd]; exact h1) (by rw [← hd]; exact h2)
    have hfresh : s.ncls ∉ s.constrs := fun hm => by have := hw.clt _ hm; omega
    obtain ⟨s', m', i1, I⟩ := ih (s.addC (l0 :: l1 :: r)) (upd m c (some s.ncls)) hw1 hnd.2 (fun d hd' => hcs d (by simp [hd']))
    have hs : copyClauses orig (c :: cs) s m = .ok (s', m') := by
      simp only [copyClauses]
      rw [hd, e1]
      simp only
      rw [e2]
      exact i1
    have hc0 : (s.addC (l0 :: l1 :: r)).constrs = s.constrs ++ [s.ncls] := rfl
    have hd0 : (s.addC (l0 :: l1 :: r)).db = upd s.db s.ncls (l0 :: l1 :: r) := rfl
    refine ⟨s', m', hs, ?_, I.wf, ?_, ?_, ?_, ?_⟩
    · rw [I.fr]; rfl
    · intro d hd'
      have hne : d ≠ s.ncls := fun e => hfresh (e ▸ hd')
      obtain ⟨a, b⟩ := I.old d (by rw [hc0]; simp [hd'])
      exact ⟨a, by rw [b, hd0, upd_ne _ _ hne]⟩
    · intro d hd'
      rcases I.new d hd' with h3 | ⟨x, hx, h3⟩
      · rw [hc0, List.mem_append, List.mem_singleton] at h3
        rcases h3 with h3 | h3
        · exact Or.inl h3
        · right
          refine ⟨c, by simp, ?_⟩
          rw [(I.old d (by rw [hc0]; simp [h3])).2, hd0, h3, upd_self, hd]
      · exact Or.inr ⟨x, by simp [hx], h3⟩
    · intro x hx
      rcases List.mem_cons.1 hx with e | hx
      · have hm : m' x = some s.ncls := by rw [I.mold x (e ▸ hnd.1), e, upd_self]
        obtain ⟨a, b⟩ := I.old s.ncls (by rw [hc0]; simp)
        exact ⟨s.ncls, hm, a, by rw [b, hd0, upd_self, e, hd]⟩
      · exact I.map x hx
    · intro x hx
      rw [List.mem_cons, not_or] at hx
      rw [I.mold x hx.2, upd_ne _ _ hx.1]

/-- What the copy of a core looks like. -/
structure Copied (s s' : PSat) : Prop where
  inv : s'.Inv noContract
  fix : s'.Fix s'.okQ
  queue : s'.propQ = []
  root : s'.root = true
  assigns : s'.assigns = s.assigns
  level : ∀ v, s'.level v = 0
  dec : s'.decisions = []
  trail : s'.trail = []
  posted : s'.posted = s.decisions.map (fun d => [d]) ++ s.posted
  nv : s'.nvars = s.nvars
  exprs : s'.exprs = s.exprs
  dead : s'.dead = s.dead
  listening : s'.listening = s.listening
  notes : s'.notes = s.notes
  linked : ∀ D, s.Linked D → s'.Linked D
  clauses : ∀ c ∈ s'.constrs, ∃ d ∈ s.constrs, s'.db c = (s.db d).filter (fun l => decide (s.value l = none)) ∧ ∀ l ∈ s.db d, s.value l ≠ some true
  allc : ∀ d ∈ s.constrs, (∃ l ∈ s.db d, s.value l = some true) ∨ ∃ c ∈ s'.constrs, s'.db c = (s.db d).filter (fun l => decide (s.value l = none))

theorem copy_spec {E : Env} {s : PSat} (h : s.Inv noContract) (hF : s.Fix s.okQ) (hq : s.propQ = [])
    (hdec : ∀ d ∈ s.decisions, s.value d = some true) : ∃ s', s.copy E noTheory = .ok s' ∧ Copied s s' := by
  unfold copy
  rw [if_neg (by simp [hq])]
  obtain ⟨z, hz⟩ : ∃ z : PSat, z = s.copyBase := ⟨_, rfl⟩
  rw [← hz]
  have hzw : z.WF noEx := by
    subst hz
    unfold copyBase
    constructor
    case nv => exact h.wf.nv
    case fv => exact h.wf.fv
    case rng => exact h.wf.rng
    case wat => intro c m; simp [noEx]
    all_goals simp
  obtain ⟨x, m, h1, M⟩ := copyClauses_spec (orig := s) s.constrs z (fun _ => none) hzw h.wf.cnd (by
    intro c hc
    refine ⟨h.wf.cln c hc, ?_, h.wf.cnc c hc⟩
    subst hz; exact h.wf.crng c hc)
  rw [h1]
  simp only
  have hzc : z.constrs = [] := by rw [hz]; rfl
  have hnew : ∀ d ∈ x.constrs, ∃ c ∈ s.constrs, x.db d = s.db c := by
    intro d hd
    rcases M.new d hd with h2 | h2
    · rw [hzc] at h2; cases h2
    · exact h2
  have hall : s.reasonsMapped m = true := by
    unfold reasonsMapped
    rw [List.all_eq_true]
    intro v _
    match hv : s.reason v with
    | none => rfl
    | some c =>
      obtain ⟨d, hd, -⟩ := M.map c (h.wf.rsn v c hv).1
      simp [hd]
  rw [if_pos hall]
  obtain ⟨y, hy⟩ : ∃ y : PSat, y = { x with reason := fun v => (s.reason v).bind m } := ⟨_, rfl⟩
  rw [← hy]
  have ya : y.assigns = s.assigns := by rw [hy, M.fr, hz]; rfl
  have yv : y.value = s.value := by funext p; simp only [value, ya]
  have yl : ∀ v, y.level v = 0 := by intro v; rw [hy, M.fr, hz]; rfl
  have yt : y.trail = [] := by rw [hy, M.fr, hz]; rfl
  have yq : y.propQ = [] := by rw [hy, M.fr, hz]; rfl
  have yr : y.root = true := by rw [hy, M.fr, hz]; rfl
  have yd : y.decisions = [] := by rw [hy, M.fr, hz]; rfl
  have yp : y.posted = s.decisions.map (fun d => [d]) ++ s.posted := by rw [hy, M.fr, hz]; rfl
  have yn : y.nvars = s.nvars := by rw [hy, M.fr, hz]; rfl
  have ye : y.exprs = s.exprs := by rw [hy, M.fr, hz]; rfl
  have yx : y.dead = s.dead := by rw [hy, M.fr, hz]; rfl
  have yli : y.listening = s.listening := by rw [hy, M.fr, hz]; rfl
  have yno : y.notes = s.notes := by rw [hy, M.fr, hz]; rfl
  have yc : y.constrs = x.constrs := by rw [hy]
  have yb : y.db = x.db := by rw [hy]
  have yw : y.WF noEx := by
    have hxt : x.trail = [] := by rw [M.fr, hz]; rfl
    rw [hy]
    exact {
      nv := M.wf.nv
      fv := M.wf.fv
      fvt := M.wf.fvt
      rng := M.wf.rng
      tval := M.wf.tval
      tnd := M.wf.tnd
      off := M.wf.off
      rsn := fun v d hd => by
        have hd : (s.reason v).bind m = some d := hd
        match hv : s.reason v with
        | none => rw [hv] at hd; cases hd
        | some c =>
          rw [hv] at hd
          have hd : m c = some d := hd
          obtain ⟨hc, b, rest, hb, hdb⟩ := h.wf.rsn v c hv
          obtain ⟨d', e1, e2, e3⟩ := M.map c hc
          have : d' = d := by rw [hd] at e1; injection e1 with e1; exact e1.symm
          subst this
          refine ⟨e2, b, rest, ?_, by show x.db d' = _; rw [e3, hdb]⟩
          show x.assigns v = some b
          have : x.assigns = s.assigns := by rw [M.fr, hz]; rfl
          rw [this]; exact hb
      trs := fun p tr htr => by
        have : (p :: tr) <:+ x.trail := htr
        rw [hxt] at this
        simp at this
      tlv := M.wf.tlv
      tdc := fun p tr htr => by
        have : (p :: tr) <:+ x.trail := htr
        rw [hxt] at this
        simp at this
      lims := M.wf.lims
      limle := M.wf.limle
      dec := M.wf.dec
      que := M.wf.que
      cnd := M.wf.cnd
      clt := M.wf.clt
      cln := M.wf.cln
      crng := M.wf.crng
      cnc := M.wf.cnc
      wat := M.wf.wat }
  have hsol : ∀ α, y.Sol noContract.Th α → s.Sol noContract.Th α ∧ α.all s.decisions := by
    intro α hα
    refine ⟨⟨hα.1, fun D hD => hα.2.1 D (by rw [yp]; simp [hD]), trivial⟩, ?_⟩
    intro d hd
    obtain ⟨l, hl, hs⟩ := hα.2.1 [d] (by rw [yp]; simp [hd])
    have : l = d := by simpa using hl
    exact this ▸ hs
  have yi : y.Inv noContract := by
    refine ⟨yw, ⟨?_, ?_⟩, trivial, fun _ => yq, ?_, ?_⟩
    · intro c hc α hα
      rw [yc] at hc
      obtain ⟨d, hd, e⟩ := hnew c hc
      rw [yb, e]
      exact h.sem.cls d hd α (hsol α hα).1
    · intro q hqv α hα _
      rw [yv] at hqv
      refine h.sem.val q hqv α (hsol α hα).1 ?_
      intro l hl
      exact (hsol α hα).2 l (List.mem_of_mem_drop hl)
    · intro D hD l hl
      rw [yp, List.mem_append] at hD
      rw [yn]
      rcases hD with hD | hD
      · obtain ⟨d, hd, rfl⟩ := List.mem_map.1 hD
        have : l = d := by simpa using hl
        subst this
        exact h.wf.rng _ (by rw [(value_true _ _).1 (hdec l hd)]; simp)
      · exact h.prng D hD l hl
    · intro k ls r hm
      rw [ye] at hm
      obtain ⟨a, b, c⟩ := h.cache k ls r hm
      exact ⟨by rw [yn]; exact a, by rw [yn]; exact b, fun α hα => c α (hsol α hα).1⟩
  have yF : y.Fix y.okQ := by
    refine ⟨?_, ?_⟩
    · intro c hc
      rw [yc] at hc
      obtain ⟨d, hd, e⟩ := hnew c hc
      rw [yb, e]
      exact (hF.nd d hd).mono (fun a _ ha => ⟨by rw [yv]; exact ha.1, yl _⟩)
    · intro c hc w w' r hd hv
      rw [yc] at hc
      obtain ⟨d, hd', e⟩ := hnew c hc
      rw [yb, e] at hd
      rw [yv] at hv
      rcases hF.fx d hd' w w' r hd hv with h2 | h2
      · simp [okQ, hq] at h2
      · right; rw [yv, yl, yl]; exact ⟨h2.1, Nat.le_refl _⟩
  have hprop : y.propagate E noTheory = .ok (y, true) := by
    have hpf : ∃ n, y.propFuel = n + 1 := by
      refine ⟨y.propFuel - 1, ?_⟩
      have : 0 < y.propFuel := by unfold propFuel; exact Nat.mul_pos (by omega) (by omega)
      omega
    obtain ⟨n, hn⟩ := hpf
    unfold propagate
    rw [hn]
    simp only [propLoop, yq, noTheory, runChecks]
  obtain ⟨r1, r2, r3, x', g1, g2, S⟩ := simplify_core yw yr yq yF
  have hsimp : y.simplifyDb E noTheory = .ok ({ x' with constrs := r2 }, true) := by
    unfold simplifyDb
    rw [if_neg (by simp [yr]), hprop]
    simp only [g1, g2]
  rw [hsimp]
  refine ⟨_, rfl, ?_⟩
  generalize ({ x' with constrs := r2 } : PSat) = u at S
  have hfr := S.fr
  have uv : u.value = s.value := by rw [hfr]; exact yv
  have ul : ∀ v, u.level v = 0 := by intro v; rw [hfr]; exact yl v
  have hsub : ∀ D, s.HasSub D → y.HasSub D := by
    rintro D ⟨c, hc, hD⟩
    obtain ⟨d, -, e2, e3⟩ := M.map c hc
    exact ⟨d, by rw [yc]; exact e2, by rw [yb, e3]; exact hD⟩
  refine ⟨S.sem yr yi, S.fix, by rw [hfr]; exact yq, by rw [hfr]; exact yr, by rw [hfr]; exact ya, ul, by rw [hfr]; exact yd, by rw [hfr]; exact yt,
    by rw [hfr]; exact yp, by rw [hfr]; exact yn, by rw [hfr]; exact ye, by rw [hfr]; exact yx, by rw [hfr]; exact yli, by rw [hfr]; exact yno, ?_, ?_, ?_⟩
  · intro D hD
    apply S.linked yr yw
    rcases hD with ⟨l, hl, h2, -⟩ | h2 | h2
    · left; exact ⟨l, hl, by rw [yv]; exact h2, yl _⟩
    · exact Or.inr (Or.inl h2)
    · exact Or.inr (Or.inr (hsub D h2))
  · intro c hc
    obtain ⟨k1, k2, k3⟩ := S.kept c hc
    rw [yc] at k1
    obtain ⟨d, hd, e⟩ := hnew c k1
    rw [yb, e, yv] at k2 k3
    exact ⟨d, hd, k2, k3⟩
  · intro d hd
    obtain ⟨c, -, e2, e3⟩ := M.map d hd
    have e2' : c ∈ y.constrs := by rw [yc]; exact e2
    by_cases hk : c ∈ u.constrs
    · right
      refine ⟨c, hk, ?_⟩
      have := (S.kept c hk).2.1
      rw [yb, e3, yv] at this
      exact this
    · left
      have := S.gone c e2' hk
      rw [yb, e3, yv] at this
      exact this

end Sat
end Semitone
