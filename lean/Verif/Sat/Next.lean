import Verif.Sat.Ops

/-!
# `next` keeps the invariant
-/
namespace Semitone
namespace Sat
variable {T : Type}

/-- Everything `next` (above root level) tells about the state it leaves. -/
structure NextF {O : TheoryOps T} (C : Contract O) (s s' : Sat T) (b : Bool) : Prop where
  inv : s'.Inv C
  queue : s'.propQ = []
  dl : s'.dl < s.dl
  dec : s'.decisions <:+ s.decisions.tail
  low : ∀ v, s.assigns v ≠ none → s.level v ≤ s'.dl → s'.assigns v = s.assigns v ∧ s'.level v = s.level v
  new : ∀ v, s'.assigns v ≠ none → s.assigns v ≠ none ∧ s.level v ≤ s'.dl ∨ s'.level v = s'.dl
  posted : s'.posted = s.decisions.map Lit.neg :: s.posted
  nv : s'.nvars = s.nvars
  exprs : s'.exprs = s.exprs
  linked : ∀ D, s.Linked D → s'.Linked D
  link : s'.Linked (s.decisions.map Lit.neg)
  th : ∀ α, C.Th s'.th α ↔ C.Th s.th α
  dead : s.dead = true → s'.dead = true
  bad : s'.dead = true → s.dead = true ∨ (b = false ∧ s'.Unsat C.Th)
  ans : b = false → s'.dead = true ∧ s'.root = true ∧ s'.Unsat C.Th

theorem next_spec {E : Env} {O : TheoryOps T} {C : Contract O} {s s' : Sat T} {b : Bool} (h : s.Inv C)
    (hn : s.next E O = .ok (s', b)) : (s.root = true ∧ s' = s ∧ b = false) ∨ (s.root = false ∧ NextF C s s' b) := by
  unfold next at hn
  by_cases hr : s.root = true
  · rw [if_pos hr] at hn
    injection hn with hn; injection hn with e1 e2
    exact Or.inl ⟨hr, e1.symm, e2.symm⟩
  right
  rw [if_neg hr] at hn
  refine ⟨by simpa using hr, ?_⟩
  simp only at hn
  match hp : s.pop O with
  | .error e => rw [hp] at hn; cases hn
  | .ok s1 =>
    rw [hp] at hn
    simp only at hn
    have hP := pop_inv h hp
    match hrec : ({ s1 with posted := s.decisions.map Lit.neg :: s1.posted } : Sat T).record E (s.decisions.map Lit.neg) with
    | .error e => rw [hrec] at hn; cases hn
    | .ok s2 =>
      rw [hrec] at hn
      simp only at hn
      have hwp : ({ s1 with posted := s.decisions.map Lit.neg :: s1.posted } : Sat T).WF noEx :=
        hP.inv.wf.congr rfl rfl rfl rfl rfl rfl rfl rfl rfl rfl rfl rfl
      obtain ⟨l0, rest, hng, hv0, hvr, hrng, w2, e2, dl2, th2, q2, tr2, dead2, bnd2, dec2, val2, sem2, -, sub2, lnk2⟩ := record_spec C hwp hrec
      have hI1 := hP.inv.post hrng
      have hS2 := sem2 hI1.sem (fun α hα => hα.2.1 _ (by simp))
      have hT2 : s2.TInv C := hI1.ti.evo e2 dl2 th2
      have hprng2 : ∀ D ∈ s2.posted, ∀ l ∈ D, l.var < s2.nvars := by rw [e2.posted, e2.nv]; exact hI1.prng
      have hthp : ∀ α, C.Th s2.th α ↔ C.Th s.th α := by intro α; rw [th2]; exact hP.th α
      have hC2 : s2.Cache C.Th := hI1.cache.congr e2.exprs e2.nv (fun α => (Sol.congr e2.posted (by rw [th2]; exact fun _ => Iff.rfl) α).1)
      have hD : Done C s2 s' b := (propLoop_spec C _ _ _ _ w2 hn).done hS2 hT2 hprng2 hC2
      have hdl1 := hP.dl
      have hdl2 : s2.dl = s1.dl := dl2
      have hdlD := hD.evo.dl
      have hlink1 : ∀ D, s.Linked D → s2.Linked D := by
        intro D hD'
        exact e2.linked (s := { s1 with posted := s.decisions.map Lit.neg :: s1.posted }) sub2 (hP.linked D hD')
      have hlow2 : ∀ v, s.assigns v ≠ none → s.level v ≤ s'.dl → s2.assigns v = s.assigns v ∧ s2.level v = s.level v := by
        intro v hv hl
        have a := hP.evo.low v hv (by omega)
        have b := e2.low v (by show s1.assigns v ≠ none; rw [a.1]; exact hv) (by show s1.level v ≤ s2.dl; rw [a.2.1]; omega)
        exact ⟨b.1.trans a.1, b.2.1.trans a.2.1⟩
      refine ⟨hD.inv, hD.queue, by omega, ?_, ?_, ?_, ?_, ?_, ?_, ?_, ?_, ?_, ?_, ?_, ?_⟩
      · refine hD.evo.dec.trans ?_
        rw [dec2]
        show s1.decisions <:+ s.decisions.tail
        have h1 : s1.decisions.length = s.decisions.length - 1 := by
          rw [hP.inv.wf.dec, h.wf.dec]; show s1.dl = s.dl - 1; omega
        exact List.suffix_of_suffix_length_le hP.evo.dec (List.tail_suffix _) (by rw [h1]; simp)
      · intro v hv hl
        have a := hlow2 v hv hl
        have b := hD.evo.low v (by rw [a.1]; exact hv) (by rw [a.2]; exact hl)
        exact ⟨b.1.trans a.1, b.2.1.trans a.2⟩
      · intro v hv
        have hle := hD.inv.wf.level_le v
        rcases hD.evo.new v hv with h1 | h1
        · rcases e2.new v (by rw [h1.1]; exact hv) with h2 | h2
          · rcases hP.evo.new v (by
              have : s1.assigns v = s2.assigns v := h2.1
              rw [this, h1.1]; exact hv) with h3 | h3
            · left
              have a1 : s1.assigns v = s2.assigns v := h2.1
              have a2 : s1.level v = s2.level v := h2.2.1
              refine ⟨by rw [h3.1, a1, h1.1]; exact hv, ?_⟩
              rw [h3.2.1, a2, h1.2.1]; exact hle
            · right
              have a2 : s1.level v = s2.level v := h2.2.1
              omega
          · right
            have a2 : s2.level v = s'.level v := h1.2.1
            omega
        · exact Or.inr h1
      · rw [hD.evo.posted, e2.posted]
        show _ :: s1.posted = _
        rw [hP.evo.posted]
      · rw [hD.evo.nv, e2.nv]; exact hP.evo.nv
      · rw [hD.evo.exprs, e2.exprs]; exact hP.evo.exprs
      · intro D hD'; exact hD.linked D (hlink1 D hD')
      · apply hD.linked
        rcases lnk2 with ⟨h1, h2⟩ | h1
        · left
          refine ⟨l0, by rw [hng]; simp, val2, ?_⟩
          have := w2.level_le l0.var
          have h2' : s1.root = true := h2
          rw [root_iff] at h2'
          omega
        · exact Or.inr (Or.inr h1)
      · intro α; rw [hD.th α]; exact hthp α
      · intro hd
        have : s2.dead = true := by rw [dead2]; show s1.dead = true; rw [hP.dead]; exact hd
        cases b with
        | true => rw [hD.dead rfl]; exact this
        | false => exact (hD.bad rfl).1
      · intro hd
        cases b with
        | true =>
          rw [hD.dead rfl, dead2] at hd
          left; rw [← hP.dead]; exact hd
        | false => exact Or.inr ⟨rfl, fun α hα => (hD.bad rfl).2.2 α ((hD.sol α).1 hα)⟩
      · intro hb
        obtain ⟨x, y, z⟩ := hD.bad hb
        exact ⟨x, y, fun α hα => z α ((hD.sol α).1 hα)⟩

end Sat
end Semitone
