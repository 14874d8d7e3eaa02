import Verif.Sat.PropsB

/-!
# C15, C16, C17: what the constructors do on the operands excluded from the partial theorems
-/
namespace Semitone
namespace Sat
variable {T : Type} {E : Env} {O : TheoryOps T} {C : Contract O}

/-- C15: the sign error of `new_eq`: operands of different sign, exactly one of them decided. -/
def EqSignBug (s : Sat T) (a b : Lit) : Prop := a.sign ≠ b.sign ∧ ¬ (s.value a = none ↔ s.value b = none)

/-- C15: with the sign error the returned literal means the opposite of the equality, in every solution; the network does not change. With `C15_partial` this says what `new_eq` returns for all the operands. -/
theorem C15_sign_exact {s : Sat T} {a b : Lit} (h : Reach E C s) (hr : s.root = true) (hv : ∀ l ∈ [a, b], l.var < s.nvars) (hb : EqSignBug s a b) :
    ∃ r, s.newEq E a b = .ok (s, r) ∧ r.var < s.nvars ∧ ∀ α, s.Sol C.Th α → (α.sat r ↔ ¬ (α.sat a ↔ α.sat b)) := by
  have hi := h.rinv.inv
  obtain ⟨h1, h2⟩ := hb
  have hin : s.inRange [a, b] = true := by simpa [inRange] using hv
  have ha := hv a (by simp)
  have hb := hv b (by simp)
  have e : a ≠ b := fun e => h1 (by rw [e])
  have ht : ∀ {q : Lit} {α}, s.value q = some true → s.Sol C.Th α → α.sat q := fun hq hα => hi.root_true hr hq hα
  have hf : ∀ {q : Lit} {α}, s.value q = some false → s.Sol C.Th α → ¬ α.sat q := fun hq hα => hi.root_false hr hq hα
  unfold newEq
  simp only [hr, hin, Bool.true_eq_false, if_false, if_neg e]
  match hva : s.value a, hvb : s.value b with
  | some _, some _ => simp [hva, hvb] at h2
  | none, none => simp [hva, hvb] at h2
  | some true, none => exact ⟨b.neg, by simp only [if_neg h1], hb, fun α hα => by simp [ht hva hα, Asg.sat_neg]⟩
  | some false, none => exact ⟨b, by simp only [if_neg h1], hb, fun α hα => by simp [hf hva hα]⟩
  | none, some true => exact ⟨a.neg, by simp only [if_neg h1], ha, fun α hα => by simp [ht hvb hα, Asg.sat_neg]⟩
  | none, some false => exact ⟨a, by simp only [if_neg h1], ha, fun α hα => by simp [hf hvb hα]⟩

/-- The undecided literals. -/
def undecided (s : Sat T) (ls : List Lit) : List Lit := ls.filter (fun l => s.value l = none)

theorem mem_undecided {s : Sat T} {ls : List Lit} {l : Lit} : l ∈ s.undecided ls ↔ l ∈ ls ∧ s.value l = none := by simp [undecided]

/-- What the filter keeps once a true literal was met. -/
theorem filt_keeps {val : Lit → Option Bool} : ∀ {ls : List Lit} {p : Option Lit} {out : List Lit}, filt true val p ls = some out →
    (∀ l ∈ ls, val l = none → l ∈ out ∨ some l = p) ∧ (∀ l ∈ ls, val l ≠ some true) ∧ ∀ l ∈ out, l ∈ ls ∧ val l = none
  | [], p, out, h => by simp [filt] at h; subst h; simp
  | x :: ls, p, out, h => by
    simp only [filt] at h
    split at h
    · cases h
    next h1 =>
    rw [not_or] at h1
    split at h
    · next h2 =>
      obtain ⟨o, k, rfl⟩ := Option.map_eq_some_iff.mp h
      obtain ⟨a, b, c⟩ := filt_keeps k
      refine ⟨fun l hl hn => ?_, fun l hl => ?_, fun l hl => ?_⟩
      · rcases List.mem_cons.1 hl with rfl | hl
        · left; simp
        · rcases a l hl hn with a | a
          · left; simp [a]
          · left; injection a with a; simp [a]
      · rcases List.mem_cons.1 hl with rfl | hl
        · exact h1.1
        · exact b l hl
      · rcases List.mem_cons.1 hl with rfl | hl
        · refine ⟨by simp, ?_⟩
          have := h1.1
          cases hx : val l with
          | none => rfl
          | some v => rw [hx] at this h2; cases v <;> simp at this h2
        · exact ⟨by simp [(c l hl).1], (c l hl).2⟩
    · next h2 =>
      obtain ⟨a, b, c⟩ := filt_keeps h
      refine ⟨fun l hl hn => ?_, fun l hl => ?_, fun l hl => ⟨by simp [(c l hl).1], (c l hl).2⟩⟩
      · rcases List.mem_cons.1 hl with rfl | hl
        · right
          by_contra hp
          exact h2 ⟨by rw [hn]; simp, hp⟩
        · exact a l hl hn
      · rcases List.mem_cons.1 hl with rfl | hl
        · exact h1.1
        · exact b l hl

/-- What the filter of `new_at_most_one` keeps, true literals or not. -/
theorem amoFilt_keeps {val : Lit → Option Bool} : ∀ {ls : List Lit} {p : Option Lit} {out : List Lit}, amoFilt val p ls = some out →
    (∀ l ∈ ls, val l = none → l ∈ out ∨ some l = p) ∧ (∀ l ∈ ls, ∀ m ∈ ls, val l = some true → val m = some true → l = m) ∧ ∀ l ∈ out, l ∈ ls ∧ val l = none
  | [], p, out, h => by simp [amoFilt] at h; subst h; simp
  | x :: ls, p, out, h => by
    simp only [amoFilt] at h
    split at h
    · next h1 =>
      obtain ⟨a, b, c⟩ := filt_keeps h
      refine ⟨fun l hl hn => ?_, fun l hl m hm el em => ?_, fun l hl => ⟨by simp [(c l hl).1], (c l hl).2⟩⟩
      · rcases List.mem_cons.1 hl with rfl | hl
        · rw [h1] at hn; cases hn
        · exact a l hl hn
      · rcases List.mem_cons.1 hl with e1 | hl2
        · rcases List.mem_cons.1 hm with e2 | hm2
          · rw [e1, e2]
          · exact absurd em (b m hm2)
        · exact absurd el (b l hl2)
    next h1 =>
    split at h
    · next h2 =>
      obtain ⟨o, k, rfl⟩ := Option.map_eq_some_iff.mp h
      obtain ⟨a, b, c⟩ := amoFilt_keeps k
      refine ⟨fun l hl hn => ?_, fun l hl m hm el em => ?_, fun l hl => ?_⟩
      · rcases List.mem_cons.1 hl with rfl | hl
        · left; simp
        · rcases a l hl hn with a | a
          · left; simp [a]
          · left; injection a with a; simp [a]
      · rcases List.mem_cons.1 hl with rfl | hl
        · exact absurd el h1
        · rcases List.mem_cons.1 hm with rfl | hm
          · exact absurd em h1
          · exact b l hl m hm el em
      · rcases List.mem_cons.1 hl with rfl | hl
        · refine ⟨by simp, ?_⟩
          cases hx : val l with
          | none => rfl
          | some v => rw [hx] at h1 h2; cases v <;> simp at h1 h2
        · exact ⟨by simp [(c l hl).1], (c l hl).2⟩
    · next h2 =>
      obtain ⟨a, b, c⟩ := amoFilt_keeps h
      refine ⟨fun l hl hn => ?_, fun l hl m hm el em => ?_, fun l hl => ⟨by simp [(c l hl).1], (c l hl).2⟩⟩
      · rcases List.mem_cons.1 hl with rfl | hl
        · right
          by_contra hp
          exact h2 ⟨by rw [hn]; simp, hp⟩
        · exact a l hl hn
      · rcases List.mem_cons.1 hl with rfl | hl
        · exact absurd el h1
        · rcases List.mem_cons.1 hm with rfl | hm
          · exact absurd em h1
          · exact b l hl m hm el em

/-- C16 for every vector, true literals included: the call returns, every old solution extends to a new one, and the returned literal implies that at most one of the undecided literals is true and that at most one was already true. (Missing
with respect to the full claim: an undecided literal together with the one already true, `C16_true_literal`.) -/
theorem C16_any_partial {s : Sat T} {ls : List Lit} (h : Reach E C s) (hr : s.root = true) (hv : ∀ l ∈ ls, l.var < s.nvars) :
    ∃ s' r, s.newAMO E ls = .ok (s', r) ∧ r.var < s'.nvars ∧
      (∀ α, s'.Sol C.Th α → α.sat r → α.atMostOne (s.undecided ls) ∧ ∀ l ∈ ls, ∀ m ∈ ls, s.value l = some true → s.value m = some true → l = m) ∧
      (s.Local C.Th → ∀ α, s.Sol C.Th α → ∃ β, Asg.agree s.nvars α β ∧ s'.Sol C.Th β) ∧
      s'.assigns = s.assigns ∧ s'.dead = s.dead := by
  have hi := h.rinv.inv
  have hp := E.sortVar_perm ls
  obtain ⟨s', r, h1, h2, h3⟩ := newAMOGo_spec (E := E) (C := C) _ s ls hi hr hv (Nat.lt_succ_self _)
  refine ⟨s', r, h1, ?_⟩
  match ho : amoFilt s.value none (E.sortVar ls) with
  | none =>
    obtain ⟨e1, e2⟩ := h3 ho
    subst e1 e2
    exact ⟨hi.wf.nv, fun α hα hx => absurd hx (not_sat_false_lit hα), fun _ α hα => ⟨α, fun _ _ => rfl, hα⟩, rfl, rfl⟩
  | some out =>
    have A := h2 out ho
    obtain ⟨a, b, -⟩ := amoFilt_keeps ho
    refine ⟨A.reif.var, fun α hα hx => ⟨fun x hx1 y hy1 => ?_, fun l hl m hm => b l (hp.mem_iff.2 hl) m (hp.mem_iff.2 hm)⟩, A.reif.ext, A.reif.assigns, A.reif.isDead⟩
    obtain ⟨x1, x2⟩ := mem_undecided.1 hx1
    obtain ⟨y1, y2⟩ := mem_undecided.1 hy1
    exact A.reif.rel α hα hx x ((a x (hp.mem_iff.2 x1) x2).resolve_right (by simp)) y ((a y (hp.mem_iff.2 y1) y2).resolve_right (by simp))

/-- C17 for every vector, true literals included: the call returns, and the returned literal implies that exactly one of the undecided literals is true and that at most one was already true. (Missing with respect to the full claim: one
already true literal should make all the others false, `C17_true_literal`; old solutions may be lost, `C17_negative_singleton`, `C17_shared_with_amo`.) -/
theorem C17_any_partial {s : Sat T} {ls : List Lit} (h : Reach E C s) (hr : s.root = true) (hv : ∀ l ∈ ls, l.var < s.nvars) :
    ∃ s' r, s.newEXO E ls = .ok (s', r) ∧ r.var < s'.nvars ∧
      (∀ α, s'.Sol C.Th α → α.sat r → α.exactlyOne (s.undecided ls) ∧ ∀ l ∈ ls, ∀ m ∈ ls, s.value l = some true → s.value m = some true → l = m) ∧
      (∀ α, s'.Sol C.Th α → s.Sol C.Th α) := by
  have hi := h.rinv.inv
  have hp := E.sortVar_perm ls
  obtain ⟨s', r, h1, h2, h3⟩ := newEXO_spec (E := E) (C := C) hi hr hv
  refine ⟨s', r, h1, ?_⟩
  match ho : amoFilt s.value none (E.sortVar ls) with
  | none =>
    obtain ⟨e1, e2⟩ := h3 ho
    subst e1 e2
    exact ⟨hi.wf.nv, fun α hα hx => absurd hx (not_sat_false_lit hα), fun α hα => hα⟩
  | some out =>
    have A := h2 out ho
    obtain ⟨a, b, c⟩ := amoFilt_keeps ho
    refine ⟨A.var, fun α hα hx => ?_, fun α hα => A.defd.rstep.sol hα⟩
    obtain ⟨⟨l, hl, hs⟩, g⟩ := A.rel α hα hx
    refine ⟨⟨⟨l, mem_undecided.2 ⟨hp.mem_iff.1 (c l hl).1, (c l hl).2⟩, hs⟩, fun x hx1 y hy1 => ?_⟩, fun l hl m hm => b l (hp.mem_iff.2 hl) m (hp.mem_iff.2 hm)⟩
    obtain ⟨x1, x2⟩ := mem_undecided.1 hx1
    obtain ⟨y1, y2⟩ := mem_undecided.1 hy1
    exact g x ((a x (hp.mem_iff.2 x1) x2).resolve_right (by simp)) y ((a y (hp.mem_iff.2 y1) y2).resolve_right (by simp))

/-! ### The hypotheses are met -/

/-- A legal call, made after a legal history, is a step of a history. -/
theorem LReach.step_reach {E : Env} {s s' : PSat} {op : Op} {out : Out} (h : LReach E s) (hR : Reach E noContract s) (hl : s.Legal op)
    (hs : s.step E noTheory op = .ok (s', out)) : Reach E noContract s' := by
  refine .step hR (fun _ u hu => ?_) hs
  have ih := h.linv
  have hF : s.Fix s.okQ := by
    rcases ih.fix with h3 | h3
    · rw [hl.1] at h3; cases h3
    · exact h3
  obtain ⟨v, b, h3, h4, -⟩ := propagate_total' (E := E) ih.rinv.inv hF
  rw [h3] at hu
  injection hu with hu; injection hu with e3 e4
  subst e3 e4; exact h4 rfl

theorem run_reach' {E : Env} (ops : List Op) : ∀ (s s' : PSat) (outs : List Out), LReach E s → Reach E noContract s → run E ops s = some (s', outs) →
    Reach E noContract s' := by
  induction ops with
  | nil => intro s s' outs h hR hr; injection hr with hr; injection hr with e1 e2; exact e1 ▸ hR
  | cons op ops ih =>
    intro s s' outs h hR hr
    unfold run at hr
    by_cases hl : s.legalB op = true
    · rw [if_pos hl] at hr
      match hst : s.step E noTheory op with
      | .error _ => rw [hst] at hr; cases hr
      | .ok (u, out) =>
        rw [hst] at hr
        simp only [Option.map_eq_some_iff] at hr
        obtain ⟨⟨w, os⟩, h1, h2⟩ := hr
        injection h2 with e1 e2
        exact e1 ▸ ih u w os (.step h (legalB_legal hl) hst) (h.step_reach hR (legalB_legal hl) hst) h1
    · rw [if_neg hl] at hr; cases hr

/-- The states of the concrete histories are reached in the sense of the general theorems (C02–C05, C13–C20). -/
theorem demo_reach' (E : Env) (ops : List Op) : Reach E noContract (demo E ops) := by
  unfold demo
  match h : run E ops (init ()) with
  | none => exact .init trivial
  | some (s, outs) => exact run_reach' ops _ _ _ .init (.init trivial) h

/-- `1` is true and `2` undecided: `new_eq(1, !2)` returns a literal that means the operands differ. -/
example : ∃ r, demoE.newEq stdEnv (pl 1) (nl 2) = .ok (demoE, r) ∧ ∀ α, demoE.Sol noContract.Th α → (α.sat r ↔ ¬ (α.sat (pl 1) ↔ α.sat (nl 2))) := by
  obtain ⟨r, h1, -, h2⟩ := C15_sign_exact (C := noContract) (E := stdEnv) (demo_reach' stdEnv _) (s := demoE) (a := pl 1) (b := nl 2) (by decide) (by decide) ⟨by decide, by decide⟩
  exact ⟨r, h1, h2⟩

/-- `1` is true, `2` and `3` are undecided. -/
example : demoE.value (pl 1) = some true ∧ demoE.undecided [pl 1, pl 2, nl 3] = [pl 2, nl 3] := by decide

example : ∃ s' r, demoE.newAMO stdEnv [pl 1, pl 2, nl 3] = .ok (s', r) ∧ ∀ α, s'.Sol noContract.Th α → α.sat r → α.atMostOne [pl 2, nl 3] := by
  obtain ⟨s', r, h1, -, h2, -⟩ := C16_any_partial (C := noContract) (E := stdEnv) (demo_reach' stdEnv _) (s := demoE) (ls := [pl 1, pl 2, nl 3]) (by decide) (by decide)
  exact ⟨s', r, h1, fun α hα hr => (h2 α hα hr).1⟩

example : ∃ s' r, demoE.newEXO stdEnv [pl 1, pl 2, nl 3] = .ok (s', r) ∧ ∀ α, s'.Sol noContract.Th α → α.sat r → α.exactlyOne [pl 2, nl 3] := by
  obtain ⟨s', r, h1, -, h2, -⟩ := C17_any_partial (C := noContract) (E := stdEnv) (demo_reach' stdEnv _) (s := demoE) (ls := [pl 1, pl 2, nl 3]) (by decide) (by decide)
  exact ⟨s', r, h1, fun α hα hr => (h2 α hα hr).1⟩

end Sat
end Semitone
