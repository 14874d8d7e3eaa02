import Verif.Lib.TalkProps
import Verif.DL.PropsB

/-!
# C84: the same with theories of difference logic

As long as no theory of difference logic is told a literal in an unsafe situation (`Mix.C66_witness` shows what happens then), a solver with any number of theories of the three kinds decides exactly what the client has asked for.
-/
namespace Semitone
namespace Family
open Lin
variable {E : Env} {T : Type} {C : Comp T} {f : Family E C} {S S' : Sat T} {U : C.Dat} {d : Bool} {tr : List (Said f)}

theorem safe_step {op : Sat.Op} {out : Sat.Out} (hs : S.step E f.safe op = .ok (S', out)) : S.step E f.safe op ≠ .error .excluded ∧ S.step E C.ops op = .ok (S', out) := by
  have h : S.step E f.safe op ≠ .error .excluded := by rw [hs]; simp
  exact ⟨h, (Duty.safe_eq (D := f.duty) h).symm.trans hs⟩

theorem SafeTalk.told {tr : List (Said f)} {S : Sat T} {U : C.Dat} {d : Bool} (h : SafeTalk f tr S U d) : f.Sess S U d ∧ Told f tr S U := by
  induction h with
  | init h => exact ⟨.init h, told_init h⟩
  | search _ ho hl hm hs ih => exact ⟨.step ih.1 hl hm (safe_step hs).1 (safe_step hs).2, told_search (Duty.held ih.1).seat ih.2 ho hl hs⟩
  | core _ ha hl hm hs ih => exact ⟨.step ih.1 hl hm (safe_step hs).1 (safe_step hs).2, told_core (Duty.held ih.1).seat ih.2 ha hl hs⟩
  | theory _ hd hr ha hd' ih =>
    obtain ⟨k1, k2⟩ := told_theory (Duty.held ih.1) ih.2 hd hr ha
    exact ⟨.theory ih.1 hd k1 hd', k2⟩
  | next _ hr hk hl hm hs ih => exact ⟨.step ih.1 hl hm (safe_step hs).1 (safe_step hs).2, told_next (Duty.held ih.1).seat ih.2 hr hk hl hs⟩
  | allows W _ hd hv ih => exact ⟨ih.1, told_allows W (Duty.held ih.1) rfl (Nat.le_refl _) (fun _ k => k) ih.2 hd hv⟩

/-- Without difference logic this is C82. -/
theorem Talk.to_safe (hf : f.Plain) (h : Talk f tr S U d) : SafeTalk f tr S U d := by
  show TalkOn f f.safe tr S U d
  rw [hf.safe]; exact h

/-- C84 (partial): the client that decides until all variables are assigned gets an answer, unless difference logic is told a literal in an unsafe situation. `true`: all variables are assigned, and the truth values with the values reported by the
theories (for every small enough value of the infinitesimal; all the positions of the time points that respect the distances reported) are a solution of the conjunction of all the requests; `false`: the requests have no solution. -/
theorem C84_decides_partial (h : SafeTalk f tr S U d) (hd : S.dead = false) {pick : Sat T → Option Lit} (hh : Sat.Heuristic pick) {k : Nat} (hk : (S.nvars + 2) ^ (S.dl + S.nvars + 1) ≤ k)
    (ha : Sat.solve E f.safe pick k S ≠ .error .excluded) :
    ∃ S' b, Sat.solve E C.ops pick k S = .ok (S', b) ∧
      (b = true → (∀ v, v < S.nvars → S'.assigns v ≠ none) ∧ ∃ δ0 : ℚ, 0 < δ0 ∧ ∀ δ, 0 < δ → δ ≤ δ0 →
        (∃ x, C.Rep S' δ x) ∧ ∀ x, C.Rep S' δ x → Meets tr (fun v => S'.assigns v = some true) x) ∧
      (b = false → ¬ ∃ α x, Meets tr α x) := by
  obtain ⟨hs, ht⟩ := h.told
  obtain ⟨S', b, k1, k2, k3⟩ := C79_decides_partial hs hd hh hk ha
  refine ⟨S', b, k1, fun hb => ?_, fun hb ⟨α, x, hm⟩ => ?_⟩
  · obtain ⟨a, δ0, c1, c2⟩ := k2 hb
    exact ⟨a, δ0, c1, fun δ e1 e2 => ⟨(c2 δ e1 e2).1, fun x hx => ht.back _ x ((c2 δ e1 e2).2 x hx)⟩⟩
  · obtain ⟨β, y, a, -⟩ := ht.forth α x hm
    exact k3 hb ⟨β, y, a⟩

/-- C84 (partial): a failed call means that the requests have no solution; `propagate()` returning false too; `assume(p)` returning false means that no solution is compatible with `p` and the decisions. -/
theorem C84_definitive_partial (h : SafeTalk f tr S U d) :
    (S.dead = true → ∀ α x, ¬ Meets tr α x) ∧
    (S.step E f.safe .propagate ≠ .error .excluded → S.propagate E C.ops = .ok (S', false) → ∀ α x, ¬ Meets tr α x) ∧
    (∀ p, S.step E f.safe (.assume p) ≠ .error .excluded → S.assume E C.ops p = .ok (S', false) → Known tr p.var → (∀ l ∈ S.decisions, Known tr l.var) → ∀ α x, Meets tr α x → ¬ α.all (p :: S.decisions)) := by
  obtain ⟨hs, ht⟩ := h.told
  refine ⟨fun hd α x hm => ?_, fun ha hp α x hm => ?_, fun p ha hp hk hks α x hm hal => ?_⟩ <;> obtain ⟨β, y, a, b⟩ := ht.forth α x hm
  · exact (C77_sound_partial hs).2.2 hd β y a
  · exact ((C77_definitive_partial hs).1 ha hp).2 β y a
  · refine (C77_definitive_partial hs).2 p ha hp β y a ((all_known b.lit (fun l hl => ?_)).mpr hal)
    rcases List.mem_cons.mp hl with rfl | hl
    · exact hk
    · exact hks l hl

/-- C84 (partial): what `value` reports true holds in every solution of the requests compatible with the decisions taken up to the level where it was assigned. -/
theorem C84_values_partial (h : SafeTalk f tr S U d) {q : Lit} (hq : S.value q = some true) (hk : Known tr q.var) (hks : ∀ l ∈ S.decUpTo (S.level q.var), Known tr l.var) :
    ∀ α x, Meets tr α x → α.all (S.decUpTo (S.level q.var)) → α.sat q := fun α x hm ha => by
  obtain ⟨hs, ht⟩ := h.told
  obtain ⟨β, y, a, b⟩ := ht.forth α x hm
  exact (known_sat b.lit hk).mp ((C77_sound_partial hs).2.1 q hq β y a ((all_known b.lit hks).mpr ha))

/-- C84 (partial): the distances that the theories of difference logic report bound the difference of any two time points in every solution of the requests compatible with the decisions. -/
theorem C84_distances_partial (h : SafeTalk f tr S U d) {R : Type} [AddCommGroup R] [LinearOrder R] [IsOrderedAddMonoid R] [Dom R] (W : (Family.diff (E := E) R).Has f) {i j : Nat} (hi : i < (W.within.th S.th).nv) (hj : j < (W.within.th S.th).nv)
    (hks : ∀ l ∈ S.decisions, Known tr l.var) :
    ∀ α x, Meets tr α x → α.all S.decisions →
      (((W.val x : Nat → R) j - (W.val x : Nat → R) i : R) : WithTop R) ≤ ((W.within.th S.th).distance i j).2 := fun α x hm ha => by
  obtain ⟨hs, ht⟩ := h.told
  obtain ⟨β, y, a, b⟩ := ht.forth α x hm
  have := C77_distances_partial W hs i j hi hj β y a ((all_known b.lit hks).mpr ha)
  rw [b.pts W i, b.pts W j] at this
  exact this

/-- C84 (partial): the bounds of a variable of linear arithmetic contain its value in every solution of the requests compatible with the decisions. -/
theorem C84_bounds_partial (h : SafeTalk f tr S U d) {L : LEnv} (W : (Family.arith L).Has f) {v : Nat} (hv : KnownNum tr W v) (hks : ∀ l ∈ S.decisions, Known tr l.var) :
    ∀ α x, Meets tr α x → α.all S.decisions →
      (W.within.th S.th).lo v ≤ ((IQ.ofQ ((W.val x : Nat → ℚ) v) : IQ) : WithBot IQ) ∧ ((IQ.ofQ ((W.val x : Nat → ℚ) v) : IQ) : WithTop IQ) ≤ (W.within.th S.th).hi v := fun α x hm ha => by
  obtain ⟨hs, ht⟩ := h.told
  obtain ⟨β, y, a, b⟩ := ht.forth α x hm
  have := C77_arith_bounds_partial W hs v β y a ((all_known b.lit hks).mpr ha)
  rw [b.num W v hv] at this
  exact this

/-- C84 (partial): `value` of an object variable contains its value in every solution of the requests compatible with the decisions. -/
theorem C84_object_partial (h : SafeTalk f tr S U d) (hd : S.dead = false) {A : Type} [DecidableEq A] {D : OEnv A} (W : (Family.object (E := E) D).Has f) {v : Nat} (hv : KnownObj tr W v) (hks : ∀ l ∈ S.decisions, Known tr l.var) :
    ∀ α x, Meets tr α x → α.all S.decisions → ∃ a, (W.val x : Nat → List A) v = [a] ∧ a ∈ OV.value S (W.within.th S.th) v := fun α x hm ha => by
  obtain ⟨hs, ht⟩ := h.told
  obtain ⟨β, y, a, b⟩ := ht.forth α x hm
  have hr := ht.rng.resolve_left (by rw [hd]; simp)
  obtain ⟨items, hi⟩ := hv
  obtain ⟨c, -, hc⟩ := hm.2 _ hi
  have := C77_object_values_partial W hs v (hr.obj W v ⟨items, hi⟩) β y a ((all_known b.lit hks).mpr ha)
  rw [b.obj W v ⟨items, hi⟩] at this
  exact ⟨c, hc, this c (by have hc : (W.val x : Nat → List A) v = [c] := hc; rw [hc]; exact List.mem_singleton_self _)⟩

/-- C84 (partial): the network never holds more solutions than the requests, nor fewer. -/
theorem C84_exact_partial (h : SafeTalk f tr S U d) :
    (∀ α x, f.Model S U α x → Meets tr α x) ∧
    ∀ α x, Meets tr α x → ∃ β y, f.Model S U β y ∧ (∀ v, Known tr v → β v = α v) ∧
      (∀ {L : LEnv} (W : (Family.arith L).Has f) v, KnownNum tr W v → (W.val y : Nat → ℚ) v = (W.val x : Nat → ℚ) v) ∧
      (∀ {A : Type} [DecidableEq A] {D : OEnv A} (W : (Family.object (E := E) D).Has f) v, KnownObj tr W v → (W.val y : Nat → List A) v = (W.val x : Nat → List A) v) ∧
      (∀ {R : Type} [AddCommGroup R] [LinearOrder R] [IsOrderedAddMonoid R] [Dom R] (W : (Family.diff (E := E) R).Has f) v, (W.val y : Nat → R) v = (W.val x : Nat → R) v) := by
  obtain ⟨-, ht⟩ := h.told
  refine ⟨ht.back, fun α x hm => ?_⟩
  obtain ⟨β, y, a, b⟩ := ht.forth α x hm
  exact ⟨β, y, a, b.lit, b.num, b.obj, b.pts⟩

/-- C84 (partial): two clients whose requests are equally solvable get the same answer, with or without difference logic, unless difference logic is told a literal in an unsafe situation. -/
theorem C84_same_answer_partial (h : SafeTalk f tr S U d) (hd : S.dead = false) {pick : Sat T → Option Lit} (hh : Sat.Heuristic pick) {k : Nat} (hk : (S.nvars + 2) ^ (S.dl + S.nvars + 1) ≤ k) (ha : Sat.solve E f.safe pick k S ≠ .error .excluded)
    {E2 : Env} {T2 : Type} {C2 : Comp T2} {g : Family E2 C2} {tr2 : List (Said g)} {S2 : Sat T2} {U2 : C2.Dat} {d2 : Bool} (h2 : SafeTalk g tr2 S2 U2 d2) (hd2 : S2.dead = false) {pick2 : Sat T2 → Option Lit}
    (hh2 : Sat.Heuristic pick2) {k2 : Nat} (hk2 : (S2.nvars + 2) ^ (S2.dl + S2.nvars + 1) ≤ k2) (ha2 : Sat.solve E2 g.safe pick2 k2 S2 ≠ .error .excluded) (he : (∃ α x, Meets tr α x) ↔ ∃ α x, Meets tr2 α x) :
    ∃ S' S2' b, Sat.solve E C.ops pick k S = .ok (S', b) ∧ Sat.solve E2 C2.ops pick2 k2 S2 = .ok (S2', b) := by
  obtain ⟨S', b, a1, a2, a3⟩ := C84_decides_partial h hd hh hk ha
  obtain ⟨S2', b2, c1, c2, c3⟩ := C84_decides_partial h2 hd2 hh2 hk2 ha2
  refine ⟨S', S2', b, a1, ?_⟩
  rcases b with _ | _ <;> rcases b2 with _ | _
  · exact c1
  · exact absurd (by obtain ⟨-, δ, e1, e2⟩ := c2 rfl; obtain ⟨⟨x, hx⟩, e3⟩ := e2 δ e1 le_rfl; exact he.mpr ⟨_, x, e3 x hx⟩) (a3 rfl)
  · exact absurd (by obtain ⟨-, δ, e1, e2⟩ := a2 rfl; obtain ⟨⟨x, hx⟩, e3⟩ := e2 δ e1 le_rfl; exact he.mp ⟨_, x, e3 x hx⟩) (c3 rfl)
  · exact c1

/-- C84 (partial): a distance asked for at root level, between time points that exist, is always answered; so is a new time point. -/
theorem C84_answered_partial (h : SafeTalk f tr S U d) (hd : S.dead = false) (hr : S.root = true) {R : Type} [AddCommGroup R] [LinearOrder R] [IsOrderedAddMonoid R] [Dom R] (W : (Family.diff (E := E) R).Has f) :
    (∃ S', SafeTalk f (.point W (W.within.th S.th).nv :: tr) S' U d ∧ (W.within.th S'.th).nv = (W.within.th S.th).nv + 1) ∧
    ∀ i j (w : R), i < (W.within.th S.th).nv → j < (W.within.th S.th).nv → ∃ s p, DL.newDistance (W.within.view S) i j w = .ok (s, p) ∧ SafeTalk f (.apart W i j w p :: tr) (W.within.put S s) U d := by
  obtain ⟨hs, ht⟩ := h.told
  have h1 : (W.within.view S).th.newVar.2 = (W.within.th S.th).nv := by rw [(W.within.sees S).th]; unfold DL.newVar; simp only
  have h2 : (W.within.view S).th.newVar.1.nv = (W.within.th S.th).nv + 1 := by rw [(W.within.sees S).th]; unfold DL.newVar; simp only; split <;> rfl
  have h3 : SafeTalk f (.point W (W.within.view S).th.newVar.2 :: tr) (W.within.put S { W.within.view S with th := (W.within.view S).th.newVar.1 }) U d := .theory h hd hr (.point W) (.inr ⟨rfl, rfl⟩)
  rw [h1] at h3
  refine ⟨⟨_, h3, by rw [th_put]; exact h2⟩, fun i j w hi hj => ?_⟩
  obtain ⟨Z, k⟩ := W.seen anyAsg S U (Duty.held hs).si
  obtain ⟨s, p, hn⟩ := DL.newDistance_total (w := w) k.diffSI (i := i) (j := j) (by rw [(W.within.sees S).th]; exact hi) (by rw [(W.within.sees S).th]; exact hj)
  exact ⟨s, p, hn, .theory h hd hr (.apart W hi hj hn) (.inr ⟨rfl, rfl⟩)⟩

/-- C84 (partial): a relation asked for at root level between linear expressions over time points that exist is answered when their difference has the form that integer difference logic accepts (and else rejected with an exception). -/
theorem C84_relations_partial (h : SafeTalk f tr S U d) (hd : S.dead = false) (hr : S.root = true) (W : (Family.diff (E := E) ℤ).Has f) {R : DL.Rel} {l r : Lin} (hl : l.Canon) (hr' : r.Canon)
    (kl : ∀ t ∈ l.vars, t.1 < (W.within.th S.th).nv) (kr : ∀ t ∈ r.vars, t.1 < (W.within.th S.th).nv) :
    (¬ DL.IsDiff ℤ l r → DL.newRel E R (W.within.view S) l r = .error .invalid) ∧
    (DL.IsDiff ℤ l r → (R = .gt → ¬ ∃ a b c c', 0 < c ∧ (l.sub r).vars = [(a, c), (b, c')]) →
      ∃ s p, DL.newRel E R (W.within.view S) l r = .ok (s, p) ∧ SafeTalk f (.between W R l r p :: tr) (W.within.put S s) U d) := by
  obtain ⟨hs, ht⟩ := h.told
  refine ⟨fun hn => (DL.C33_idl_accepts hl hr').1 hn, fun hi hb => ?_⟩
  obtain ⟨Z, k⟩ := W.seen anyAsg S U (Duty.held hs).si
  obtain ⟨s, p, hn⟩ := DL.newRel_total (E := E) (R := R) k.diffSI (by rw [← hr]; exact (W.within.sees S).root) hl hr' (by rw [(W.within.sees S).th]; exact kl) (by rw [(W.within.sees S).th]; exact kr) (DL.isDiff_form hl hr' hi)
  exact ⟨s, p, hn, .theory h hd hr (.between W hl hr' kl kr hb hn) (.inr ⟨rfl, rfl⟩)⟩

end Family
end Semitone
