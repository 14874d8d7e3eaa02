import Verif.Lib.StackTalkProps
import Verif.Lib.TalkSafe

/-!
# C85: stacks of cores with theories of difference logic: the core on top decides exactly what was asked for

As long as no theory of difference logic is told a literal in an unsafe situation (`Mix.C66_witness` shows what happens then).
-/
namespace Semitone
namespace Family
open Lin
variable {E : Env} {T : Type} {C : Comp T} {f : Family E C} {S S' : Sat T} {U : C.Dat} {d : Bool} {tr : List (Said f)} {rest l : List (List (Said f) × Sat T × Bool)}

theorem stack_resumes (h : f.Stack [(S, d)] U) : f.Held S U d := by
  obtain ⟨top, S0, d0, e, h0, -⟩ := Duty.stacked (D := f.duty) h
  cases top with
  | nil =>
    simp at e
    obtain ⟨rfl, rfl⟩ := e
    exact h0
  | cons a top => simp at e

/-- What the client has asked for, and what the cores hold, with difference logic. -/
theorem SafeStackTalk.told {l : List (List (Said f) × Sat T × Bool)} {U : C.Dat} (h : SafeStackTalk f l U) : f.Stack (l.map Prod.snd) U ∧ ∀ a ∈ l, Told f a.1 a.2.1 U := by
  induction h with
  | init h => exact ⟨.init h, fun a ha => by rw [List.mem_singleton.mp ha]; exact told_init h⟩
  | search _ ho hl hm hs ih =>
    obtain ⟨i1, i2⟩ := ih
    obtain ⟨K, V, s⟩ := (Duty.stacked (D := f.duty) i1).seat
    exact ⟨.step i1 hl hm (safe_step hs).1 (safe_step hs).2, List.forall_mem_cons.mpr ⟨told_search s (i2 _ List.mem_cons_self) ho hl hs, fun a ha => i2 a (List.mem_cons_of_mem _ ha)⟩⟩
  | core _ hc hl hm hs ih =>
    obtain ⟨i1, i2⟩ := ih
    obtain ⟨K, V, s⟩ := (Duty.stacked (D := f.duty) i1).seat
    exact ⟨.step i1 hl hm (safe_step hs).1 (safe_step hs).2, List.forall_mem_cons.mpr ⟨told_core s (i2 _ List.mem_cons_self) hc hl hs, fun a ha => i2 a (List.mem_cons_of_mem _ ha)⟩⟩
  | next _ hr hk hl hm hs ih =>
    obtain ⟨i1, i2⟩ := ih
    obtain ⟨K, V, s⟩ := (Duty.stacked (D := f.duty) i1).seat
    exact ⟨.step i1 hl hm (safe_step hs).1 (safe_step hs).2, List.forall_mem_cons.mpr ⟨told_next s (i2 _ List.mem_cons_self) hr hk hl hs, fun a ha => i2 a (List.mem_cons_of_mem _ ha)⟩⟩
  | theory _ hd hr ha hd' ih =>
    obtain ⟨i1, i2⟩ := ih
    obtain ⟨k1, k2⟩ := told_theory (stack_resumes i1) (i2 _ List.mem_cons_self) hd hr ha
    exact ⟨.theory i1 hd k1 hd', fun a ha => by rw [List.mem_singleton.mp ha]; exact k2⟩
  | allows W _ hd hv ih =>
    obtain ⟨i1, i2⟩ := ih
    obtain ⟨S0, d0, b1, b2, b3, b4⟩ := (Duty.stacked (D := f.duty) i1).base
    exact ⟨i1, List.forall_mem_cons.mpr ⟨told_allows W b1 (b2 _ List.mem_cons_self) b3 b4 (i2 _ List.mem_cons_self) hd hv, fun a ha => i2 a (List.mem_cons_of_mem _ ha)⟩⟩
  | push _ hd hq hdec hk hs ih =>
    obtain ⟨i1, i2⟩ := ih
    have i3 : f.Stack _ _ := .push i1 hd hq hdec (by rw [map_fst]; exact hs)
    obtain ⟨c, h1, -, -, -, h2, h3, -⟩ := Duty.stack_push (D := f.duty) i1 hd hq hdec
    rw [map_fst, hs] at h1
    injection h1 with h1; injection h1 with h1 _
    subst h1
    obtain ⟨S0, d0, b1, b2, b3, b4⟩ := (Duty.stacked (D := f.duty) i3).base
    have he := (b2 _ List.mem_cons_self).trans (b2 _ (List.mem_cons_of_mem _ List.mem_cons_self)).symm
    exact ⟨i3, List.forall_mem_cons.mpr ⟨told_push (i2 _ List.mem_cons_self) hd hk h2 h3 he, i2⟩⟩
  | pop _ hr hs ih =>
    obtain ⟨i1, i2⟩ := ih
    obtain ⟨S1, h1, h2, h3, -⟩ := (Duty.stacked (D := f.duty) i1).pop hr
    have i3 : f.Stack _ _ := .pop i1 hr (by rw [map_fst]; exact hs)
    rw [map_fst, hs] at h1
    injection h1 with h1; injection h1 with h1 _
    subst h1
    have i4 := i2 _ (List.mem_cons_of_mem _ List.mem_cons_self)
    exact ⟨i3, List.forall_mem_cons.mpr ⟨told_pop i4 h2 h3, fun a ha => i2 a (List.mem_cons_of_mem _ (List.mem_cons_of_mem _ ha))⟩⟩

/-- C85 (partial): whatever was pushed, popped, asked for and searched, the client that decides on the top core until all variables are assigned gets an answer: true, with an assignment that, together with the values that the theories report (for every small
enough value of the infinitesimal), is a solution of the problem of that core; or false, and that problem has no solution. -/
theorem C85_decides_partial (h : SafeStackTalk f ((tr, S, d) :: rest) U) (hd : S.dead = false) {pick : Sat T → Option Lit} (hh : Sat.Heuristic pick) {k : Nat} (hk : (S.nvars + 2) ^ (S.dl + S.nvars + 1) ≤ k)
    (ha : Sat.solve E f.safe pick k S ≠ .error .excluded) :
    ∃ S' b, Sat.solve E C.ops pick k S = .ok (S', b) ∧
      (b = true → (∀ v, v < S.nvars → S'.assigns v ≠ none) ∧ ∃ δ0 : ℚ, 0 < δ0 ∧ ∀ δ, 0 < δ → δ ≤ δ0 →
        (∃ x, C.Rep S' δ x) ∧ ∀ x, C.Rep S' δ x → Meets tr (fun v => S'.assigns v = some true) x) ∧
      (b = false → ¬ ∃ α x, Meets tr α x) := by
  obtain ⟨hs, ht⟩ := h.told
  have ht := ht _ List.mem_cons_self
  obtain ⟨S', b, k1, k2, k3⟩ := C81_decides_partial hs hd hh hk ha
  refine ⟨S', b, k1, fun hb => ?_, fun hb ⟨α, x, hm⟩ => ?_⟩
  · obtain ⟨a, δ0, c1, c2⟩ := k2 hb
    exact ⟨a, δ0, c1, fun δ e1 e2 => ⟨(c2 δ e1 e2).1, fun x hx => ht.back _ x ((c2 δ e1 e2).2 x hx)⟩⟩
  · obtain ⟨β, y, a, -⟩ := ht.forth α x hm
    exact k3 hb ⟨β, y, a⟩

/-- C85 (partial): the answer on the top core of a stack is the one that a single core would give, had it been asked for the same: whatever the stack went through, and whatever the two clients decide. -/
theorem C85_same_answer_partial (h : SafeStackTalk f ((tr, S, d) :: rest) U) (hd : S.dead = false) {pick : Sat T → Option Lit} (hh : Sat.Heuristic pick) {k : Nat} (hk : (S.nvars + 2) ^ (S.dl + S.nvars + 1) ≤ k) (ha : Sat.solve E f.safe pick k S ≠ .error .excluded)
    {E2 : Env} {T2 : Type} {C2 : Comp T2} {g : Family E2 C2} {tr2 : List (Said g)} {S2 : Sat T2} {U2 : C2.Dat} {d2 : Bool} (h2 : SafeTalk g tr2 S2 U2 d2) (hd2 : S2.dead = false) {pick2 : Sat T2 → Option Lit}
    (hh2 : Sat.Heuristic pick2) {k2 : Nat} (hk2 : (S2.nvars + 2) ^ (S2.dl + S2.nvars + 1) ≤ k2) (ha2 : Sat.solve E2 g.safe pick2 k2 S2 ≠ .error .excluded) (he : (∃ α x, Meets tr α x) ↔ ∃ α x, Meets tr2 α x) :
    ∃ S' S2' b, Sat.solve E C.ops pick k S = .ok (S', b) ∧ Sat.solve E2 C2.ops pick2 k2 S2 = .ok (S2', b) := by
  obtain ⟨S', b, a1, a2, a3⟩ := C85_decides_partial h hd hh hk ha
  obtain ⟨S2', b2, c1, c2, c3⟩ := C84_decides_partial h2 hd2 hh2 hk2 ha2
  refine ⟨S', S2', b, a1, ?_⟩
  rcases b with _ | _ <;> rcases b2 with _ | _
  · exact c1
  · exact absurd (by obtain ⟨-, δ, e1, e2⟩ := c2 rfl; obtain ⟨⟨x, hx⟩, e3⟩ := e2 δ e1 le_rfl; exact he.mpr ⟨_, x, e3 x hx⟩) (a3 rfl)
  · exact absurd (by obtain ⟨-, δ, e1, e2⟩ := a2 rfl; obtain ⟨⟨x, hx⟩, e3⟩ := e2 δ e1 le_rfl; exact he.mp ⟨_, x, e3 x hx⟩) (c3 rfl)
  · exact c1

/-- C85 (partial): a failed call on the top core means that its problem has no solution; `propagate()` returning false too; `assume(p)` returning false means that none is compatible with `p` and the decisions of that core. -/
theorem C85_definitive_partial (h : SafeStackTalk f ((tr, S, d) :: rest) U) :
    (S.dead = true → ∀ α x, ¬ Meets tr α x) ∧
    (S.step E f.safe .propagate ≠ .error .excluded → S.propagate E C.ops = .ok (S', false) → ∀ α x, ¬ Meets tr α x) ∧
    (∀ p, S.step E f.safe (.assume p) ≠ .error .excluded → S.assume E C.ops p = .ok (S', false) → Known tr p.var → (∀ l ∈ S.decisions, Known tr l.var) → ∀ α x, Meets tr α x → ¬ α.all (p :: S.decisions)) := by
  obtain ⟨hs, ht⟩ := h.told
  have ht := ht _ List.mem_cons_self
  refine ⟨fun hd α x hm => ?_, fun ha hp α x hm => ?_, fun p ha hp hk hks α x hm hal => ?_⟩ <;> obtain ⟨β, y, a, b⟩ := ht.forth α x hm
  · exact (C81_sound_partial hs).2.2 hd β y a
  · exact Duty.stack_definitive (D := f.duty) hs |>.1 ha hp β y (model_iff.mpr a)
  · refine (Duty.stack_definitive (D := f.duty) hs).2 p ha hp β y (model_iff.mpr a) ((all_known b.lit (fun l hl => ?_)).mpr hal)
    rcases List.mem_cons.mp hl with rfl | hl
    · exact hk
    · exact hks l hl

/-- C85 (partial): what `value` reports true on the top core holds in every solution of its problem compatible with the decisions taken on that core up to the level where it was assigned. -/
theorem C85_values_partial (h : SafeStackTalk f ((tr, S, d) :: rest) U) {q : Lit} (hq : S.value q = some true) (hk : Known tr q.var) (hks : ∀ l ∈ S.decUpTo (S.level q.var), Known tr l.var) :
    ∀ α x, Meets tr α x → α.all (S.decUpTo (S.level q.var)) → α.sat q := fun α x hm ha => by
  obtain ⟨hs, ht⟩ := h.told
  obtain ⟨β, y, a, b⟩ := (ht _ List.mem_cons_self).forth α x hm
  exact (known_sat b.lit hk).mp ((C81_sound_partial hs).2.1 q hq β y a ((all_known b.lit hks).mpr ha))

/-- C85 (partial): while a stack has any number of cores, the distances that the theories of difference logic report bound the difference of any two time points in every solution of the problem on top compatible with its decisions. -/
theorem C85_distances_partial (h : SafeStackTalk f ((tr, S, d) :: rest) U) {R : Type} [AddCommGroup R] [LinearOrder R] [IsOrderedAddMonoid R] [Dom R] (W : (Family.diff (E := E) R).Has f) {i j : Nat} (hi : i < (W.within.th S.th).nv)
    (hj : j < (W.within.th S.th).nv) (hks : ∀ l ∈ S.decisions, Known tr l.var) :
    ∀ α x, Meets tr α x → α.all S.decisions → (((W.val x : Nat → R) j - (W.val x : Nat → R) i : R) : WithTop R) ≤ ((W.within.th S.th).distance i j).2 := fun α x hm ha => by
  obtain ⟨hs, ht⟩ := h.told
  obtain ⟨β, y, a, b⟩ := (ht _ List.mem_cons_self).forth α x hm
  have := C81_distances_partial W hs i j hi hj β y a ((all_known b.lit hks).mpr ha)
  rw [b.pts W i, b.pts W j] at this
  exact this

/-- C85 (partial): while a stack has any number of cores, the bounds that the theories of linear arithmetic report contain the values of every solution of the problem on top compatible with its decisions. -/
theorem C85_bounds_partial (h : SafeStackTalk f ((tr, S, d) :: rest) U) {L : LEnv} (W : (Family.arith L).Has f) {v : Nat} (hv : KnownNum tr W v) (hks : ∀ l ∈ S.decisions, Known tr l.var) :
    ∀ α x, Meets tr α x → α.all S.decisions →
      (W.within.th S.th).lo v ≤ ((IQ.ofQ ((W.val x : Nat → ℚ) v) : IQ) : WithBot IQ) ∧ ((IQ.ofQ ((W.val x : Nat → ℚ) v) : IQ) : WithTop IQ) ≤ (W.within.th S.th).hi v := fun α x hm ha => by
  obtain ⟨hs, ht⟩ := h.told
  obtain ⟨β, y, a, b⟩ := (ht _ List.mem_cons_self).forth α x hm
  have := C81_arith_bounds_partial W hs v β y a ((all_known b.lit hks).mpr ha)
  rw [b.num W v hv] at this
  exact this

/-- C85 (partial): and `value` of an object variable, asked on the top core, contains its value in every such solution. -/
theorem C85_object_partial (h : SafeStackTalk f ((tr, S, d) :: rest) U) (hd : S.dead = false) {A : Type} [DecidableEq A] {D : OEnv A} (W : (Family.object (E := E) D).Has f) {v : Nat} (hv : KnownObj tr W v) (hks : ∀ l ∈ S.decisions, Known tr l.var) :
    ∀ α x, Meets tr α x → α.all S.decisions → ∃ a, (W.val x : Nat → List A) v = [a] ∧ a ∈ OV.value S (W.within.th S.th) v := fun α x hm ha => by
  obtain ⟨hs, ht⟩ := h.told
  have ht := ht _ List.mem_cons_self
  obtain ⟨β, y, a, b⟩ := ht.forth α x hm
  have hr : Ranges tr S := ht.rng.resolve_left (by rw [hd]; simp)
  obtain ⟨items, hi⟩ := hv
  obtain ⟨c, -, hc⟩ := hm.2 _ hi
  have := C81_object_values_partial W hs v (hr.obj W v ⟨items, hi⟩) β y a ((all_known b.lit hks).mpr ha)
  rw [b.obj W v ⟨items, hi⟩] at this
  exact ⟨c, hc, this c (by have hc : (W.val x : Nat → List A) v = [c] := hc; rw [hc]; exact List.mem_singleton_self _)⟩

/-- C85 (partial): the network of the top core and its problem have the same solutions, as far as the client can see. -/
theorem C85_exact_partial (h : SafeStackTalk f ((tr, S, d) :: rest) U) :
    (∀ α x, f.Model S U α x → Meets tr α x) ∧
    ∀ α x, Meets tr α x → ∃ β y, f.Model S U β y ∧ (∀ v, Known tr v → β v = α v) ∧
      (∀ {L : LEnv} (W : (Family.arith L).Has f) v, KnownNum tr W v → (W.val y : Nat → ℚ) v = (W.val x : Nat → ℚ) v) ∧
      (∀ {A : Type} [DecidableEq A] {D : OEnv A} (W : (Family.object (E := E) D).Has f) v, KnownObj tr W v → (W.val y : Nat → List A) v = (W.val x : Nat → List A) v) ∧
      (∀ {R : Type} [AddCommGroup R] [LinearOrder R] [IsOrderedAddMonoid R] [Dom R] (W : (Family.diff (E := E) R).Has f) v, (W.val y : Nat → R) v = (W.val x : Nat → R) v) := by
  obtain ⟨-, ht⟩ := h.told
  have ht := ht _ List.mem_cons_self
  refine ⟨ht.back, fun α x hm => ?_⟩
  obtain ⟨β, y, a, b⟩ := ht.forth α x hm
  exact ⟨β, y, a, b.lit, b.num, b.obj, b.pts⟩

/-- C85 (partial): `push` always works when nothing is pending, no contradiction was found and the decisions are true and known to the client; `pop` always works when no decision of the top core is open, and gives back the problem below: the
client that decides there gets the answer to that problem, whatever was done in between. -/
theorem C85_push_pop_partial :
    (SafeStackTalk f ((tr, S, false) :: rest) U → S.dead = false → S.propQ = [] → (∀ p ∈ S.decisions, S.value p = some true) → (∀ p ∈ S.decisions, Known tr p.var) →
      ∃ c, Sat.pushTop E C.ops (S :: rest.map (fun r => r.2.1)) = .ok (c :: S :: rest.map (fun r => r.2.1)) ∧ c.root = true ∧ c.dead = false ∧ SafeStackTalk f ((assuming S.decisions tr, c, false) :: (tr, S, false) :: rest) U) ∧
    (∀ {tu : List (Said f)} {u : Sat T} {d' : Bool}, SafeStackTalk f ((tu, u, d') :: (tr, S, d) :: rest) U → u.root = true →
      ∃ S', Sat.popTop C.ops (u :: S :: rest.map (fun r => r.2.1)) = .ok (S' :: rest.map (fun r => r.2.1)) ∧ (∀ q, S'.value q = S.value q) ∧ S'.decisions = S.decisions ∧ SafeStackTalk f ((tr, S', d) :: rest) U) := by
  refine ⟨fun h hd hq hdec hk => ?_, fun {tu u d'} h hr => ?_⟩
  · obtain ⟨c, h1, h2, -, h3, -⟩ := C81_push_succeeds_partial (h.told).1 hd hq hdec
    rw [map_fst] at h1
    exact ⟨c, h1, h2, h3, .push h hd hq hdec hk h1⟩
  · obtain ⟨S', h1, h2, -⟩ := C81_pop_succeeds_partial (h.told).1 hr
    rw [map_fst] at h1
    exact ⟨S', h1, fun q => by rw [h2]; rfl, by rw [h2], .pop h hr h1⟩

/-- C85 (partial): with one core on the stack, whatever was pushed and popped before, a new time point and a distance between time points that exist are always answered (at root level, while the core is consistent). -/
theorem C85_answered_partial (h : SafeStackTalk f [(tr, S, d)] U) (hd : S.dead = false) (hr : S.root = true) {R : Type} [AddCommGroup R] [LinearOrder R] [IsOrderedAddMonoid R] [Dom R] (W : (Family.diff (E := E) R).Has f) :
    (∃ S', SafeStackTalk f [(.point W (W.within.th S.th).nv :: tr, S', d)] U ∧ (W.within.th S'.th).nv = (W.within.th S.th).nv + 1) ∧
    ∀ i j (w : R), i < (W.within.th S.th).nv → j < (W.within.th S.th).nv → ∃ s p, DL.newDistance (W.within.view S) i j w = .ok (s, p) ∧ SafeStackTalk f [(.apart W i j w p :: tr, W.within.put S s, d)] U := by
  obtain ⟨hs, ht⟩ := h.told
  have h1 : (W.within.view S).th.newVar.2 = (W.within.th S.th).nv := by rw [(W.within.sees S).th]; unfold DL.newVar; simp only
  have h2 : (W.within.view S).th.newVar.1.nv = (W.within.th S.th).nv + 1 := by rw [(W.within.sees S).th]; unfold DL.newVar; simp only; split <;> rfl
  have h3 : SafeStackTalk f [(.point W (W.within.view S).th.newVar.2 :: tr, W.within.put S { W.within.view S with th := (W.within.view S).th.newVar.1 }, d)] U := .theory h hd hr (.point W) (.inr ⟨rfl, rfl⟩)
  rw [h1] at h3
  refine ⟨⟨_, h3, by rw [th_put]; exact h2⟩, fun i j w hi hj => ?_⟩
  obtain ⟨Z, k⟩ := W.seen anyAsg S U (stack_resumes hs).si
  obtain ⟨s, p, hn⟩ := DL.newDistance_total (w := w) k.diffSI (i := i) (j := j) (by rw [(W.within.sees S).th]; exact hi) (by rw [(W.within.sees S).th]; exact hj)
  exact ⟨s, p, hn, .theory h hd hr (.apart W hi hj hn) (.inr ⟨rfl, rfl⟩)⟩

/-- C85 (partial): relations of linear expressions over time points too, when integer difference logic accepts their difference (otherwise they are rejected with an exception). -/
theorem C85_relations_partial (h : SafeStackTalk f [(tr, S, d)] U) (hd : S.dead = false) (hr : S.root = true) (W : (Family.diff (E := E) ℤ).Has f) {R : DL.Rel} {l r : Lin} (hl : l.Canon) (hr' : r.Canon)
    (kl : ∀ t ∈ l.vars, t.1 < (W.within.th S.th).nv) (kr : ∀ t ∈ r.vars, t.1 < (W.within.th S.th).nv) :
    (¬ DL.IsDiff ℤ l r → DL.newRel E R (W.within.view S) l r = .error .invalid) ∧
    (DL.IsDiff ℤ l r → (R = .gt → ¬ ∃ a b c c', 0 < c ∧ (l.sub r).vars = [(a, c), (b, c')]) →
      ∃ s p, DL.newRel E R (W.within.view S) l r = .ok (s, p) ∧ SafeStackTalk f [(.between W R l r p :: tr, W.within.put S s, d)] U) := by
  obtain ⟨hs, ht⟩ := h.told
  refine ⟨fun hn => (DL.C33_idl_accepts hl hr').1 hn, fun hi hb => ?_⟩
  obtain ⟨Z, k⟩ := W.seen anyAsg S U (stack_resumes hs).si
  obtain ⟨s, p, hn⟩ := DL.newRel_total (E := E) (R := R) k.diffSI (by rw [← hr]; exact (W.within.sees S).root) hl hr' (by rw [(W.within.sees S).th]; exact kl) (by rw [(W.within.sees S).th]; exact kr) (DL.isDiff_form hl hr' hi)
  exact ⟨s, p, hn, .theory h hd hr (.between W hl hr' kl kr hb hn) (.inr ⟨rfl, rfl⟩)⟩

/-- C85 (partial): what one can do with a single core (C84) one can do with a stack. -/
theorem C85_single_partial {S : Sat T} (h : SafeTalk f tr S U d) : SafeStackTalk f [(tr, S, d)] U := by
  induction h with
  | init h => exact .init h
  | search _ ho hl hm hs ih => exact .search ih ho hl hm hs
  | core _ ha hl hm hs ih => exact .core ih ha hl hm hs
  | theory _ hd hr ha hd' ih => exact .theory ih hd hr ha hd'
  | next _ hr hk hl hm hs ih => exact .next ih hr hk hl hm hs
  | allows W _ hd hv ih => exact .allows W ih hd hv

/-- Without difference logic this is C83. -/
theorem StackTalk.to_safe (hf : f.Plain) {l : List (List (Said f) × Sat T × Bool)} (h : StackTalk f l U) : SafeStackTalk f l U := by
  show StackTalkOn f f.safe l U
  rw [hf.safe]; exact h

end Family
end Semitone
