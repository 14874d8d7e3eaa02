import Verif.Lib.TalkTheory

/-!
# C82: the solver decides exactly what the client has asked for

For any number of theories of linear arithmetic and object variables on one core, any search between the requests, any heuristics and any hash order.
-/
namespace Semitone
namespace Family
open Lin
variable {E : Env} {T : Type} {C : Comp T} {f : Family E C} {S S' : Sat T} {U : C.Dat} {d : Bool} {tr : List (Said f)}

theorem Talk.told (hf : f.Plain) {tr : List (Said f)} {S : Sat T} {U : C.Dat} {d : Bool} (h : Talk f tr S U d) : Comp.Session E C S U d ∧ Told f tr S U := by
  induction h with
  | init h => exact ⟨.init h, told_init h⟩
  | search _ ho hl hm hs ih => exact ⟨.step ih.1 hl hm hs, told_search (ih.1.held hf).seat ih.2 ho hl (plain_step hf hs)⟩
  | core _ ha hl hm hs ih => exact ⟨.step ih.1 hl hm hs, told_core (ih.1.held hf).seat ih.2 ha hl (plain_step hf hs)⟩
  | theory _ hd hr ha hd' ih =>
    obtain ⟨k1, k2⟩ := told_theory (ih.1.held hf) ih.2 hd hr ha
    exact ⟨.theory ih.1 hd k1 hd', k2⟩
  | next _ hr hk hl hm hs ih => exact ⟨.step ih.1 hl hm hs, told_next (ih.1.held hf).seat ih.2 hr hk hl (plain_step hf hs)⟩
  | allows W _ hd hv ih => exact ⟨ih.1, told_allows W (ih.1.held hf) rfl (Nat.le_refl _) (fun _ k => k) ih.2 hd hv⟩

theorem all_known {α β : Asg} (h : ∀ v, Known tr v → β v = α v) {ls : List Lit} (hl : ∀ l ∈ ls, Known tr l.var) : β.all ls ↔ α.all ls :=
  ⟨fun k l hl' => (known_sat h (hl l hl')).mp (k l hl'), fun k l hl' => (known_sat h (hl l hl')).mpr (k l hl')⟩

/-- C82: the client that decides until all variables are assigned always gets an answer. `true`: all variables are assigned, and the truth values with the values reported by the theories (for every small enough value of the
infinitesimal) are a solution of the conjunction of all the requests; `false`: the requests have no solution. -/
theorem C82_decides (hf : f.Plain) (h : Talk f tr S U d) (hd : S.dead = false) {pick : Sat T → Option Lit} (hh : Sat.Heuristic pick) {k : Nat} (hk : (S.nvars + 2) ^ (S.dl + S.nvars + 1) ≤ k) :
    ∃ S' b, Sat.solve E C.ops pick k S = .ok (S', b) ∧
      (b = true → (∀ v, v < S.nvars → S'.assigns v ≠ none) ∧ ∃ δ0 : ℚ, 0 < δ0 ∧ ∀ δ, 0 < δ → δ ≤ δ0 →
        (∃ x, C.Rep S' δ x) ∧ ∀ x, C.Rep S' δ x → Meets tr (fun v => S'.assigns v = some true) x) ∧
      (b = false → ¬ ∃ α x, Meets tr α x) := by
  obtain ⟨hs, ht⟩ := h.told hf
  obtain ⟨S', b, k1, k2, k3⟩ := C79_decides hf hs hd hh hk
  refine ⟨S', b, k1, fun hb => ?_, fun hb ⟨α, x, hm⟩ => ?_⟩
  · obtain ⟨a, δ0, c1, c2⟩ := k2 hb
    exact ⟨a, δ0, c1, fun δ e1 e2 => ⟨(c2 δ e1 e2).1, fun x hx => ht.back _ x ((c2 δ e1 e2).2 x hx)⟩⟩
  · obtain ⟨β, y, a, -⟩ := ht.forth α x hm
    exact k3 hb ⟨β, y, a⟩

/-- C82: the answer depends only on what was asked: two clients whose requests are equally solvable get the same answer, whatever they searched before, however they decide, and on whatever core and theories they run. -/
theorem C82_same_answer (hf : f.Plain) (h : Talk f tr S U d) (hd : S.dead = false) {pick : Sat T → Option Lit} (hh : Sat.Heuristic pick) {k : Nat} (hk : (S.nvars + 2) ^ (S.dl + S.nvars + 1) ≤ k)
    {E2 : Env} {T2 : Type} {C2 : Comp T2} {g : Family E2 C2} {tr2 : List (Said g)} {S2 : Sat T2} {U2 : C2.Dat} {d2 : Bool} (hg : g.Plain) (h2 : Talk g tr2 S2 U2 d2) (hd2 : S2.dead = false) {pick2 : Sat T2 → Option Lit}
    (hh2 : Sat.Heuristic pick2) {k2 : Nat} (hk2 : (S2.nvars + 2) ^ (S2.dl + S2.nvars + 1) ≤ k2) (he : (∃ α x, Meets tr α x) ↔ ∃ α x, Meets tr2 α x) :
    ∃ S' S2' b, Sat.solve E C.ops pick k S = .ok (S', b) ∧ Sat.solve E2 C2.ops pick2 k2 S2 = .ok (S2', b) := by
  obtain ⟨S', b, a1, a2, a3⟩ := C82_decides hf h hd hh hk
  obtain ⟨S2', b2, c1, c2, c3⟩ := C82_decides hg h2 hd2 hh2 hk2
  refine ⟨S', S2', b, a1, ?_⟩
  rcases b with _ | _ <;> rcases b2 with _ | _
  · exact c1
  · exact absurd (by obtain ⟨-, δ, e1, e2⟩ := c2 rfl; obtain ⟨⟨x, hx⟩, e3⟩ := e2 δ e1 le_rfl; exact he.mpr ⟨_, x, e3 x hx⟩) (a3 rfl)
  · exact absurd (by obtain ⟨-, δ, e1, e2⟩ := a2 rfl; obtain ⟨⟨x, hx⟩, e3⟩ := e2 δ e1 le_rfl; exact he.mp ⟨_, x, e3 x hx⟩) (c3 rfl)
  · exact c1

/-- C82: a failed call means that the requests have no solution; `propagate()` returning false too; `assume(p)` returning false means that no solution is compatible with `p` and the decisions. -/
theorem C82_definitive (hf : f.Plain) (h : Talk f tr S U d) :
    (S.dead = true → ∀ α x, ¬ Meets tr α x) ∧
    (S.propagate E C.ops = .ok (S', false) → ∀ α x, ¬ Meets tr α x) ∧
    (∀ p, S.assume E C.ops p = .ok (S', false) → Known tr p.var → (∀ l ∈ S.decisions, Known tr l.var) → ∀ α x, Meets tr α x → ¬ α.all (p :: S.decisions)) := by
  obtain ⟨hs, ht⟩ := h.told hf
  refine ⟨fun hd α x hm => ?_, fun hp α x hm => ?_, fun p hp hk hks α x hm ha => ?_⟩ <;> obtain ⟨β, y, a, b⟩ := ht.forth α x hm
  · exact (C77_sound hf hs).2.2 hd β y a
  · exact ((C77_definitive hf hs).1 hp).2 β y a
  · refine (C77_definitive hf hs).2 p hp β y a ((all_known b.lit (fun l hl => ?_)).mpr ha)
    rcases List.mem_cons.mp hl with rfl | hl
    · exact hk
    · exact hks l hl

/-- C82: what `value` reports true holds in every solution of the requests compatible with the decisions taken up to the level where it was assigned; at root level, in every solution. -/
theorem C82_values (hf : f.Plain) (h : Talk f tr S U d) {q : Lit} (hq : S.value q = some true) (hk : Known tr q.var) (hks : ∀ l ∈ S.decUpTo (S.level q.var), Known tr l.var) :
    ∀ α x, Meets tr α x → α.all (S.decUpTo (S.level q.var)) → α.sat q := fun α x hm ha => by
  obtain ⟨hs, ht⟩ := h.told hf
  obtain ⟨β, y, a, b⟩ := ht.forth α x hm
  exact (known_sat b.lit hk).mp ((C77_sound hf hs).2.1 q hq β y a ((all_known b.lit hks).mpr ha))

/-- C82: the bounds of a variable of linear arithmetic contain its value in every solution of the requests compatible with the decisions. -/
theorem C82_bounds (hf : f.Plain) (h : Talk f tr S U d) {L : LEnv} (W : (Family.arith L).Has f) {v : Nat} (hv : KnownNum tr W v) (hks : ∀ l ∈ S.decisions, Known tr l.var) :
    ∀ α x, Meets tr α x → α.all S.decisions →
      (W.within.th S.th).lo v ≤ ((IQ.ofQ ((W.val x : Nat → ℚ) v) : IQ) : WithBot IQ) ∧ ((IQ.ofQ ((W.val x : Nat → ℚ) v) : IQ) : WithTop IQ) ≤ (W.within.th S.th).hi v := fun α x hm ha => by
  obtain ⟨hs, ht⟩ := h.told hf
  obtain ⟨β, y, a, b⟩ := ht.forth α x hm
  have := C77_arith_bounds W hf hs v β y a ((all_known b.lit hks).mpr ha)
  rw [b.num W v hv] at this
  exact this

/-- C82: `value` of an object variable contains its value in every solution of the requests compatible with the decisions. -/
theorem C82_object (hf : f.Plain) (h : Talk f tr S U d) (hd : S.dead = false) {A : Type} [DecidableEq A] {D : OEnv A} (W : (Family.object (E := E) D).Has f) {v : Nat} (hv : KnownObj tr W v) (hks : ∀ l ∈ S.decisions, Known tr l.var) :
    ∀ α x, Meets tr α x → α.all S.decisions → ∃ a, (W.val x : Nat → List A) v = [a] ∧ a ∈ OV.value S (W.within.th S.th) v := fun α x hm ha => by
  obtain ⟨hs, ht⟩ := h.told hf
  obtain ⟨β, y, a, b⟩ := ht.forth α x hm
  have hr := ht.rng.resolve_left (by rw [hd]; simp)
  obtain ⟨items, hi⟩ := hv
  obtain ⟨c, -, hc⟩ := hm.2 _ hi
  have := C77_object_values W hf hs v (hr.obj W v ⟨items, hi⟩) β y a ((all_known b.lit hks).mpr ha)
  rw [b.obj W v ⟨items, hi⟩] at this
  exact ⟨c, hc, this c (by have hc : (W.val x : Nat → List A) v = [c] := hc; rw [hc]; exact List.mem_singleton_self _)⟩

/-- C82: a bound is refused only if it has no solution together with the requests so far. -/
theorem C82_refused (hf : f.Plain) (h : Talk f tr S U d) (hd : S.dead = false) (hr : S.root = true) {L : LEnv} (W : (Family.arith L).Has f) {y : Nat} (hy : KnownNum tr W y) {v : IQ} {p : Lit} (hp : S.value p = some true) {s : Sat LRA} {cl : List Lit} :
    (LRA.setLbC E L (W.within.view S) y v p = .ok (s, some cl) → ¬ ∃ α x, Meets (.atLeast W y v :: tr) α x) ∧
    (LRA.setUbC E L (W.within.view S) y v p = .ok (s, some cl) → ¬ ∃ α x, Meets (.atMost W y v :: tr) α x) := by
  obtain ⟨hs, ht⟩ := h.told hf
  have hr0 := ht.rng.resolve_left (by rw [hd]; simp)
  obtain ⟨-, -, k1, k2⟩ := C77_arith_set W hf hs hr (s := s) (v := v) (hr0.num W y hy) hp
  refine ⟨fun hn ⟨α, x, hm⟩ => ?_, fun hn ⟨α, x, hm⟩ => ?_⟩ <;> obtain ⟨β, z, a, b⟩ := ht.forth α x ⟨hm.1, fun e he => hm.2 e (List.mem_cons_of_mem _ he)⟩
  · have e : v ≤ IQ.ofQ ((W.val x : Nat → ℚ) y) := hm.2 _ List.mem_cons_self
    rw [← b.num W y hy] at e
    exact k1 cl hn β z a e
  · have e : IQ.ofQ ((W.val x : Nat → ℚ) y) ≤ v := hm.2 _ List.mem_cons_self
    rw [← b.num W y hy] at e
    exact k2 cl hn β z a e

/-- C82: conversely, the network never holds more solutions than the requests, nor fewer: a solution of the requests extends to a solution of the network with the same values of everything the client knows. -/
theorem C82_exact (hf : f.Plain) (h : Talk f tr S U d) :
    (∀ α x, f.Model S U α x → Meets tr α x) ∧
    ∀ α x, Meets tr α x → ∃ β y, f.Model S U β y ∧ (∀ v, Known tr v → β v = α v) ∧
      (∀ {L : LEnv} (W : (Family.arith L).Has f) v, KnownNum tr W v → (W.val y : Nat → ℚ) v = (W.val x : Nat → ℚ) v) ∧
      (∀ {A : Type} [DecidableEq A] {D : OEnv A} (W : (Family.object (E := E) D).Has f) v, KnownObj tr W v → (W.val y : Nat → List A) v = (W.val x : Nat → List A) v) := by
  obtain ⟨-, ht⟩ := h.told hf
  refine ⟨ht.back, fun α x hm => ?_⟩
  obtain ⟨β, y, a, b⟩ := ht.forth α x hm
  exact ⟨β, y, a, b.lit, b.num, b.obj⟩

/-- C82: the next request never fails: at root level, while the solver is consistent, a request on what the client knows is answered; requests on object variables, as long as the requests so far have a solution. -/
theorem C82_answered (hf : f.Plain) (h : Talk f tr S U d) (hd : S.dead = false) (hr : S.root = true) :
    (∃ v S', S.step E C.ops .newVar = .ok (S', .var v) ∧ Talk f (.bool v :: tr) S' U d) ∧
    (∀ ls, (∀ l ∈ ls, Known tr l.var) →
      (∃ b S', S.step E C.ops (.newClause ls) = .ok (S', .bool b) ∧ Talk f (.clause ls :: tr) S' U d) ∧
      (∃ p S', S.step E C.ops (.newConj ls) = .ok (S', .lit p) ∧ Talk f (.conj ls p :: tr) S' U d) ∧
      ∃ p S', S.step E C.ops (.newDisj ls) = .ok (S', .lit p) ∧ Talk f (.disj ls p :: tr) S' U d) ∧
    (∀ {L : LEnv} (W : (Family.arith L).Has f) (l r : Lin), l.Canon → r.Canon → (∀ w ∈ keys l.vars, KnownNum tr W w) → (∀ w ∈ keys r.vars, KnownNum tr W w) →
      (∀ R : LRA.Rel4, ∃ s p, LRA.newRel R (W.within.view S) l r = .ok (s, p) ∧ Talk f (.rel W R l r p :: tr) (W.within.put S s) U d) ∧
      ∃ s p, LRA.newEqL E (W.within.view S) l r = .ok (s, p) ∧ Talk f (.equal W l r p :: tr) (W.within.put S s) U d) ∧
    (∀ {A : Type} [DecidableEq A] {D : OEnv A} (W : (Family.object (E := E) D).Has f), (∃ α x, Meets tr α x) →
      (∀ items : List A, items ≠ [] → ∃ s o y, OV.newVar E 0 (W.within.view S) (W.within.th S.th) items true = .ok (s, o, y) ∧ Talk f (.obj W items y :: tr) (W.within.put S { s with th := o }) U d) ∧
      ∀ v w, KnownObj tr W v → KnownObj tr W w → ∃ s o p, OV.newEq E D (W.within.view S) (W.within.th S.th) v w = .ok (s, o, p) ∧ Talk f (.same W v w p :: tr) (W.within.put S { s with th := o }) U d) := by
  obtain ⟨hs, ht⟩ := h.told hf
  have hr0 := ht.rng.resolve_left (by rw [hd]; simp)
  refine ⟨?_, fun ls hl => ?_, fun {L} W l r hl hr' kl kr => ?_, fun {A} _ {D} W hm => ?_⟩
  · obtain ⟨S', out, k⟩ := C78_total hf hs (op := .newVar) ⟨hd, trivial⟩ trivial
    have k' := k
    injection k' with k'; injection k' with e1 e2
    subst e2
    exact ⟨_, S', k, .core h .bool ⟨hd, trivial⟩ trivial k⟩
  · have hv : ∀ l ∈ ls, l.var < S.nvars := fun l k => hr0.lit _ (hl l k)
    refine ⟨?_, ?_, ?_⟩
    · obtain ⟨S', out, k⟩ := C78_total hf hs (op := .newClause ls) ⟨hd, hr, hv⟩ trivial
      obtain ⟨⟨u, b⟩, h1, h2⟩ := Sat.map_ok k
      injection h2 with e1 e2; subst e2
      exact ⟨_, S', k, .core h (.clause hl) ⟨hd, hr, hv⟩ trivial k⟩
    · obtain ⟨S', out, k⟩ := C78_total hf hs (op := .newConj ls) ⟨hd, hr, hv⟩ trivial
      obtain ⟨⟨u, b⟩, h1, h2⟩ := Sat.map_ok k
      injection h2 with e1 e2; subst e2
      exact ⟨_, S', k, .core h (.conj hl) ⟨hd, hr, hv⟩ trivial k⟩
    · obtain ⟨S', out, k⟩ := C78_total hf hs (op := .newDisj ls) ⟨hd, hr, hv⟩ trivial
      obtain ⟨⟨u, b⟩, h1, h2⟩ := Sat.map_ok k
      injection h2 with e1 e2; subst e2
      exact ⟨_, S', k, .core h (.disj hl) ⟨hd, hr, hv⟩ trivial k⟩
  · obtain ⟨a, -⟩ := C78_arith_calls W hf hs hd hr
    have a := a
    refine ⟨fun R => ?_, ?_⟩
    · obtain ⟨⟨s, p, k⟩, -⟩ := a R l r hl hr' (fun w hw => hr0.num W w (kl w hw)) (fun w hw => hr0.num W w (kr w hw))
      exact ⟨s, p, k, .theory h hd hr (.rel W hl hr' kl kr k) (.inr ⟨rfl, rfl⟩)⟩
    · obtain ⟨-, s, p, k⟩ := a .lt l r hl hr' (fun w hw => hr0.num W w (kl w hw)) (fun w hw => hr0.num W w (kr w hw))
      exact ⟨s, p, k, .theory h hd hr (.equal W hl hr' kl kr k) (.inr ⟨rfl, rfl⟩)⟩
  · obtain ⟨α, x, hm⟩ := hm
    obtain ⟨β, y, a, b⟩ := ht.forth α x hm
    obtain ⟨c1, c2⟩ := C78_object_calls W hf hs hr a
    refine ⟨fun items hi => ?_, fun v w hv hw => ?_⟩
    · obtain ⟨s, o, n, k⟩ := c1 items true hi
      exact ⟨s, o, n, k, .theory h hd hr (.obj W (by rw [(W.within.sees S).th]; exact k)) (.inr ⟨rfl, rfl⟩)⟩
    · obtain ⟨a1, e1⟩ := ht.single hv a
      obtain ⟨a2, e2⟩ := ht.single hw a
      obtain ⟨s, o, q, k⟩ := c2 v w a1 a2 (hr0.obj W v hv) (hr0.obj W w hw) e1 e2
      exact ⟨s, o, q, k, .theory h hd hr (.same W hv hw (by rw [(W.within.sees S).th]; exact k)) (.inr ⟨rfl, rfl⟩)⟩

end Family
end Semitone
