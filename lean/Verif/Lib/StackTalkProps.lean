import Verif.Lib.StackTold

/-!
# C83: on a stack of cores, the core on top decides exactly what was asked for, and `pop` gives the earlier problem back
-/
namespace Semitone
namespace Family
open Lin
variable {E : Env} {T : Type} {C : Comp T} {f : Family E C} {S S' : Sat T} {U : C.Dat} {d : Bool} {tr : List (Said f)} {rest : List (List (Said f) × Sat T × Bool)}

/-- C83: the problem on the core that `push` makes: what was asked for, and the decisions that were open. -/
theorem C83_assuming {ds : List Lit} {α : Asg} {x : C.Val} : Meets (assuming ds tr) α x ↔ Meets tr α x ∧ α.all ds := holds_assuming

/-- C83: whatever was pushed, popped, asked for and searched, the client that decides on the top core until all variables are assigned gets an answer: true, with an assignment that, together with the values that the theories report (for every small
enough value of the infinitesimal), is a solution of the problem of that core; or false, and that problem has no solution. -/
theorem C83_decides (hf : f.Plain) (h : StackTalk f ((tr, S, d) :: rest) U) (hd : S.dead = false) {pick : Sat T → Option Lit} (hh : Sat.Heuristic pick) {k : Nat} (hk : (S.nvars + 2) ^ (S.dl + S.nvars + 1) ≤ k) :
    ∃ S' b, Sat.solve E C.ops pick k S = .ok (S', b) ∧
      (b = true → (∀ v, v < S.nvars → S'.assigns v ≠ none) ∧ ∃ δ0 : ℚ, 0 < δ0 ∧ ∀ δ, 0 < δ → δ ≤ δ0 →
        (∃ x, C.Rep S' δ x) ∧ ∀ x, C.Rep S' δ x → Meets tr (fun v => S'.assigns v = some true) x) ∧
      (b = false → ¬ ∃ α x, Meets tr α x) := by
  obtain ⟨hs, ht⟩ := h.told hf
  have ht := ht _ List.mem_cons_self
  obtain ⟨S', b, k1, k2, k3⟩ := C81_decides hf hs hd hh hk
  refine ⟨S', b, k1, fun hb => ?_, fun hb ⟨α, x, hm⟩ => ?_⟩
  · obtain ⟨a, δ0, c1, c2⟩ := k2 hb
    exact ⟨a, δ0, c1, fun δ e1 e2 => ⟨(c2 δ e1 e2).1, fun x hx => ht.back _ x ((c2 δ e1 e2).2 x hx)⟩⟩
  · obtain ⟨β, y, a, -⟩ := ht.forth α x hm
    exact k3 hb ⟨β, y, a⟩

/-- C83: the answer on the top core of a stack is the one that a single core would give, had it been asked for the same: whatever the stack went through, and whatever the two clients decide. -/
theorem C83_same_answer (hf : f.Plain) (h : StackTalk f ((tr, S, d) :: rest) U) (hd : S.dead = false) {pick : Sat T → Option Lit} (hh : Sat.Heuristic pick) {k : Nat} (hk : (S.nvars + 2) ^ (S.dl + S.nvars + 1) ≤ k)
    {E2 : Env} {T2 : Type} {C2 : Comp T2} {g : Family E2 C2} {tr2 : List (Said g)} {S2 : Sat T2} {U2 : C2.Dat} {d2 : Bool} (hg : g.Plain) (h2 : Talk g tr2 S2 U2 d2) (hd2 : S2.dead = false) {pick2 : Sat T2 → Option Lit}
    (hh2 : Sat.Heuristic pick2) {k2 : Nat} (hk2 : (S2.nvars + 2) ^ (S2.dl + S2.nvars + 1) ≤ k2) (he : (∃ α x, Meets tr α x) ↔ ∃ α x, Meets tr2 α x) :
    ∃ S' S2' b, Sat.solve E C.ops pick k S = .ok (S', b) ∧ Sat.solve E2 C2.ops pick2 k2 S2 = .ok (S2', b) := by
  obtain ⟨S', b, a1, a2, a3⟩ := C83_decides hf h hd hh hk
  obtain ⟨S2', b2, c1, c2, c3⟩ := C82_decides hg h2 hd2 hh2 hk2
  refine ⟨S', S2', b, a1, ?_⟩
  rcases b with _ | _ <;> rcases b2 with _ | _
  · exact c1
  · exact absurd (by obtain ⟨-, δ, e1, e2⟩ := c2 rfl; obtain ⟨⟨x, hx⟩, e3⟩ := e2 δ e1 le_rfl; exact he.mpr ⟨_, x, e3 x hx⟩) (a3 rfl)
  · exact absurd (by obtain ⟨-, δ, e1, e2⟩ := a2 rfl; obtain ⟨⟨x, hx⟩, e3⟩ := e2 δ e1 le_rfl; exact he.mp ⟨_, x, e3 x hx⟩) (c3 rfl)
  · exact c1

/-- C83: a failed call on the top core means that its problem has no solution; `propagate()` returning false too; `assume(p)` returning false means that none is compatible with `p` and the decisions of that core. -/
theorem C83_definitive (hf : f.Plain) (h : StackTalk f ((tr, S, d) :: rest) U) :
    (S.dead = true → ∀ α x, ¬ Meets tr α x) ∧
    (S.propagate E C.ops = .ok (S', false) → ∀ α x, ¬ Meets tr α x) ∧
    (∀ p, S.assume E C.ops p = .ok (S', false) → Known tr p.var → (∀ l ∈ S.decisions, Known tr l.var) → ∀ α x, Meets tr α x → ¬ α.all (p :: S.decisions)) := by
  obtain ⟨hs, ht⟩ := h.told hf
  have ht := ht _ List.mem_cons_self
  refine ⟨fun hd α x hm => ?_, fun hp α x hm => ?_, fun p hp hk hks α x hm ha => ?_⟩ <;> obtain ⟨β, y, a, b⟩ := ht.forth α x hm
  · exact (C81_sound hf hs).2.2 hd β y a
  · exact (C81_definitive hf hs).1 hp β y a
  · refine (C81_definitive hf hs).2 p hp β y a ((all_known b.lit (fun l hl => ?_)).mpr ha)
    rcases List.mem_cons.mp hl with rfl | hl
    · exact hk
    · exact hks l hl

/-- C83: what `value` reports true on the top core holds in every solution of its problem compatible with the decisions taken on that core up to the level where it was assigned. -/
theorem C83_values (hf : f.Plain) (h : StackTalk f ((tr, S, d) :: rest) U) {q : Lit} (hq : S.value q = some true) (hk : Known tr q.var) (hks : ∀ l ∈ S.decUpTo (S.level q.var), Known tr l.var) :
    ∀ α x, Meets tr α x → α.all (S.decUpTo (S.level q.var)) → α.sat q := fun α x hm ha => by
  obtain ⟨hs, ht⟩ := h.told hf
  obtain ⟨β, y, a, b⟩ := (ht _ List.mem_cons_self).forth α x hm
  exact (known_sat b.lit hk).mp ((C81_sound hf hs).2.1 q hq β y a ((all_known b.lit hks).mpr ha))

/-- C83: while a stack has any number of cores, the bounds that the theories of linear arithmetic report contain the values of every solution of the problem on top compatible with its decisions. -/
theorem C83_bounds (hf : f.Plain) (h : StackTalk f ((tr, S, d) :: rest) U) {L : LEnv} (W : (Family.arith L).Has f) {v : Nat} (hv : KnownNum tr W v) (hks : ∀ l ∈ S.decisions, Known tr l.var) :
    ∀ α x, Meets tr α x → α.all S.decisions →
      (W.within.th S.th).lo v ≤ ((IQ.ofQ ((W.val x : Nat → ℚ) v) : IQ) : WithBot IQ) ∧ ((IQ.ofQ ((W.val x : Nat → ℚ) v) : IQ) : WithTop IQ) ≤ (W.within.th S.th).hi v := fun α x hm ha => by
  obtain ⟨hs, ht⟩ := h.told hf
  obtain ⟨β, y, a, b⟩ := (ht _ List.mem_cons_self).forth α x hm
  have := C81_arith_bounds W hf hs v β y a ((all_known b.lit hks).mpr ha)
  rw [b.num W v hv] at this
  exact this

/-- C83: and `value` of an object variable, asked on the top core, contains its value in every such solution. -/
theorem C83_object (hf : f.Plain) (h : StackTalk f ((tr, S, d) :: rest) U) (hd : S.dead = false) {A : Type} [DecidableEq A] {D : OEnv A} (W : (Family.object (E := E) D).Has f) {v : Nat} (hv : KnownObj tr W v) (hks : ∀ l ∈ S.decisions, Known tr l.var) :
    ∀ α x, Meets tr α x → α.all S.decisions → ∃ a, (W.val x : Nat → List A) v = [a] ∧ a ∈ OV.value S (W.within.th S.th) v := fun α x hm ha => by
  obtain ⟨hs, ht⟩ := h.told hf
  have ht := ht _ List.mem_cons_self
  obtain ⟨β, y, a, b⟩ := ht.forth α x hm
  have hr : Ranges tr S := ht.rng.resolve_left (by rw [hd]; simp)
  obtain ⟨items, hi⟩ := hv
  obtain ⟨c, -, hc⟩ := hm.2 _ hi
  have := C81_object_values W hf hs v (hr.obj W v ⟨items, hi⟩) β y a ((all_known b.lit hks).mpr ha)
  rw [b.obj W v ⟨items, hi⟩] at this
  exact ⟨c, hc, this c (by have hc : (W.val x : Nat → List A) v = [c] := hc; rw [hc]; exact List.mem_singleton_self _)⟩

/-- C83: the network of the top core and its problem have the same solutions, as far as the client can see. -/
theorem C83_exact (hf : f.Plain) (h : StackTalk f ((tr, S, d) :: rest) U) :
    (∀ α x, f.Model S U α x → Meets tr α x) ∧
    ∀ α x, Meets tr α x → ∃ β y, f.Model S U β y ∧ (∀ v, Known tr v → β v = α v) ∧
      (∀ {L : LEnv} (W : (Family.arith L).Has f) v, KnownNum tr W v → (W.val y : Nat → ℚ) v = (W.val x : Nat → ℚ) v) ∧
      (∀ {A : Type} [DecidableEq A] {D : OEnv A} (W : (Family.object (E := E) D).Has f) v, KnownObj tr W v → (W.val y : Nat → List A) v = (W.val x : Nat → List A) v) := by
  obtain ⟨-, ht⟩ := h.told hf
  have ht := ht _ List.mem_cons_self
  refine ⟨ht.back, fun α x hm => ?_⟩
  obtain ⟨β, y, a, b⟩ := ht.forth α x hm
  exact ⟨β, y, a, b.lit, b.num, b.obj⟩

/-- C83: `push` always works when nothing is pending, no contradiction was found and the decisions are true and known to the client; `pop` always works when no decision of the top core is open, and gives back the problem below: the
client that decides there gets the answer to that problem, whatever was done in between. -/
theorem C83_push_pop (hf : f.Plain) :
    (StackTalk f ((tr, S, false) :: rest) U → S.dead = false → S.propQ = [] → (∀ p ∈ S.decisions, S.value p = some true) → (∀ p ∈ S.decisions, Known tr p.var) →
      ∃ c, Sat.pushTop E C.ops (S :: rest.map (fun r => r.2.1)) = .ok (c :: S :: rest.map (fun r => r.2.1)) ∧ c.root = true ∧ c.dead = false ∧ StackTalk f ((assuming S.decisions tr, c, false) :: (tr, S, false) :: rest) U) ∧
    (∀ {tu : List (Said f)} {u : Sat T} {d' : Bool}, StackTalk f ((tu, u, d') :: (tr, S, d) :: rest) U → u.root = true →
      ∃ S', Sat.popTop C.ops (u :: S :: rest.map (fun r => r.2.1)) = .ok (S' :: rest.map (fun r => r.2.1)) ∧ (∀ q, S'.value q = S.value q) ∧ S'.decisions = S.decisions ∧ StackTalk f ((tr, S', d) :: rest) U) := by
  refine ⟨fun h hd hq hdec hk => ?_, fun {tu u d'} h hr => ?_⟩
  · obtain ⟨c, h1, h2, -, h3, -⟩ := C81_push_succeeds hf (h.told hf).1 hd hq hdec
    rw [map_fst] at h1
    exact ⟨c, h1, h2, h3, .push h hd hq hdec hk h1⟩
  · obtain ⟨S', h1, h2, -⟩ := C81_pop_succeeds hf (h.told hf).1 hr
    rw [map_fst] at h1
    exact ⟨S', h1, fun q => by rw [h2]; rfl, by rw [h2], .pop h hr h1⟩

/-- C83: the next request to the core on top never fails (at root level, while it is consistent), whatever the height of the stack. -/
theorem C83_answered (hf : f.Plain) (h : StackTalk f ((tr, S, d) :: rest) U) (hd : S.dead = false) (hr : S.root = true) :
    (∃ v S', S.step E C.ops .newVar = .ok (S', .var v) ∧ StackTalk f ((.bool v :: tr, S', d) :: rest) U) ∧
    ∀ ls, (∀ l ∈ ls, Known tr l.var) →
      (∃ b S', S.step E C.ops (.newClause ls) = .ok (S', .bool b) ∧ StackTalk f ((.clause ls :: tr, S', d) :: rest) U) ∧
      (∃ p S', S.step E C.ops (.newConj ls) = .ok (S', .lit p) ∧ StackTalk f ((.conj ls p :: tr, S', d) :: rest) U) ∧
      ∃ p S', S.step E C.ops (.newDisj ls) = .ok (S', .lit p) ∧ StackTalk f ((.disj ls p :: tr, S', d) :: rest) U := by
  obtain ⟨hs, ht⟩ := h.told hf
  have hr0 : Ranges tr S := (ht _ List.mem_cons_self).rng.resolve_left (by rw [hd]; simp)
  refine ⟨?_, fun ls hl => ?_⟩
  · obtain ⟨S', out, k⟩ := C81_calls_succeed hf hs (op := .newVar) ⟨hd, trivial⟩ trivial
    have k' := k
    injection k' with k'; injection k' with e1 e2
    subst e2
    exact ⟨_, S', k, .core h .bool ⟨hd, trivial⟩ trivial k⟩
  · have hv : ∀ l ∈ ls, l.var < S.nvars := fun l k => hr0.lit _ (hl l k)
    refine ⟨?_, ?_, ?_⟩
    · obtain ⟨S', out, k⟩ := C81_calls_succeed hf hs (op := .newClause ls) ⟨hd, hr, hv⟩ trivial
      obtain ⟨⟨u, b⟩, h1, h2⟩ := Sat.map_ok k
      injection h2 with e1 e2; subst e2
      exact ⟨_, S', k, .core h (.clause hl) ⟨hd, hr, hv⟩ trivial k⟩
    · obtain ⟨S', out, k⟩ := C81_calls_succeed hf hs (op := .newConj ls) ⟨hd, hr, hv⟩ trivial
      obtain ⟨⟨u, b⟩, h1, h2⟩ := Sat.map_ok k
      injection h2 with e1 e2; subst e2
      exact ⟨_, S', k, .core h (.conj hl) ⟨hd, hr, hv⟩ trivial k⟩
    · obtain ⟨S', out, k⟩ := C81_calls_succeed hf hs (op := .newDisj ls) ⟨hd, hr, hv⟩ trivial
      obtain ⟨⟨u, b⟩, h1, h2⟩ := Sat.map_ok k
      injection h2 with e1 e2; subst e2
      exact ⟨_, S', k, .core h (.disj hl) ⟨hd, hr, hv⟩ trivial k⟩

/-- C83: what one can do with a single core (C82) one can do with a stack. -/
theorem C83_single {S : Sat T} (h : Talk f tr S U d) : StackTalk f [(tr, S, d)] U := by
  induction h with
  | init h => exact .init h
  | search _ ho hl hm hs ih => exact .search ih ho hl hm hs
  | core _ ha hl hm hs ih => exact .core ih ha hl hm hs
  | theory _ hd hr ha hd' ih => exact .theory ih hd hr ha hd'
  | next _ hr hk hl hm hs ih => exact .next ih hr hk hl hm hs
  | allows W _ hd hv ih => exact .allows W ih hd hv

end Family
end Semitone
