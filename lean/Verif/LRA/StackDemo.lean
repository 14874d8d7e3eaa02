import Verif.LRA.StackT

/-!
# Linear arithmetic in a stack of cores: concrete sessions (C80)
-/
namespace Semitone
namespace LRA
open Lin

theorem fa_works {a : FA} {s s' : Sat LRA × List Fact} {out : Sat.Out} (h : a.run s = some (s', out)) : Sat.Works stdEnv (ops stdL) (Api stdEnv stdL) s.1 s'.1 := by
  cases a with
  | defn l =>
    simp only [FA.run] at h
    split at h
    · split at h
      · next t y h1 =>
        injection h with h; injection h with e1 e2; subst e1
        exact .api .refl (.newVarL h1)
      · cases h
    · cases h
  | act a =>
    simp only [FA.run] at h
    cases a with
    | op o =>
      have key : (match s.1.step stdEnv (ops stdL) o with
          | .ok (s', out) => some ((s', s.2), out)
          | .error _ => none) = some (s', out) → Sat.Works stdEnv (ops stdL) (Api stdEnv stdL) s.1 s'.1 := by
        intro h
        split at h
        · next s1 o1 hs =>
          injection h with h; injection h with e1 e2; subst e1
          exact .core .refl hs
        · cases h
      cases o <;> first | exact key h | cases h
    | var => injection h with h; injection h with e1 e2; subst e1; exact .api .refl .newVar
    | rel R l r =>
      simp only [DAct.run] at h
      split at h
      · split at h
        · next s1 p h1 => injection h with h; injection h with e1 e2; subst e1; exact .api .refl (.rel h1)
        · cases h
      · cases h
    | eq l r =>
      simp only [DAct.run] at h
      split at h
      · split at h
        · next s1 p h1 => injection h with h; injection h with e1 e2; subst e1; exact .api .refl (.eq h1)
        · cases h
      · cases h
    | lb x v =>
      simp only [DAct.run] at h
      split at h
      · split at h
        · next s1 h1 => injection h with h; injection h with e1 e2; subst e1; exact .api .refl (.lb h1)
        · cases h
      · cases h
    | ub x v =>
      simp only [DAct.run] at h
      split at h
      · split at h
        · next s1 h1 => injection h with h; injection h with e1 e2; subst e1; exact .api .refl (.ub h1)
        · cases h
      · cases h
    | listen v l =>
      simp only [DAct.run] at h
      split at h
      · next t ht => injection h with h; injection h with e1 e2; subst e1; exact .api .refl (.listen ht)
      · cases h

theorem faruns_works : ∀ (as : List FA) {s : Sat LRA × List Fact} {os} {r : (Sat LRA × List Fact) × List Sat.Out}, faruns as s os = some r →
    Sat.Works stdEnv (ops stdL) (Api stdEnv stdL) s.1 r.1.1
  | [], s, os, r, h => by injection h with h; subst h; exact .refl
  | a :: as, s, os, r, h => by
    obtain ⟨⟨s1, o⟩, h1, h2⟩ := Option.bind_eq_some_iff.mp h
    exact Sat.Works.trans (fa_works h1) (faruns_works as h2)

/-- A stack session: the calls `base` on the first core, `push`, the calls `top` on the copy, `pop`. The states of the first core before `push`, of the copy before and after the calls, and of the first core
after `pop`. -/
def trip (base top : List FA) : Option (Sat LRA × Sat LRA × Sat LRA) :=
  match Sat.pushTop stdEnv (ops stdL) [(made base).1.1] with
  | .ok [d, c] =>
    match faruns top (d, []) [] with
    | some ((u, _), _) =>
      match Sat.popTop (ops stdL) [u, c] with
      | .ok [c'] => some (d, u, c')
      | _ => none
    | none => none
  | _ => none

theorem trip_spec {base top : List FA} {d u c' : Sat LRA} (h : trip base top = some (d, u, c')) :
    Sat.pushTop stdEnv (ops stdL) [(made base).1.1] = .ok [d, (made base).1.1] ∧ Sat.Works stdEnv (ops stdL) (Api stdEnv stdL) d u ∧
      Sat.popTop (ops stdL) [u, (made base).1.1] = .ok [c'] := by
  unfold trip at h
  split at h
  · next d1 c h1 =>
    have hc : c = (made base).1.1 := by
      have h1 := h1
      simp only [Sat.pushTop] at h1
      split at h1
      · cases h1
      · injection h1 with h1; injection h1 with e1 e2; injection e2 with e2 _; exact e2.symm
    subst hc
    split at h
    · next u1 U os h2 =>
      split at h
      · next c1 h3 =>
        injection h with h; injection h with e1 h; injection h with e2 e3
        subst e1; subst e2; subst e3
        exact ⟨h1, faruns_works _ h2, h3⟩
      · cases h
    · cases h
  · cases h

/-- What a session looks like at its end, when it can be run. -/
theorem trip_get {base top : List FA} {α : Type} {f : Sat LRA × Sat LRA × Sat LRA → α} {a : α} (h : (trip base top).map f = some a) : ∃ d u c', trip base top = some (d, u, c') ∧ f (d, u, c') = a := by
  obtain ⟨⟨d, u, c'⟩, h1, h2⟩ := Option.map_eq_some_iff.mp h
  exact ⟨d, u, c', h1, h2⟩

/-- `x0`, the literals `b1` of `x0 >= 1` and `b2` of `x0 >= 2`. -/
def base80 : List FA := [.act .var, .act (.rel .geq (linX 0) (linK 1)), .act (.rel .geq (linX 0) (linK 2))]

/-- A session that meets the hypotheses of `C80_lra_bounds_partial`: on the pushed core `b1` and `b2` are decided and retracted, `b1` is asserted at the root, a new variable and a new relation are created; before `pop` the bound of
`x0` is 1, after `pop` it has none, as before `push`. -/
theorem C80_lra_case : ∃ d u c', Sat.pushTop stdEnv (ops stdL) [(made base80).1.1] = .ok [d, (made base80).1.1] ∧ Sat.Works stdEnv (ops stdL) (Api stdEnv stdL) d u ∧ u.root = true ∧
    Sat.popTop (ops stdL) [u, (made base80).1.1] = .ok [c'] ∧ u.th.lo 0 = ((IQ.ofQ 1 : IQ) : WithBot IQ) ∧ c'.th.lo 0 = ⊥ ∧ (made base80).1.1.th.n = 1 := by
  have h : (trip base80 [.act (.op (.assume ⟨1, true⟩)), .act (.op (.assume ⟨2, true⟩)), .act (.op .pop), .act (.op .pop), .act (.op (.newClause [⟨1, true⟩])), .act (.op .propagate), .act .var,
      .act (.rel .leq (linX 1) (linK 7))]).map
      (fun r => decide (r.2.1.root = true ∧ r.2.1.th.lo 0 = ((IQ.ofQ 1 : IQ) : WithBot IQ))) = some true := by decide +kernel
  obtain ⟨d, u, c', h1, h2⟩ := trip_get h
  obtain ⟨a, b, e⟩ := trip_spec h1
  have h2 := of_decide_eq_true h2
  have hn : (made base80).1.1.th.n = 1 := by decide +kernel
  have hl : (made base80).1.1.th.lo 0 = ⊥ := by decide +kernel
  have k := C80_lra_bounds_partial a b h2.1 e
  exact ⟨d, u, c', a, b, h2.1, e, h2.2, (k.1 0 (by rw [hn]; exact Nat.zero_lt_one)).1.trans hl, hn⟩

/-- C80 is false of the code when the dropped core has two decisions: `pop` closes one level of the theory only, so that `x0 >= 1` stays, while the first core has `b1` undefined. -/
theorem C80_witness_levels : ∃ d u c', Sat.pushTop stdEnv (ops stdL) [(made base80).1.1] = .ok [d, (made base80).1.1] ∧ Sat.Works stdEnv (ops stdL) (Api stdEnv stdL) d u ∧
    Sat.popTop (ops stdL) [u, (made base80).1.1] = .ok [c'] ∧ (made base80).1.1.th.lo 0 = ⊥ ∧ c'.th.lo 0 = ((IQ.ofQ 1 : IQ) : WithBot IQ) ∧ c'.value ⟨1, true⟩ = none := by
  have h : (trip base80 [.act (.op (.assume ⟨1, true⟩)), .act (.op (.assume ⟨2, true⟩))]).map
      (fun r => decide (r.2.2.th.lo 0 = ((IQ.ofQ 1 : IQ) : WithBot IQ) ∧ r.2.2.value ⟨1, true⟩ = none)) = some true := by decide +kernel
  obtain ⟨d, u, c', h1, h2⟩ := trip_get h
  obtain ⟨a, b, e⟩ := trip_spec h1
  have h2 := of_decide_eq_true h2
  exact ⟨d, u, c', a, b, e, by decide +kernel, h2.1, h2.2⟩

/-- C80 is false of the code for relations first asked for on the pushed core: the theory remembers the literal of the dropped core, and after `pop` the same call on the first core returns it, although the
first core has no such variable; posting it ends the program. -/
theorem C80_witness_literal : ∃ d u c' s' p, Sat.pushTop stdEnv (ops stdL) [(made base80).1.1] = .ok [d, (made base80).1.1] ∧ Sat.Works stdEnv (ops stdL) (Api stdEnv stdL) d u ∧ u.root = true ∧
    Sat.popTop (ops stdL) [u, (made base80).1.1] = .ok [c'] ∧ newRel .geq c' (linX 0) (linK 5) = .ok (s', p) ∧ s'.nvars ≤ p.var ∧ s'.newClause stdEnv [p] = .error .terminate := by
  have h : (trip base80 [.act (.rel .geq (linX 0) (linK 5))]).map
      (fun r => decide (r.2.1.root = true) && match newRel .geq r.2.2 (linX 0) (linK 5) with
        | .ok (s', p) => decide (s'.nvars ≤ p.var) && (match s'.newClause stdEnv [p] with | .error .terminate => true | _ => false)
        | .error _ => false) = some true := by decide +kernel
  obtain ⟨d, u, c', h1, h2⟩ := trip_get h
  obtain ⟨a, b, e⟩ := trip_spec h1
  simp only [Bool.and_eq_true] at h2
  obtain ⟨h3, h4⟩ := h2
  split at h4
  · next s' p hp =>
    rw [Bool.and_eq_true] at h4
    obtain ⟨h5, h6⟩ := h4
    refine ⟨d, u, c', s', p, a, b, of_decide_eq_true h3, e, hp, of_decide_eq_true h5, ?_⟩
    split at h6
    · assumption
    · cases h6
  · cases h4

/-- `x0`, `x1 >= 0`. -/
def base80b : List FA := [.act .var, .act .var, .act (.lb 1 (IQ.ofQ 0))]

/-- The first core after the session, and what was imposed on it; then `x0 <= 0`, `x1 <= 0`. -/
def end80 : Option ((Sat LRA × List Fact) × List Sat.Out) :=
  (trip base80b [.act (.lb 0 (IQ.ofQ 1)), .defn ⟨[(0, 1), (1, 1)], 0⟩]).bind (fun r =>
    faruns [.act (.ub 0 (IQ.ofQ 0)), .act (.ub 1 (IQ.ofQ 0))] (r.2.2, (made base80b).1.2) [])

def end80s : (Sat LRA × List Fact) × List Sat.Out := end80.getD ((Sat.init LRA.init, []), [])

theorem end80_vas : ∀ b, end80s.1.1.th.vas b = none := by
  intro b
  kernel_rfl

/-- C80 is false of the code for definitions made on the pushed core: `x0 >= 1` is imposed there and `x2 = x0 + x1` is defined there, which gives `x2` the lower bound 1 for good; after `pop` `x0` has no bound any more, but
`x2` keeps it, and with `x0 <= 0` and `x1 <= 0` the first core answers that there is no solution, although `x0 = x1 = x2 = 0` satisfies all that was imposed on it. -/
theorem C80_witness_bounds : (∃ d u c', Sat.pushTop stdEnv (ops stdL) [(made base80b).1.1] = .ok [d, (made base80b).1.1] ∧ Sat.Works stdEnv (ops stdL) (Api stdEnv stdL) d u ∧ u.root = true ∧
      Sat.popTop (ops stdL) [u, (made base80b).1.1] = .ok [c'] ∧ Sat.Works stdEnv (ops stdL) (Api stdEnv stdL) c' end80s.1.1) ∧
    (∃ s', end80s.1.1.propagate stdEnv (ops stdL) = .ok (s', false)) ∧ ∃ α x, Model end80s.1.1 end80s.1.2 α x := by
  refine ⟨?_, ?_, ?_⟩
  · have h0 : end80.isSome = true := by decide +kernel
    obtain ⟨r, h1⟩ := Option.isSome_iff_exists.mp h0
    have h2 := h1
    obtain ⟨⟨d, u, c'⟩, h3, h4⟩ := Option.bind_eq_some_iff.mp h1
    obtain ⟨a, b, e⟩ := trip_spec h3
    have hr : (trip base80b [.act (.lb 0 (IQ.ofQ 1)), .defn ⟨[(0, 1), (1, 1)], 0⟩]).map (fun r => r.2.1.root) = some true := by decide +kernel
    rw [h3] at hr
    injection hr with hr
    refine ⟨d, u, c', a, b, hr, e, ?_⟩
    have : end80s = r := by unfold end80s; rw [h2]; rfl
    rw [this]
    exact faruns_works _ h4
  · have h : (end80s.1.1.propagate stdEnv (ops stdL)).toOption.map (·.2) = some false := by decide +kernel
    obtain ⟨⟨s', r⟩, h1, h2⟩ := Option.map_eq_some_iff.mp h
    simp only at h2
    subst h2
    exact ⟨s', toOption_ok h1⟩
  · refine ⟨fun _ => false, fun _ => 0, rfl, fun C hC => ?_, fun b a hb => ?_, fun d hd => ?_, fun f hf => ?_, trivial⟩
    · have h : end80s.1.1.posted = [] := by decide +kernel
      rw [h] at hC; cases hC
    · rw [end80_vas b] at hb; cases hb
    · revert d
      decide +kernel
    · have h : end80s.1.2 = [.hi TRUE_lit 1 (IQ.ofQ 0), .hi TRUE_lit 0 (IQ.ofQ 0), .lo TRUE_lit 1 (IQ.ofQ 0)] := by kernel_rfl
      rw [h] at hf
      simp only [List.mem_cons, List.not_mem_nil, or_false] at hf
      rcases hf with rfl | rfl | rfl <;> decide +kernel

end LRA
end Semitone
