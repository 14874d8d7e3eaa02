import Verif.LRA.Listen

/-!
# Value listeners of the linear-arithmetic theory: C58

Specification: `lastRead` (the value that a listener read at its last notification in a list of notifications) and `ACalls` (any sequence of calls), both in `LRA/Listen.lean`.
-/
namespace Semitone
namespace LRA
open Lin
variable {E : Env} {L : LEnv} {s s' : Sat LRA} {U U' : List Fact}

/-- C58: let `l` be registered for `v`. After any sequence of calls, the value that `l` read at its last notification about `v` since then is the current value of `v`; if it was
not notified, the value of `v` is what it was. Only registered listeners are notified, and only about variables that they are registered for. -/
theorem C58_told (h : AReach E L s U) (hc : ACalls E L s U s' U') :
    ∃ N, s'.th.told = N ++ s.th.told ∧ (∀ e ∈ N, e.1 ∈ s'.th.lst e.2.1) ∧
      ∀ l v, v < s.th.n → l ∈ s.th.lst v → (∀ a, lastRead l v N = some a → s'.th.vals v = a) ∧ (lastRead l v N = none → s'.th.vals v = s.th.vals v) := by
  obtain ⟨-, -, N, a, b, c⟩ := hc.tells h
  refine ⟨N, a, b, fun l v hv hl => ⟨fun x hx => ?_, fun hx => ?_⟩⟩
  · have := c l v hv hl
    rw [hx] at this
    exact this.symm
  · have := c l v hv hl
    rw [hx] at this
    exact this.symm

/-- C58: a value that changes is notified to every listener registered for the variable. -/
theorem C58_change (h : AReach E L s U) (hc : ACalls E L s U s' U') {l v : Nat} (hv : v < s.th.n) (hl : l ∈ s.th.lst v) (hne : s'.th.vals v ≠ s.th.vals v) :
    ∃ N, s'.th.told = N ++ s.th.told ∧ lastRead l v N = some (s'.th.vals v) := by
  obtain ⟨N, a, -, c⟩ := C58_told h hc
  refine ⟨N, a, ?_⟩
  cases e : lastRead l v N with
  | none => exact absurd ((c l v hv hl).2 e) hne
  | some x => rw [(c l v hv hl).1 x e]

/-- C58: `listen` on an existing variable whose bounds do not coincide registers the listener, for good; it changes nothing else. -/
theorem C58_listen (t : LRA) (v l : Nat) :
    ((∃ t', t.listen v l = .ok t') ↔ v < t.n) ∧
    ∀ t', t.listen v l = .ok t' →
      ((∃ a : IQ, t.lo v ≤ (a : WithBot IQ) ∧ (a : WithTop IQ) < t.hi v) → l ∈ t'.lst v) ∧
      (∀ k w, k ∈ t'.lst w → k ∈ t.lst w ∨ (k = l ∧ w = v)) ∧ (∀ k w, k ∈ t.lst w → k ∈ t'.lst w) ∧ t' = { t with lst := t'.lst } := by
  refine ⟨?_, fun t' ht => ?_⟩
  · unfold listen
    constructor
    · rintro ⟨t', h⟩
      by_contra hv
      rw [if_pos hv] at h
      cases h
    · intro hv
      rw [if_neg (not_not.mpr hv)]
      exact ⟨_, rfl⟩
  · unfold listen at ht
    split at ht
    · cases ht
    · injection ht with ht
      subst ht
      refine ⟨?_, fun k w hk => ?_, fun k w hk => ?_, ?_⟩
      · rintro ⟨a, h1, h2⟩
        have : ltBT (t.lo v) (t.hi v) = true := by
          unfold ltBT
          cases e1 : t.lo v with
          | bot => cases e2 : t.hi v <;> rfl
          | coe x =>
            cases e2 : t.hi v with
            | top => rfl
            | coe y =>
              rw [e1] at h1
              rw [e2] at h2
              exact decide_eq_true ((WithBot.coe_le_coe.mp h1).trans_lt (WithTop.coe_lt_coe.mp h2))
        rw [if_pos this]
        show l ∈ upd t.lst v (ins l (t.lst v)) v
        rw [upd_self]
        unfold ins
        split
        · assumption
        · exact List.mem_cons_self
      · split at hk
        · have hk : k ∈ upd t.lst v (ins l (t.lst v)) w := hk
          by_cases e : w = v
          · subst e
            rw [upd_self] at hk
            unfold ins at hk
            split at hk
            · exact Or.inl hk
            · rcases List.mem_cons.mp hk with e | hk
              · exact Or.inr ⟨e, rfl⟩
              · exact Or.inl hk
          · rw [upd_ne _ _ e] at hk
            exact Or.inl hk
        · exact Or.inl hk
      · split
        · show k ∈ upd t.lst v (ins l (t.lst v)) w
          by_cases e : w = v
          · subst e
            rw [upd_self]
            unfold ins
            split
            · exact hk
            · exact List.mem_cons_of_mem _ hk
          · rw [upd_ne _ _ e]; exact hk
        · exact hk
      · split <;> rfl

/-- C58: registrations are permanent. -/
theorem C58_permanent (h : AReach E L s U) (hc : ACalls E L s U s' U') {l v : Nat} (hl : l ∈ s.th.lst v) : l ∈ s'.th.lst v := (hc.tells h).lst l v hl

/-- The notifications, newest first: listener, variable, the two parts of the value. -/
def notes (t : LRA) : List (Nat × Nat × ℚ × ℚ) := t.told.map (fun e => (e.1, e.2.1, (ofLex e.2.2).1, (ofLex e.2.2).2))

/-- Two variables, `b1: x >= 3`, `b2: x <= 3`, `b3: x + y >= 9`; listener 7 on `x`, listener 8 on `y` and `x + y`. -/
def sessL : List DAct :=
  [.var, .var, .rel .geq (vx 0) (num 3), .rel .leq (vx 0) (num 3), .rel .geq l01 (num 9), .listen 0 7, .listen 1 8, .listen 2 8]

/-- The hypotheses are met and there are notifications: deciding `x >= 3` moves `x` and `x + y`; deciding `x + y >= 9` then pivots. -/
example : (session (sessL ++ [.op (.assume ⟨1, true⟩)])).map (fun r => (notes r.1.1.th, r.1.1.th.vals 0, r.1.1.th.vals 2)) =
      some ([(7, 0, 3, 0), (8, 2, 3, 0)], IQ.ofQ 3, IQ.ofQ 3) ∧
    (session (sessL ++ [.op (.assume ⟨1, true⟩), .op (.assume ⟨3, true⟩)])).map (fun r => (r.1.1.th.told.length, r.1.1.th.vals 0, r.1.1.th.vals 1, r.1.1.th.vals 2)) =
      some (4, IQ.ofQ 9, 0, IQ.ofQ 9) := by constructor <;> decide +kernel

/-- The registration has to be made when the bounds of the variable do not coincide: `x` is fixed to 3 by two decisions, `listen` does nothing; after backtracking the value of `x`
changes and the listener is not told. -/
theorem C58_witness_late :
    (session [.var, .rel .geq (vx 0) (num 3), .rel .leq (vx 0) (num 3), .op (.assume ⟨1, true⟩), .op (.assume ⟨2, true⟩), .listen 0 7, .op .next]).map
      (fun r => (r.1.1.th.vals 0, (r.1.1.th.lst 0).length, r.1.1.th.told.length)) = some (IQ.mk 3 1, 0, 0) ∧
    (session [.var, .rel .geq (vx 0) (num 3), .rel .leq (vx 0) (num 3), .op (.assume ⟨1, true⟩), .op (.assume ⟨2, true⟩)]).map
      (fun r => (r.1.1.th.vals 0, r.1.1.th.lo 0, r.1.1.th.hi 0)) = some (IQ.ofQ 3, ((IQ.ofQ 3 : IQ) : WithBot IQ), ((IQ.ofQ 3 : IQ) : WithTop IQ)) := by
  constructor <;> decide +kernel

end LRA
end Semitone
