import Verif.Sat.Copy

/-!
# Histories of API calls

`Op` are the calls of the public interface of `sat_core`, `step` performs one, `Reach` are the states any sequence of calls can
lead to (with any theories that respect the contract), `LReach` the states of the propositional core reached by the histories
that respect the documented preconditions.
-/
namespace Semitone
namespace Sat
variable {T : Type}

/-- The calls of the interface (`sat_core.h:36-119`, `152-157`). -/
inductive Op where
  | newVar
  | newClause (ls : List Lit)
  | newEq (a b : Lit)
  | newConj (ls : List Lit)
  | newDisj (ls : List Lit)
  | newAMO (ls : List Lit)
  | newEXO (ls : List Lit)
  | assume (p : Lit)
  | pop
  | propagate
  | next
  | check (ls : List Lit)
  | simplify
  | bind (v i : Nat)
  | listen (v l : Nat)

/-- The value a call returns. -/
inductive Out where
  | unit
  | bool (b : Bool)
  | var (v : Nat)
  | lit (l : Lit)
deriving DecidableEq

/-- One call. -/
def step (E : Env) (O : TheoryOps T) (s : Sat T) : Op → Except Err (Sat T × Out)
  | .newVar => .ok (s.newVar.1, .var s.newVar.2)
  | .newClause ls => (s.newClause E ls).map (fun r => (r.1, .bool r.2))
  | .newEq a b => (s.newEq E a b).map (fun r => (r.1, .lit r.2))
  | .newConj ls => (s.newConj E ls).map (fun r => (r.1, .lit r.2))
  | .newDisj ls => (s.newDisj E ls).map (fun r => (r.1, .lit r.2))
  | .newAMO ls => (s.newAMO E ls).map (fun r => (r.1, .lit r.2))
  | .newEXO ls => (s.newEXO E ls).map (fun r => (r.1, .lit r.2))
  | .assume p => (s.assume E O p).map (fun r => (r.1, .bool r.2))
  | .pop => (s.pop O).map (fun r => (r, .unit))
  | .propagate => (s.propagate E O).map (fun r => (r.1, .bool r.2))
  | .next => (s.next E O).map (fun r => (r.1, .bool r.2))
  | .check ls => (s.check E O ls).map (fun r => (r.1, .bool r.2))
  | .simplify => (s.simplifyDb E O).map (fun r => (r.1, .bool r.2))
  | .bind v i => .ok (s.bind v i, .unit)
  | .listen v l => .ok (s.listen v l, .unit)

/-- States reached by any sequence of successful calls, with theories that satisfy the contract `C`. Between two calls the
theories may change their own state (new atoms, new variables), as long as they only add constraints and keep their
invariant. `simplify_db` is only considered when the clauses are at a fixpoint after its own propagation (proved for the
propositional core in `simplify_total`). -/
inductive Reach (E : Env) {O : TheoryOps T} (C : Contract O) : Sat T → Prop
  | init {t : T} : C.TI t 0 (init t).tru → Reach E C (init t)
  | step {s s' : Sat T} {op out} : Reach E C s → (op = .simplify → ∀ u, s.propagate E O = .ok (u, true) → u.Fix u.okQ) →
      s.step E O op = .ok (s', out) → Reach E C s'
  | theory {s : Sat T} {t : T} : Reach E C s → (∀ α, C.Th t α → C.Th s.th α) → C.TI t s.dl s.tru → Reach E C { s with th := t }

theorem map_ok {α β ε : Type} {f : α → β} {x : Except ε α} {y : β} (h : x.map f = .ok y) : ∃ a, x = .ok a ∧ y = f a := by
  cases x with
  | error e => cases h
  | ok a => injection h with h; exact ⟨a, rfl, h.symm⟩

theorem init_wf (t : T) : (Sat.init t).WF noEx := by
  constructor
  case nv => simp [Sat.init, newVar]
  case fv => simp [Sat.init]
  case rng =>
    intro v hv
    by_cases e : v = 0
    · subst e; simp [Sat.init, newVar]
    · simp [Sat.init, upd_ne _ _ e, newVar] at hv
  case off => intro v _; simp only [Sat.init, newVar]; unfold upd; split <;> simp
  case wat =>
    intro c m
    have : (Sat.init t).watches m = [] := by
      simp only [Sat.init, newVar]; unfold upd; split <;> simp
    simp [noEx, this]
    intro h; simp [Sat.init, newVar] at h
  case rsn => intro v c h; exfalso; revert h; simp only [Sat.init, newVar]; unfold upd; split <;> simp
  all_goals simp [Sat.init, newVar]

theorem init_inv {O : TheoryOps T} (C : Contract O) {t : T} (h : C.TI t 0 (init t).tru) : (Sat.init t).Inv C := by
  refine ⟨init_wf t, ⟨?_, ?_⟩, h, ?_, ?_, ?_⟩
  · intro c hc; simp [Sat.init, newVar] at hc
  · intro q hq α hα _
    rw [value_true] at hq
    by_cases e : q.var = 0
    · rw [e] at hq
      have : (some false : Option Bool) = some q.sign := by rw [← hq]; simp [Sat.init]
      injection this with this
      simp [Asg.sat, e, hα.1, this]
    · simp [Sat.init, upd_ne _ _ e, newVar] at hq
  · intro h; simp [Sat.init, newVar, dl] at h
  · intro D hD; simp [Sat.init, newVar] at hD
  · intro k ls r hm
    have : (key k ls, r) = ("b" ++ toString 0, ⟨0, true⟩) := by
      simpa [Sat.init, newVar] using hm
    injection this with h1 h2
    exact absurd h1 (key_ne_var k ls _)

theorem init_fix (t : T) : (Sat.init t).Fix (Sat.init t).okQ :=
  ⟨fun c hc => by simp [Sat.init, newVar] at hc, fun c hc => by simp [Sat.init, newVar] at hc⟩

/-- `new_eq` keeps the invariant, also when it returns the wrong literal. -/
theorem newEq_defd {E : Env} {O : TheoryOps T} {C : Contract O} {s s' : Sat T} {a b r : Lit} (h : s.Inv C) (hn : s.newEq E a b = .ok (s', r)) :
    Defd C s s' := by
  by_cases hr : s.root = false
  · unfold newEq at hn; rw [if_pos hr] at hn; cases hn
  by_cases hi : s.inRange [a, b] = false
  · unfold newEq at hn; rw [if_neg hr, if_pos hi] at hn; cases hn
  have hr' : s.root = true := by simpa using hr
  by_cases hs : a.sign = b.sign ∨ (s.value a = none ↔ s.value b = none)
  · obtain ⟨s1, r1, h1, h2, -⟩ := newEq_spec (E := E) h hr' (inRange_true hi) hs
    rw [h1] at hn
    injection hn with hn; injection hn with e1 e2
    exact e1 ▸ h2.defd
  · have : s' = s := by
      unfold newEq at hn
      rw [if_neg hr, if_neg hi] at hn
      by_cases e : a = b
      · rw [if_pos e] at hn; injection hn with hn; injection hn with e1 e2; exact e1.symm
      · rw [if_neg e] at hn
        cases hva : s.value a with
        | none =>
          cases hvb : s.value b with
          | none => exact absurd (Or.inr (by simp [hva, hvb])) hs
          | some y =>
            rw [hva, hvb] at hn
            cases y <;> simp only at hn <;> injection hn with hn <;> injection hn with e1 e2 <;> exact e1.symm
        | some x =>
          cases hvb : s.value b with
          | none =>
            rw [hva, hvb] at hn
            cases x <;> simp only at hn <;> injection hn with hn <;> injection hn with e1 e2 <;> exact e1.symm
          | some y => exact absurd (Or.inr (by simp [hva, hvb])) hs
    rw [this]; exact Defd.refl h

/-- The reifying calls and `new_var`: how they change the network. -/
def Op.reifies : Op → Bool
  | .newVar | .newEq _ _ | .newConj _ | .newDisj _ | .newAMO _ | .newEXO _ => true
  | _ => false

theorem newConj_pre {E : Env} {s s' : Sat T} {ls r} (hn : s.newConj E ls = .ok (s', r)) : s.root = true ∧ ∀ l ∈ ls, l.var < s.nvars := by
  unfold newConj at hn
  by_cases hr : s.root = false
  · rw [if_pos hr] at hn; cases hn
  by_cases hi : s.inRange ls = false
  · rw [if_neg hr, if_pos hi] at hn; cases hn
  exact ⟨by simpa using hr, inRange_true hi⟩

theorem newDisj_pre {E : Env} {s s' : Sat T} {ls r} (hn : s.newDisj E ls = .ok (s', r)) : s.root = true ∧ ∀ l ∈ ls, l.var < s.nvars := by
  unfold newDisj at hn
  by_cases hr : s.root = false
  · rw [if_pos hr] at hn; cases hn
  by_cases hi : s.inRange ls = false
  · rw [if_neg hr, if_pos hi] at hn; cases hn
  exact ⟨by simpa using hr, inRange_true hi⟩

theorem newAMO_pre {E : Env} {s s' : Sat T} {ls r} (hn : s.newAMO E ls = .ok (s', r)) : s.root = true ∧ ∀ l ∈ ls, l.var < s.nvars := by
  unfold newAMO newAMOGo at hn
  by_cases hr : s.root = false
  · rw [if_pos hr] at hn; cases hn
  by_cases hi : s.inRange ls = false
  · rw [if_neg hr, if_pos hi] at hn; cases hn
  exact ⟨by simpa using hr, inRange_true hi⟩

theorem newEXO_pre {E : Env} {s s' : Sat T} {ls r} (hn : s.newEXO E ls = .ok (s', r)) : s.root = true ∧ ∀ l ∈ ls, l.var < s.nvars := by
  unfold newEXO at hn
  by_cases hr : s.root = false
  · rw [if_pos hr] at hn; cases hn
  by_cases hi : s.inRange ls = false
  · rw [if_neg hr, if_pos hi] at hn; cases hn
  exact ⟨by simpa using hr, inRange_true hi⟩

theorem newEq_pre {E : Env} {s s' : Sat T} {a b r} (hn : s.newEq E a b = .ok (s', r)) : s.root = true ∧ ∀ l ∈ [a, b], l.var < s.nvars := by
  unfold newEq at hn
  by_cases hr : s.root = false
  · rw [if_pos hr] at hn; cases hn
  by_cases hi : s.inRange [a, b] = false
  · rw [if_neg hr, if_pos hi] at hn; cases hn
  exact ⟨by simpa using hr, inRange_true hi⟩

theorem newConj_defd {E : Env} {O : TheoryOps T} {C : Contract O} {s s' : Sat T} {ls r} (h : s.Inv C) (hn : s.newConj E ls = .ok (s', r)) : Defd C s s' := by
  obtain ⟨hr, hv⟩ := newConj_pre hn
  obtain ⟨s1, r1, h1, h2⟩ := newConj_spec (E := E) h hr hv
  rw [h1] at hn; injection hn with hn; injection hn with e1 e2
  exact e1 ▸ h2.defd

theorem newDisj_defd {E : Env} {O : TheoryOps T} {C : Contract O} {s s' : Sat T} {ls r} (h : s.Inv C) (hn : s.newDisj E ls = .ok (s', r)) : Defd C s s' := by
  obtain ⟨hr, hv⟩ := newDisj_pre hn
  obtain ⟨s1, r1, h1, h2⟩ := newDisj_spec (E := E) h hr hv
  rw [h1] at hn; injection hn with hn; injection hn with e1 e2
  exact e1 ▸ h2.defd

theorem newAMO_defd {E : Env} {O : TheoryOps T} {C : Contract O} {s s' : Sat T} {ls r} (h : s.Inv C) (hn : s.newAMO E ls = .ok (s', r)) : Defd C s s' := by
  obtain ⟨hr, hv⟩ := newAMO_pre hn
  obtain ⟨s1, r1, h1, h2, h3⟩ := newAMOGo_spec (E := E) (C := C) _ s ls h hr hv (Nat.lt_succ_self _)
  unfold newAMO at hn
  rw [h1] at hn; injection hn with hn; injection hn with e1 e2
  match hf : amoFilt s.value none (E.sortVar ls) with
  | none => rw [← e1, (h3 hf).1]; exact Defd.refl h
  | some out => exact e1 ▸ (h2 out hf).reif.defd

theorem newEXO_defd {E : Env} {O : TheoryOps T} {C : Contract O} {s s' : Sat T} {ls r} (h : s.Inv C) (hn : s.newEXO E ls = .ok (s', r)) : Defd C s s' := by
  obtain ⟨hr, hv⟩ := newEXO_pre hn
  obtain ⟨s1, r1, h1, h2, h3⟩ := newEXO_spec (E := E) h hr hv
  rw [h1] at hn; injection hn with hn; injection hn with e1 e2
  match hf : amoFilt s.value none (E.sortVar ls) with
  | none => rw [← e1, (h3 hf).1]; exact Defd.refl h
  | some out => exact e1 ▸ (h2 out hf).defd

/-- The invariant of all reachable states, with what "dead" means and what happened to the posted clauses. -/
structure RInv {O : TheoryOps T} (C : Contract O) (s : Sat T) : Prop where
  inv : s.Inv C
  dead : s.dead = true → s.Unsat C.Th
  link : s.dead = true ∨ ∀ D ∈ s.posted, s.Linked D

theorem RInv.congr {O : TheoryOps T} {C : Contract O} {s s' : Sat T} (h : s.RInv C) (hi : s'.Inv C) (hp : s'.posted = s.posted)
    (hsol : ∀ α, s'.Sol C.Th α → s.Sol C.Th α) (hd : s'.dead = true → s.dead = true ∨ s.Unsat C.Th) (hd' : s.dead = true → s'.dead = true)
    (hl : ∀ D, s.Linked D → s'.Linked D) : s'.RInv C := by
  refine ⟨hi, ?_, ?_⟩
  · intro hx α hα
    rcases hd hx with h1 | h1
    · exact h.dead h1 α (hsol α hα)
    · exact h1 α (hsol α hα)
  · rcases h.link with h1 | h1
    · exact Or.inl (hd' h1)
    · right; intro D hD; rw [hp] at hD; exact hl D (h1 D hD)

theorem Defd.rinv {O : TheoryOps T} {C : Contract O} {s s' : Sat T} (d : Defd C s s') (h : s.RInv C) : s'.RInv C := by
  refine ⟨d.inv, ?_, ?_⟩
  · intro hx
    rcases d.bad hx with h1 | h1
    · exact fun α hα => h.dead h1 α (d.rstep.sol hα)
    · exact h1
  · rcases h.link with h1 | h1
    · exact Or.inl (d.dead h1)
    · by_cases hx : s'.dead = true
      · exact Or.inl hx
      · right
        intro D hD
        rcases d.link D hD with h2 | h2 | h2
        · exact d.rstep.linked (h1 D h2)
        · exact h2
        · exact absurd h2 hx

theorem step_rinv {E : Env} {O : TheoryOps T} {C : Contract O} {s s' : Sat T} {op : Op} {out} (h : s.RInv C)
    (hsf : op = .simplify → ∀ u, s.propagate E O = .ok (u, true) → u.Fix u.okQ) (hs : s.step E O op = .ok (s', out)) : s'.RInv C := by
  cases op with
  | newVar =>
    injection hs with hs; injection hs with e1 e2
    exact e1 ▸ (newVar_defd h.inv).rinv h
  | newClause ls =>
    obtain ⟨⟨u, b⟩, h1, h2⟩ := map_ok hs
    injection h2 with e1 e2; subst e1
    have hc := newClause_spec h.inv h1
    refine ⟨hc.inv, ?_, ?_⟩
    · intro hx
      cases b with
      | false => exact (hc.bad rfl).1
      | true =>
        have hx : s'.dead = true := hx
        rw [(hc.good rfl).1] at hx
        exact fun α hα => h.dead hx α (hc.rstep.sol hα)
    · cases b with
      | false => exact Or.inl (hc.bad rfl).2
      | true =>
        rcases h.link with h3 | h3
        · left; show s'.dead = true; rw [(hc.good rfl).1]; exact h3
        · right
          intro D hD
          rw [hc.posted] at hD
          rcases List.mem_cons.1 hD with e | hD
          · exact e ▸ (hc.good rfl).2
          · exact hc.rstep.linked (h3 D hD)
  | newEq a b =>
    obtain ⟨⟨u, r⟩, h1, h2⟩ := map_ok hs
    injection h2 with e1 e2
    exact e1 ▸ (newEq_defd h.inv h1).rinv h
  | newConj ls =>
    obtain ⟨⟨u, r⟩, h1, h2⟩ := map_ok hs
    injection h2 with e1 e2
    exact e1 ▸ (newConj_defd h.inv h1).rinv h
  | newDisj ls =>
    obtain ⟨⟨u, r⟩, h1, h2⟩ := map_ok hs
    injection h2 with e1 e2
    exact e1 ▸ (newDisj_defd h.inv h1).rinv h
  | newAMO ls =>
    obtain ⟨⟨u, r⟩, h1, h2⟩ := map_ok hs
    injection h2 with e1 e2
    exact e1 ▸ (newAMO_defd h.inv h1).rinv h
  | newEXO ls =>
    obtain ⟨⟨u, r⟩, h1, h2⟩ := map_ok hs
    injection h2 with e1 e2
    exact e1 ▸ (newEXO_defd h.inv h1).rinv h
  | assume p =>
    obtain ⟨⟨u, b⟩, h1, h2⟩ := map_ok hs
    injection h2 with e1 e2; rw [e1]
    have a := (assume_spec h.inv h1).facts h.inv
    exact h.congr a.inv a.posted (fun α => (Sol.congr a.posted a.th α).1) (fun hx => (a.bad hx).imp_right (fun h => h.2)) a.dead a.linked
  | pop =>
    obtain ⟨u, h1, h2⟩ := map_ok hs
    injection h2 with e1 e2; rw [e1]
    have a := pop_inv h.inv h1
    exact h.congr a.inv a.evo.posted (fun α => (Sol.congr a.evo.posted a.th α).1) (fun hx => Or.inl (by rw [← a.dead]; exact hx))
      (fun hx => by rw [a.dead]; exact hx) a.linked
  | propagate =>
    obtain ⟨⟨u, b⟩, h1, h2⟩ := map_ok hs
    injection h2 with e1 e2; rw [e1]
    have a := propagate_spec h.inv h1
    refine h.congr a.inv a.evo.posted (fun α => (a.sol α).1) ?_ ?_ a.linked
    · intro hx
      cases b with
      | true => left; rw [← a.dead rfl]; exact hx
      | false => exact Or.inr (a.bad rfl).2.2
    · intro hx
      cases b with
      | true => rw [a.dead rfl]; exact hx
      | false => exact (a.bad rfl).1
  | next =>
    obtain ⟨⟨u, b⟩, h1, h2⟩ := map_ok hs
    injection h2 with e1 e2; rw [e1]
    rcases next_spec h.inv h1 with ⟨-, h3, -⟩ | ⟨-, a⟩
    · have h3 : u = s := h3
      show u.RInv C
      rw [h3]; exact h
    · have hsol : ∀ α, u.Sol C.Th α → s.Sol C.Th α := by
        intro α hα
        refine ⟨hα.1, fun D hD => hα.2.1 D (by rw [a.posted]; simp [hD]), (a.th α).1 hα.2.2⟩
      refine ⟨a.inv, ?_, ?_⟩
      · intro hx
        rcases a.bad hx with h3 | h3
        · exact fun α hα => h.dead h3 α (hsol α hα)
        · exact h3.2
      · rcases h.link with h3 | h3
        · exact Or.inl (a.dead h3)
        · right
          intro D hD
          have hD : D ∈ u.posted := hD
          rw [a.posted] at hD
          rcases List.mem_cons.1 hD with e | hD
          · exact e ▸ a.link
          · exact a.linked D (h3 D hD)
  | check ls =>
    obtain ⟨⟨u, b⟩, h1, h2⟩ := map_ok hs
    injection h2 with e1 e2; rw [e1]
    have a := check_spec h.inv h1
    exact h.congr a.inv a.posted (fun α => (Sol.congr a.posted a.th α).1) (fun hx => (a.bad hx).imp_right (fun h => h.2)) a.dead a.linked
  | simplify =>
    obtain ⟨⟨u, b⟩, h1, h2⟩ := map_ok hs
    injection h2 with e1 e2; rw [e1]
    have a := simplifyDb_spec h.inv (hsf rfl) h1
    exact h.congr a.inv a.posted (fun α => (Sol.congr a.posted a.th α).1) (fun hx => (a.bad hx).imp_right (fun h => h.2)) a.dead a.linked
  | bind v i =>
    injection hs with hs; injection hs with e1 e2; rw [← e1]
    exact h.congr ⟨h.inv.wf.congr rfl rfl rfl rfl rfl rfl rfl rfl rfl rfl rfl rfl, ⟨h.inv.sem.cls, h.inv.sem.val⟩, h.inv.ti, h.inv.qr, h.inv.prng, h.inv.cache⟩
      rfl (fun _ h => h) Or.inl id (fun _ h => h)
  | listen v l =>
    injection hs with hs; injection hs with e1 e2; rw [← e1]
    unfold listen
    split
    · exact h.congr ⟨h.inv.wf.congr rfl rfl rfl rfl rfl rfl rfl rfl rfl rfl rfl rfl, ⟨h.inv.sem.cls, h.inv.sem.val⟩, h.inv.ti, h.inv.qr, h.inv.prng, h.inv.cache⟩
        rfl (fun _ h => h) Or.inl id (fun _ h => h)
    · exact h

theorem Reach.rinv {E : Env} {O : TheoryOps T} {C : Contract O} {s : Sat T} (h : Reach E C s) : s.RInv C := by
  induction h with
  | init h =>
    exact ⟨init_inv C h, fun hx => by simp [Sat.init, newVar] at hx, Or.inr (fun D hD => by simp [Sat.init, newVar] at hD)⟩
  | step _ hsf hs ih => exact step_rinv ih hsf hs
  | @theory s t _ h1 h2 ih =>
    have hsol : ∀ α, ({ s with th := t } : Sat T).Sol C.Th α → s.Sol C.Th α := fun α hα => ⟨hα.1, hα.2.1, h1 α hα.2.2⟩
    refine ih.congr ⟨ih.inv.wf.congr rfl rfl rfl rfl rfl rfl rfl rfl rfl rfl rfl rfl, ⟨?_, ?_⟩, h2, ih.inv.qr, ih.inv.prng, ?_⟩ rfl hsol Or.inl id (fun _ h => h)
    · intro c hc α hα; exact ih.inv.sem.cls c hc α (hsol α hα)
    · intro q hq α hα hd; exact ih.inv.sem.val q hq α (hsol α hα) hd
    · exact ih.inv.cache.congr rfl rfl hsol

end Sat
end Semitone
