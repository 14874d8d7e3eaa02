import Verif.Sat.Bal

/-!
# The stack of cores with theories attached (`sat_stack.cpp`)

The theories are shared by all the cores of a stack (`sat_stack.cpp:13-17`, `27-31`): a theory looks at the top core only. In the model the state of the theories is that of the top core; the field `th` of the
cores below is not read. The same theories are attached to all the cores (none is created between a `push` and the matching `pop`).
-/
namespace Semitone
namespace Sat
variable {T : Type} {O : TheoryOps T} {E : Env}

/-- `sat_stack::push` (`sat_stack.cpp:10-20`), top first: the top core is copied (the copy constructor calls `simplify_db`, which makes the theories check), then the theories look at the copy and
open a level. -/
def pushTop (E : Env) (O : TheoryOps T) : List (Sat T) → Except Err (List (Sat T))
  | [] => .error .ub
  | c :: rest =>
    match c.copy E O with
    | .error e => .error e
    | .ok d => .ok ({ d with th := O.push d.th } :: c :: rest)

/-- `sat_stack::pop` (`sat_stack.cpp:22-39`): the top core is dropped, the theories look at the previous one and close one level, whatever the decision level of the dropped core; then the listeners of
the previous core are notified of the variables on the trail of the dropped one. -/
def popTop (O : TheoryOps T) : List (Sat T) → Except Err (List (Sat T))
  | c :: d :: rest =>
    match O.pop c.th with
    | .error e => .error e
    | .ok t => .ok ({ d with th := t, notes := c.trail.flatMap (fun p => (d.listening p.var).map (fun l => (l, p.var, d.assigns p.var))) ++ c.notes } :: rest)
  | _ => .error .assert

/-- Without theories these are the definitions of `Sat/Model.lean`. -/
theorem pushTop_plain (st : List PSat) : pushTop E noTheory st = stackPush E noTheory st := by
  cases st with
  | nil => rfl
  | cons c rest =>
    simp only [pushTop, stackPush]
    cases c.copy E noTheory <;> rfl

theorem popTop_plain (st : List PSat) : popTop noTheory st = stackPop st := by
  cases st with
  | nil => rfl
  | cons c rest => cases rest <;> rfl

/-- Calls on the top core, in any order and number: those of the core, those of the theories' own interfaces (`X`), and `push` on the stack with calls on the new top core, up to the matching `pop`, which is
called with no decision open (to any depth). -/
inductive Works (E : Env) (O : TheoryOps T) (X : Sat T → Sat T → Prop) : Sat T → Sat T → Prop
  | refl {s : Sat T} : Works E O X s s
  | core {s s' s'' : Sat T} {op : Op} {out : Out} : Works E O X s s' → s'.step E O op = .ok (s'', out) → Works E O X s s''
  | api {s s' s'' : Sat T} : Works E O X s s' → X s' s'' → Works E O X s s''
  | inner {s s' d u s'' : Sat T} : Works E O X s s' → pushTop E O [s'] = .ok [d, s'] → Works E O X d u → u.root = true → popTop O [u, s'] = .ok [s''] → Works E O X s s''

theorem Works.trans {X : Sat T → Sat T → Prop} {s1 s2 s3 : Sat T} (h : Works E O X s1 s2) (h' : Works E O X s2 s3) : Works E O X s1 s3 := by
  induction h' with
  | refl => exact h
  | core _ a ih => exact .core (ih h) a
  | api _ a ih => exact .api (ih h) a
  | inner _ a b c d ih _ => exact .inner (ih h) a b c d

/-! ### Copying makes the theories check, nothing else -/

theorem copyClauses_same {orig : Sat T} : ∀ (cs : List Nat) {s s' : Sat T} {m m' : Nat → Option Nat}, copyClauses orig cs s m = .ok (s', m') →
    s'.th = s.th ∧ s'.propQ = s.propQ ∧ s'.trailLim = s.trailLim
  | [], s, s', m, m', h => by injection h with h; injection h with h1 h2; subst h1; exact ⟨rfl, rfl, rfl⟩
  | c :: cs, s, s', m, m', h => by
    simp only [copyClauses] at h
    split at h
    · cases h
    · next s1 d h1 =>
      have k : s1.th = s.th ∧ s1.propQ = s.propQ ∧ s1.trailLim = s.trailLim := by
        unfold newClauseObj at h1
        split at h1
        · injection h1 with h1; injection h1 with e1 e2; subst e1; exact ⟨rfl, rfl, rfl⟩
        · cases h1
      obtain ⟨a, b, d⟩ := copyClauses_same cs h
      exact ⟨a.trans k.1, b.trans k.2.1, d.trans k.2.2⟩

theorem simplifyGo_th (n : Nat) (s : Sat T) (kept act rem : List Nat) : (simplifyGo n s kept act rem).1.th = s.th := (simplifyGo_flat n s kept act rem).th

/-- Propagation at the root with an empty queue makes the theories check. -/
theorem propagate_checks {s s' : Sat T} {b} (hq : s.propQ = []) (hr : s.root = true) (h : s.propagate E O = .ok (s', b)) : ∃ s1 r, runChecks O O.ids s = .ok (s1, r) ∧ s'.th = s1.th ∧ s'.trailLim = s.trailLim := by
  unfold propagate at h
  obtain ⟨n, hn⟩ : ∃ n, s.propFuel = n + 1 := ⟨s.propFuel - 1, by
    have : 0 < s.propFuel := Nat.mul_pos (Nat.succ_pos _) (by omega)
    omega⟩
  rw [hn] at h
  unfold propLoop at h
  rw [hq] at h
  simp only at h
  split at h
  · cases h
  · next s1 h1 => injection h with h; injection h with h2 h3; subst h2; exact ⟨s1, none, h1, rfl, by obtain ⟨t, e, -⟩ := runChecks_th _ h1; subst e; rfl⟩
  · next s1 cl h1 =>
    have hr1 : s1.root = true := by
      obtain ⟨t, e, -⟩ := runChecks_th _ h1
      subst e; exact hr
    rw [if_pos hr1] at h
    injection h with h; injection h with h2 h3; subst h2
    exact ⟨s1, some cl, h1, rfl, by obtain ⟨t, e, -⟩ := runChecks_th _ h1; subst e; rfl⟩

/-- What a theory that undoes its levels keeps for each of them: `views` lists, newest first, what the theory remembers of every level that is open. -/
structure Layered {V : Type} (O : TheoryOps T) (P : T → Prop) (views : T → List V) : Prop where
  prop : ∀ {i t val p u r}, P t → (O.propagate i t val p).Final u r → P u ∧ ∃ v w l, views t = v :: l ∧ views u = w :: l
  check : ∀ {i t val u r}, P t → O.check i t val = .ok (u, r) → P u ∧ views u = views t
  push : ∀ {t}, P t → P (O.push t) ∧ ∃ v, views (O.push t) = v :: views t
  pop : ∀ {t u}, P t → O.pop t = .ok u → P u ∧ ∃ v, views t = v :: views u

variable {V : Type} {P : T → Prop} {views : T → List V}

theorem Layered.checks (L : Layered O P views) : ∀ (is : List Nat) {s s' : Sat T} {r}, P s.th → runChecks O is s = .ok (s', r) → P s'.th ∧ views s'.th = views s.th
  | [], s, s', r, hp, h => by injection h with h; injection h with h1 h2; subst h1; exact ⟨hp, rfl⟩
  | i :: is, s, s', r, hp, h => by
    simp only [runChecks] at h
    split at h
    · cases h
    · next t cl h1 => injection h with h; injection h with h2 h3; subst h2; exact L.check hp h1
    · next t h1 =>
      obtain ⟨a, b⟩ := L.check hp h1
      obtain ⟨c, d⟩ := L.checks is (s := { s with th := t }) a h
      exact ⟨c, d.trans b⟩

/-- Copying a core makes the theories check, nothing else. -/
theorem copy_checks {c d : Sat T} (h : c.copy E O = .ok d) : ∃ (s0 s1 : Sat T) (r : Option (List Lit)), runChecks O O.ids s0 = .ok (s1, r) ∧ s0.th = c.th ∧ d.th = s1.th ∧ d.dl = 0 := by
  unfold copy at h
  split at h
  · cases h
  split at h
  · cases h
  next s m hcc =>
  obtain ⟨e1, e2, e3⟩ := copyClauses_same _ hcc
  have hr : s.root = true := by unfold root; rw [e3]; rfl
  split at h
  · split at h
    · cases h
    next s2 b hs =>
    injection h with h; subst h
    unfold simplifyDb at hs
    split at hs
    · cases hs
    split at hs
    · cases hs
    · next s3 h3 =>
      injection hs with hs; injection hs with h4 h5; subst h4
      obtain ⟨s4, r, h6, h7, h8⟩ := propagate_checks (s := { s with reason := fun v => (c.reason v).bind m }) e2 hr h3
      have hl : s3.dl = 0 := by
        unfold Sat.dl; rw [h8, show ({ s with reason := fun v => (c.reason v).bind m } : Sat T).trailLim = [] from e3]; rfl
      exact ⟨_, s4, r, h6, e1, h7, hl⟩
    · next s3 h3 =>
      simp only at hs
      split at hs
      · cases hs
      next s5 h5 =>
      injection hs with hs; injection hs with h4 h9; subst h4
      obtain ⟨s4, r, h6, h7, h8⟩ := propagate_checks (s := { s with reason := fun v => (c.reason v).bind m }) e2 hr h3
      have hl : s3.dl = 0 := by
        unfold Sat.dl; rw [h8, show ({ s with reason := fun v => (c.reason v).bind m } : Sat T).trailLim = [] from e3]; rfl
      have k := (simplifyGo_flat (s3.constrs.length + 1) s3 [] s3.constrs []).trans (deleteAll_flat _ h5)
      refine ⟨_, s4, r, h6, e1, ?_, ?_⟩
      · show s5.th = _
        rw [k.th, h7]
      · show s5.trailLim.length = 0
        rw [k.lim]; exact hl
  · cases h

/-- The copy of a core leaves the levels of the theories as they are. -/
theorem Layered.copied (L : Layered O P views) {c d : Sat T} (hp : P c.th) (h : c.copy E O = .ok d) : P d.th ∧ views d.th = views c.th ∧ d.dl = 0 := by
  obtain ⟨s0, s1, r, h1, h2, h3, h4⟩ := copy_checks h
  obtain ⟨a, b⟩ := L.checks _ (by rw [h2]; exact hp) h1
  rw [h3]
  exact ⟨a, b.trans (by rw [h2]), h4⟩

/-- After `push`: one more level. -/
theorem Layered.pushed (L : Layered O P views) {c d : Sat T} {rest below : List (Sat T)} (hp : P c.th) (h : pushTop E O (c :: rest) = .ok (d :: below)) :
    P d.th ∧ d.dl = 0 ∧ below = c :: rest ∧ ∃ v, views d.th = v :: views c.th := by
  simp only [pushTop] at h
  split at h
  · cases h
  next d0 hc =>
  injection h with h; injection h with e1 e2; subst e1; subst e2
  obtain ⟨h1, h2, h3⟩ := L.copied hp hc
  obtain ⟨h4, v, h5⟩ := L.push h1
  exact ⟨h4, h3, rfl, v, by rw [← h2]; exact h5⟩

/-- The levels below those the core has opened are kept. -/
theorem Layered.tcalls (L : Layered O P views) {n m : Nat} {t u : T} (h : TCalls O n t m u) (hp : P t) {S : List V} (hS : ∃ R : List V, R.length = n + 1 ∧ views t = R ++ S) :
    P u ∧ ∃ R : List V, R.length = m + 1 ∧ views u = R ++ S := by
  induction h with
  | refl => exact ⟨hp, hS⟩
  | prop _ a ih =>
    obtain ⟨p1, R, h1, h2⟩ := ih
    obtain ⟨p2, v, w, l, h3, h4⟩ := L.prop p1 a
    cases R with
    | nil => simp at h1
    | cons x R =>
      rw [h2, List.cons_append] at h3
      injection h3 with _ h3
      exact ⟨p2, w :: R, h1, by rw [h4, ← h3]; rfl⟩
  | check _ a ih =>
    obtain ⟨p1, R, h1, h2⟩ := ih
    obtain ⟨p2, h3⟩ := L.check p1 a
    exact ⟨p2, R, h1, by rw [h3, h2]⟩
  | push _ ih =>
    obtain ⟨p1, R, h1, h2⟩ := ih
    obtain ⟨p2, v, h3⟩ := L.push p1
    exact ⟨p2, v :: R, by simp [h1], by rw [h3, h2]; rfl⟩
  | pop _ a ih =>
    obtain ⟨p1, R, h1, h2⟩ := ih
    obtain ⟨p2, v, h3⟩ := L.pop p1 a
    cases R with
    | nil => simp at h1
    | cons x R =>
      rw [h2, List.cons_append] at h3
      injection h3 with _ h3
      exact ⟨p2, R, by simpa using h1, h3.symm⟩

/-- The calls of the theories' interfaces change the newest level only. -/
def Shallow (P : T → Prop) (views : T → List V) (X : Sat T → Sat T → Prop) : Prop :=
  ∀ s s', P s.th → X s s' → P s'.th ∧ s'.dl = s.dl ∧ ∃ v w l, views s.th = v :: l ∧ views s'.th = w :: l

/-- `pop` with no decision open, when there is exactly one level more than before. -/
theorem Layered.popped (L : Layered O P views) {u c c' : Sat T} {rest rest' : List (Sat T)} {S : List V} (hp : P u.th) (hr : u.root = true) (hS : ∃ R : List V, R.length = u.dl + 1 ∧ views u.th = R ++ S)
    (h : popTop O (u :: c :: rest) = .ok (c' :: rest')) : P c'.th ∧ views c'.th = S ∧ rest' = rest ∧ c' = { c with th := c'.th, notes := c'.notes } := by
  obtain ⟨R, h7, h8⟩ := hS
  rw [(root_iff u).1 hr] at h7
  obtain ⟨x, rfl⟩ := List.length_eq_one_iff.mp h7
  simp only [popTop] at h
  split at h
  · cases h
  next t ht =>
  injection h with h; injection h with e1 e2; subst e1; subst e2
  obtain ⟨h9, y, h10⟩ := L.pop hp ht
  rw [h8] at h10
  injection h10 with _ h10
  exact ⟨h9, h10.symm, rfl, rfl⟩

theorem Layered.works (L : Layered O P views) {X : Sat T → Sat T → Prop} (hX : Shallow P views X) {s s' : Sat T} (h : Works E O X s s') (hp : P s.th) {S : List V}
    (hS : ∃ R : List V, R.length = s.dl + 1 ∧ views s.th = R ++ S) : P s'.th ∧ ∃ R : List V, R.length = s'.dl + 1 ∧ views s'.th = R ++ S := by
  induction h generalizing S with
  | refl => exact ⟨hp, hS⟩
  | core _ hs ih => exact L.tcalls (step_tc hs) (ih hp hS).1 (ih hp hS).2
  | api _ hx ih =>
    obtain ⟨p1, R, h1, h2⟩ := ih hp hS
    obtain ⟨p2, h5, v, w, l, h3, h4⟩ := hX _ _ p1 hx
    cases R with
    | nil => simp at h1
    | cons x R =>
      rw [h2, List.cons_append] at h3
      injection h3 with _ h3
      exact ⟨p2, w :: R, by rw [h5]; exact h1, by rw [h4, ← h3]; rfl⟩
  | inner _ hpush _ hr hpop ih1 ih2 =>
    obtain ⟨p1, R, h1, h2⟩ := ih1 hp hS
    obtain ⟨q1, q2, -, v, q4⟩ := L.pushed p1 hpush
    obtain ⟨p2, hR⟩ := ih2 q1 ⟨[v], by rw [q2]; rfl, q4⟩
    obtain ⟨p3, h3, -, h4⟩ := L.popped p2 hr hR hpop
    refine ⟨p3, R, ?_, by rw [h3, h2]⟩
    rw [h4]; exact h1

/-- After `push`, any calls on the top core that lead back to its root level, and the matching `pop`, every level of the theories is as before `push`, and the cores below are as before (but for the log
of the notifications). -/
theorem Layered.restores (L : Layered O P views) {X : Sat T → Sat T → Prop} (hX : Shallow P views X) {c d u c' : Sat T} {rest below rest' : List (Sat T)} (hp : P c.th)
    (hpush : pushTop E O (c :: rest) = .ok (d :: below)) (hw : Works E O X d u) (hr : u.root = true) (hpop : popTop O (u :: below) = .ok (c' :: rest')) :
    P c'.th ∧ views c'.th = views c.th ∧ rest' = rest ∧ c' = { c with th := c'.th, notes := c'.notes } := by
  obtain ⟨q1, q2, e, v, q4⟩ := L.pushed hp hpush
  subst e
  obtain ⟨h6, hR⟩ := L.works hX hw q1 ⟨[v], by rw [q2]; rfl, q4⟩
  exact L.popped h6 hr hR hpop

end Sat
end Semitone
