import Verif.Lib.Stack
import Verif.Lib.Demo
import Verif.LRA.Free

/-!
# Several theories in a stack of cores: a concrete session (C80)
-/
namespace Semitone
namespace Kit

/-- An arithmetic theory and a theory of object variables on one core. -/
abbrev pair : Kit (LRA × OV Nat) := (lra stdEnv LRA.stdL).prod (ov stdEnv OV.idO)

/-- The arithmetic theory. -/
def pairA : In (lra stdEnv LRA.stdL) pair := .left .here

/-- The object variables. -/
def pairO : In (ov stdEnv OV.idO) pair := .right .here

/-- One call of a session. -/
inductive MA where
  | core (op : Sat.Op)
  | avar
  | rel (R : LRA.Rel4) (l r : Lin)
  | ovar (items : List Nat)
  | oeq (x y : Nat)

/-- The call is made. -/
def MA.run (s : Sat (LRA × OV Nat)) : MA → Option (Sat (LRA × OV Nat))
  | .core op => (s.step stdEnv pair.ops op).toOption.map Prod.fst
  | .avar => some (s.putL 1 { s.left 1 with th := (s.left 1).th.newVar.1 })
  | .rel R l r => (LRA.newRel R (s.left 1) l r).toOption.map (fun x => s.putL 1 x.1)
  | .ovar items => (OV.newVar stdEnv 0 (s.right 1) (s.right 1).th items true).toOption.map (fun x => s.putR 1 { x.1 with th := x.2.1 })
  | .oeq x y => (OV.newEq stdEnv OV.idO (s.right 1) (s.right 1).th x y).toOption.map (fun x => s.putR 1 { x.1 with th := x.2.1 })

theorem MA.works {a : MA} {s s' : Sat (LRA × OV Nat)} (h : a.run s = some s') : Sat.Works stdEnv pair.ops pair.api s s' := by
  cases a with
  | core op =>
    obtain ⟨⟨x, o⟩, h1, h2⟩ := Option.map_eq_some_iff.mp h
    subst h2
    exact .core .refl (Lib.toOption_some h1)
  | avar => injection h with h; subst h; exact .api .refl (.left .newVar)
  | rel R l r =>
    obtain ⟨⟨x, o⟩, h1, h2⟩ := Option.map_eq_some_iff.mp h
    subst h2
    exact .api .refl (.left (.rel (Lib.toOption_some h1)))
  | ovar items =>
    obtain ⟨⟨x, o, y⟩, h1, h2⟩ := Option.map_eq_some_iff.mp h
    subst h2
    exact .api .refl (.right (.newVar (Lib.toOption_some h1)))
  | oeq x y =>
    obtain ⟨⟨x, o, y⟩, h1, h2⟩ := Option.map_eq_some_iff.mp h
    subst h2
    exact .api .refl (.right (.newEq (Lib.toOption_some h1)))

/-- Calls one after the other. -/
def runs : List MA → Sat (LRA × OV Nat) → Option (Sat (LRA × OV Nat))
  | [], s => some s
  | a :: as, s => (a.run s).bind (runs as)

theorem runs_works : ∀ (as : List MA) {s s' : Sat (LRA × OV Nat)}, runs as s = some s' → Sat.Works stdEnv pair.ops pair.api s s'
  | [], s, s', h => by injection h with h; subst h; exact .refl
  | a :: as, s, s', h => by
    obtain ⟨s1, h1, h2⟩ := Option.bind_eq_some_iff.mp h
    exact (MA.works h1).trans (runs_works as h2)

/-- The core pushed on `c`. -/
def pushOn (c : Sat (LRA × OV Nat)) : Option (Sat (LRA × OV Nat)) :=
  match Sat.pushTop stdEnv pair.ops [c] with
  | .ok (d :: _) => some d
  | _ => none

theorem pushOn_spec {c d : Sat (LRA × OV Nat)} (h : pushOn c = some d) : Sat.pushTop stdEnv pair.ops [c] = .ok [d, c] := by
  unfold pushOn at h
  split at h
  · next d' r h1 =>
    injection h with h; subst h
    rw [h1]
    simp only [Sat.pushTop] at h1
    split at h1
    · cases h1
    · injection h1 with h1; injection h1 with e1 e2; subst e2; rfl
  · cases h

/-- `c` after the `pop` that drops `u`. -/
def popOff (u c : Sat (LRA × OV Nat)) : Option (Sat (LRA × OV Nat)) :=
  match Sat.popTop pair.ops [u, c] with
  | .ok [d] => some d
  | _ => none

theorem popOff_spec {u c d : Sat (LRA × OV Nat)} (h : popOff u c = some d) : Sat.popTop pair.ops [u, c] = .ok [d] := by
  unfold popOff at h
  split at h
  · next d' h1 => injection h with h; subst h; exact h1
  · cases h

/-- `x0`; `b1`: `x0 >= 1`; an object variable over the items 7 and 8; propagation. -/
def base : Sat (LRA × OV Nat) := (runs [.avar, .rel .geq (LRA.linX 0) (LRA.linK 1), .ovar [7, 8], .core .propagate] (Sat.init (LRA.init, OV.init))).getD (Sat.init (LRA.init, OV.init))

/-- The session: `push`; a relation; `push`, `b1` at the root, `pop`; 8 is excluded and `b1` asserted; `pop`. The states: the first core after `push` (`d`), the second core (`d2`, `u2`), the top core after the inner session (`s2`), before the last `pop`
(`u`) and the first core at the end. -/
def session : Option (Sat (LRA × OV Nat) × Sat (LRA × OV Nat) × Sat (LRA × OV Nat) × Sat (LRA × OV Nat) × Sat (LRA × OV Nat) × Sat (LRA × OV Nat) × Sat (LRA × OV Nat)) :=
  (pushOn base).bind fun d =>
  (runs [.rel .leq (LRA.linX 0) (LRA.linK 9)] d).bind fun s1 =>
  (pushOn s1).bind fun d2 =>
  (runs [.core (.newClause [⟨1, true⟩]), .core .propagate] d2).bind fun u2 =>
  (popOff u2 s1).bind fun s2 =>
  (runs [.core (.newClause [((pairO.th s2.th).allows 0 8).neg]), .core (.newClause [⟨1, true⟩]), .core .propagate] s2).bind fun u =>
  (popOff u base).bind fun c' => some (d, s1, d2, u2, s2, u, c')

theorem session_spec {d s1 d2 u2 s2 u c' : Sat (LRA × OV Nat)} (h : session = some (d, s1, d2, u2, s2, u, c')) (hr : u2.root = true) :
    Sat.pushTop stdEnv pair.ops [base] = .ok [d, base] ∧ Sat.Works stdEnv pair.ops pair.api d u ∧ Sat.popTop pair.ops [u, base] = .ok [c'] := by
  obtain ⟨x1, h1, h⟩ := Option.bind_eq_some_iff.mp h
  obtain ⟨x2, h2, h⟩ := Option.bind_eq_some_iff.mp h
  obtain ⟨x3, h3, h⟩ := Option.bind_eq_some_iff.mp h
  obtain ⟨x4, h4, h⟩ := Option.bind_eq_some_iff.mp h
  obtain ⟨x5, h5, h⟩ := Option.bind_eq_some_iff.mp h
  obtain ⟨x6, h6, h⟩ := Option.bind_eq_some_iff.mp h
  obtain ⟨x7, h7, h⟩ := Option.bind_eq_some_iff.mp h
  injection h with h
  injection h with e1 h; injection h with e2 h; injection h with e3 h; injection h with e4 h; injection h with e5 h; injection h with e6 e7
  subst e1 e2 e3 e4 e5 e6 e7
  exact ⟨pushOn_spec h1, (Sat.Works.inner (runs_works _ h2) (pushOn_spec h3) (runs_works _ h4) hr (popOff_spec h5)).trans (runs_works _ h6), popOff_spec h7⟩

/-- A session that meets the hypotheses of `C80_arith_partial` and `C80_object_partial`, with a stack session inside: in the middle `x0` has the lower bound 1 and the object variable the only value 7; after `pop` there is no bound and both
values are possible again. -/
theorem C80_pair_case : ∃ d u c', Sat.pushTop stdEnv pair.ops [base] = .ok [d, base] ∧ Sat.Works stdEnv pair.ops pair.api d u ∧ u.root = true ∧ Sat.popTop pair.ops [u, base] = .ok [c'] ∧
    (pairA.th base.th).n = 1 ∧ (pairO.th base.th).doms.length = 1 ∧ (pairA.th u.th).lo 0 = ((IQ.ofQ 1 : IQ) : WithBot IQ) ∧ OV.value u (pairO.th u.th) 0 = [7] ∧
    (pairA.th c'.th).lo 0 = ⊥ ∧ OV.value c' (pairO.th c'.th) 0 = [7, 8] := by
  have h : session.map (fun r => decide (r.2.2.2.1.root = true ∧ r.2.2.2.2.2.1.root = true ∧ (pairA.th r.2.2.2.2.2.1.th).lo 0 = ((IQ.ofQ 1 : IQ) : WithBot IQ) ∧
      OV.value r.2.2.2.2.2.1 (pairO.th r.2.2.2.2.2.1.th) 0 = [7])) = some true := by decide +kernel
  obtain ⟨⟨d, s1, d2, u2, s2, u, c'⟩, h1, h2⟩ := Option.map_eq_some_iff.mp h
  have h2 := of_decide_eq_true h2
  obtain ⟨a, b, e⟩ := session_spec h1 h2.1
  have hn : (pairA.th base.th).n = 1 := by decide +kernel
  have hm : (pairO.th base.th).doms.length = 1 := by decide +kernel
  have hl : (pairA.th base.th).lo 0 = ⊥ := by decide +kernel
  have hv : OV.value base (pairO.th base.th) 0 = [7, 8] := by decide +kernel
  have k1 := C80_arith_partial pairA a b h2.2.1 e
  have k2 := C80_object_partial pairO a b e
  exact ⟨d, u, c', a, b, h2.2.1, e, hn, hm, h2.2.2.1, h2.2.2.2, (k1.1 0 (by omega)).1.trans hl, (k2.1 0 (by omega)).1.trans hv⟩

/-- Two object variables over the items 7 and 8. -/
def base2 : Sat (LRA × OV Nat) := (runs [.ovar [7, 8], .ovar [7, 8], .core .propagate] (Sat.init (LRA.init, OV.init))).getD (Sat.init (LRA.init, OV.init))

/-- C80 is false of the code for equalities of object variables first asked for on the pushed core: the theory remembers the literal of the dropped core, and after `pop` the same call on the first core returns it, although the first core has no
such variable. -/
theorem C80_witness_equality : ∃ d u c' s' o q, Sat.pushTop stdEnv pair.ops [base2] = .ok [d, base2] ∧ Sat.Works stdEnv pair.ops pair.api d u ∧ u.root = true ∧ Sat.popTop pair.ops [u, base2] = .ok [c'] ∧
    OV.newEq stdEnv OV.idO (c'.right 1) (pairO.th c'.th) 0 1 = .ok (s', o, q) ∧ c'.nvars ≤ q.var := by
  have h : ((pushOn base2).bind fun d => (runs [.oeq 0 1, .core .propagate] d).bind fun u => (popOff u base2).bind fun c' =>
      (OV.newEq stdEnv OV.idO (c'.right 1) (pairO.th c'.th) 0 1).toOption.map (fun r => decide (u.root = true ∧ c'.nvars ≤ r.2.2.var))) = some true := by decide +kernel
  obtain ⟨d, h1, h⟩ := Option.bind_eq_some_iff.mp h
  obtain ⟨u, h2, h⟩ := Option.bind_eq_some_iff.mp h
  obtain ⟨c', h3, h⟩ := Option.bind_eq_some_iff.mp h
  obtain ⟨⟨s', o, q⟩, h4, h5⟩ := Option.map_eq_some_iff.mp h
  have h5 := of_decide_eq_true h5
  exact ⟨d, u, c', s', o, q, pushOn_spec h1, runs_works _ h2, h5.1, popOff_spec h3, Lib.toOption_some h4, h5.2⟩

end Kit
end Semitone
