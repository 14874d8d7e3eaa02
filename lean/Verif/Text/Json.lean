import Verif.Text.Caches
import Verif.LRA.Free
import Verif.Sat.PropsA

/-!
# The JSON dumps say what the solver knows

Model of `to_json` of a core, of a clause, and of the linear-arithmetic theory (`/repo/src/sat_core.cpp:620-651`, `/repo/src/clause.cpp:79-104`,
`/repo/src/arith/lra/lra_constraint.cpp:98-116`, `440-446`, `/repo/src/arith/lra/lra_theory.cpp:491-523`).

The library `json` is external; its objects are lists of fields here. `lra_theory.cpp:511` and `517` call `get_array().reserve` on an array that has been moved
from: that this has no effect is assumed.
-/
namespace Semitone

/-- JSON values, as far as they occur. -/
inductive Json where
  | str (s : String)
  | arr (l : List Json)
  | obj (l : List (String × Json))

/-- How the value of a literal of a clause is printed (`clause.cpp:88-99`, `lra_constraint.cpp:102-113`). -/
def tfu : Option Bool → String
  | some true => "T"
  | some false => "F"
  | none => "U"

/-- How the value of a variable is printed (`sat_core.cpp:630-640`). -/
def valName : Option Bool → String
  | some false => "False"
  | some true => "True"
  | none => "Undefined"

namespace Sat
variable {T : Type}

/-- `clause::to_json` (`clause.cpp:79-104`). -/
def clauseJson (s : Sat T) (c : Nat) : Json :=
  .obj [("lits", .arr ((s.db c).map (fun l => .obj [("lit", .str l.str), ("val", .str (tfu (s.value l)))])))]

/-- `to_json(const sat_core &)` (`sat_core.cpp:620-651`). -/
def toJson (s : Sat T) : Json :=
  .obj [("vars", .arr ((List.range s.nvars).map (fun i => .obj [("name", .str (toString i)), ("value", .str (valName (s.assigns i)))]))),
    ("constrs", .arr (s.constrs.map s.clauseJson))]

end Sat

/-- `to_json(const assertion &)` (`lra_constraint.cpp:98-116`); `val` are the values of the literals in the core. -/
def asrtJson (I : InfText) (val : Lit → Option Bool) (a : Asrt) : Json :=
  .obj [("lit", .str (⟨a.b, true⟩ : Lit).str), ("val", .str (tfu (val ⟨a.b, true⟩))), ("constr", .str (asrtStr I (a.le, a.x, a.v)))]

/-- `to_json(const row &)` (`lra_constraint.cpp:440-446`). -/
def rowJson (R : RatText) (r : Nat × Lin) : Json :=
  .obj [("var", .str ("x" ++ toString r.1)), ("expr", .str (r.2.str R))]

namespace LRA

/-- The rows of the tableau in the order of `std::map` (`lra_theory.h:220`). -/
def rows (t : LRA) : List (Nat × Lin) := (List.range t.n).filterMap (fun x => (t.row x).map (fun l => (x, l)))

/-- A variable in the dump (`lra_theory.cpp:498-508`): infinite bounds are left out. -/
def varJson (I : InfText) (t : LRA) (i : Nat) : Json :=
  .obj ([("name", .str (toString i)), ("value", .str (I.str (t.vals i)))] ++
    (if t.lo i = ⊥ then [] else [("lb", .str (I.str ((t.lo i).unbotD 0)))]) ++
    (if t.hi i = ⊤ then [] else [("ub", .str (I.str ((t.hi i).untopD 0)))]))

/-- `to_json(const lra_theory &)` (`lra_theory.cpp:491-523`); `as` are the assertions, in the order of the hash map `v_asrts`. -/
def toJson (I : InfText) (R : RatText) (val : Lit → Option Bool) (as : List Asrt) (t : LRA) : Json :=
  .obj [("vars", .arr ((List.range t.n).map (t.varJson I))), ("asrts", .arr (as.map (asrtJson I val))), ("tableau", .arr (t.rows.map (rowJson R)))]

end LRA

/-! ## Reading a dump -/

theorem tfu_inj {a b : Option Bool} (h : tfu a = tfu b) : a = b := by
  rcases a with _ | _ | _ <;> rcases b with _ | _ | _ <;> first | rfl | (exact absurd h (by decide))

theorem valName_inj {a b : Option Bool} (h : valName a = valName b) : a = b := by
  rcases a with _ | _ | _ <;> rcases b with _ | _ | _ <;> first | rfl | (exact absurd h (by decide))

theorem lit_str_inj {l m : Lit} (h : l.str = m.str) : l = m := by
  have h1 := congrArg String.toList h
  rw [Sat.str_toList, Sat.str_toList] at h1
  exact (Sat.litC_append_inj (r := []) (q := []) (by intro c r h; cases h) (by intro c r h; cases h) (by simpa using h1)).1

theorem map_eq_of_inj {α β γ : Type} {f : α → γ} {g : β → γ} {P : α → β → Prop} (h : ∀ a b, f a = g b → P a b) :
    ∀ {l : List α} {m : List β}, l.map f = m.map g → List.Forall₂ P l m := by
  intro l
  induction l with
  | nil => intro m e; cases m with
    | nil => exact .nil
    | cons b m => cases e
  | cons a l ih => intro m e; cases m with
    | nil => cases e
    | cons b m =>
      rw [List.map_cons, List.map_cons, List.cons.injEq] at e
      exact .cons (h _ _ e.1) (ih e.2)

theorem forall2_eq {α : Type} {l m : List α} (h : List.Forall₂ (fun a b => a = b) l m) : l = m := by
  induction h with
  | nil => rfl
  | cons h _ ih => rw [h, ih]

theorem forall2_range {n m : Nat} {P : Nat → Nat → Prop} (h : List.Forall₂ P (List.range n) (List.range m)) : n = m ∧ ∀ i, i < n → P i i := by
  have hl := h.length_eq
  simp only [List.length_range] at hl
  subst hl
  refine ⟨rfl, fun i hi => ?_⟩
  have := h.get (i := i) (by simpa using hi) (by simpa using hi)
  simpa using this

namespace Sat
variable {T T' : Type}

theorem clauseJson_eq {s : Sat T} {s' : Sat T'} {c c' : Nat} (h : s.clauseJson c = s'.clauseJson c') : s.db c = s'.db c' ∧ ∀ l ∈ s.db c, s.value l = s'.value l := by
  unfold clauseJson at h
  simp only [Json.obj.injEq, List.cons.injEq, Prod.mk.injEq, Json.arr.injEq, true_and, and_true] at h
  have h1 := map_eq_of_inj (P := fun a b => a = b ∧ s.value a = s'.value b) (fun a b e => by
    simp only [Json.obj.injEq, List.cons.injEq, Prod.mk.injEq, Json.str.injEq, true_and, and_true] at e
    exact ⟨lit_str_inj e.1, tfu_inj e.2⟩) h
  have e : s.db c = s'.db c' := forall2_eq (h1.imp (fun _ _ h => h.1))
  refine ⟨e, fun l hl => ?_⟩
  rw [← e] at h1
  have := List.forall₂_same.1 h1 l hl
  exact this.2

/-- **C65.** The dumps of two cores are equal exactly when the cores have the same variables, give them the same values, and store the same clauses (with literals
of existing variables, as in every core the API can produce), in the same order. -/
theorem C65_core_dump (s : Sat T) (s' : Sat T') (hr : ∀ c ∈ s.constrs, ∀ l ∈ s.db c, l.var < s.nvars) :
    s.toJson = s'.toJson ↔ s.nvars = s'.nvars ∧ (∀ v, v < s.nvars → s.assigns v = s'.assigns v) ∧ s.constrs.map s.db = s'.constrs.map s'.db := by
  constructor
  · intro h
    unfold toJson at h
    simp only [Json.obj.injEq, List.cons.injEq, Prod.mk.injEq, Json.arr.injEq, true_and, and_true] at h
    obtain ⟨h1, h2⟩ := h
    have k1 := map_eq_of_inj (P := fun i j => s.assigns i = s'.assigns j) (fun i j e => by
      simp only [Json.obj.injEq, List.cons.injEq, Prod.mk.injEq, Json.str.injEq, true_and, and_true] at e
      exact valName_inj e.2) h1
    obtain ⟨a, b⟩ := forall2_range k1
    have k2 := map_eq_of_inj (P := fun c d => s.db c = s'.db d) (fun c d e => (clauseJson_eq e).1) h2
    refine ⟨a, b, ?_⟩
    exact forall2_eq (List.forall₂_map_left_iff.2 (List.forall₂_map_right_iff.2 k2))
  · rintro ⟨h1, h2, h3⟩
    have hv : ∀ l : Lit, l.var < s.nvars → s.value l = s'.value l := by
      intro l hl; unfold value; rw [h2 _ hl]
    have e1 : (List.range s.nvars).map (fun i => Json.obj [("name", .str (toString i)), ("value", .str (valName (s.assigns i)))]) =
        (List.range s'.nvars).map (fun i => Json.obj [("name", .str (toString i)), ("value", .str (valName (s'.assigns i)))]) := by
      rw [← h1]
      apply List.map_congr_left
      intro i hi
      rw [h2 i (List.mem_range.1 hi)]
    have key : ∀ (cs : List Nat) (ds : List Nat), (∀ c ∈ cs, ∀ l ∈ s.db c, l.var < s.nvars) → cs.map s.db = ds.map s'.db →
        cs.map s.clauseJson = ds.map s'.clauseJson := by
      intro cs
      induction cs with
      | nil => intro ds _ h; cases ds with
        | nil => rfl
        | cons d ds => cases h
      | cons c cs ih => intro ds hc h; cases ds with
        | nil => cases h
        | cons d ds =>
          rw [List.map_cons, List.map_cons, List.cons.injEq] at h
          rw [List.map_cons, List.map_cons, ih ds (fun c' h' => hc c' (by simp [h'])) h.2]
          congr 1
          unfold clauseJson
          rw [← h.1]
          congr 4
          apply List.map_congr_left
          intro l hl
          rw [hv l (hc c (by simp) l hl)]
    unfold toJson
    rw [e1, key _ _ hr h3]

/-- **C65.** In every state the invariant of the core describes, two equal dumps mean equal values of all literals of existing variables. -/
theorem C65_core_values {O : TheoryOps T} {O' : TheoryOps T'} {C : Contract O} {C' : Contract O'} {s : Sat T} {s' : Sat T'} (h : s.RInv C) (h' : s'.RInv C') :
    s.toJson = s'.toJson ↔ s.nvars = s'.nvars ∧ (∀ p, s.value p = s'.value p) ∧ s.constrs.map s.db = s'.constrs.map s'.db := by
  rw [C65_core_dump s s' h.inv.wf.crng]
  constructor
  · rintro ⟨a, b, c⟩
    refine ⟨a, fun p => ?_, c⟩
    unfold value
    by_cases hp : p.var < s.nvars
    · rw [b _ hp]
    · have e1 : s.assigns p.var = none := by
        by_contra hx; exact hp (h.inv.wf.rng _ hx)
      have e2 : s'.assigns p.var = none := by
        by_contra hx; exact hp (a ▸ h'.inv.wf.rng _ hx)
      rw [e1, e2]
  · rintro ⟨a, b, c⟩
    refine ⟨a, fun v _ => ?_, c⟩
    have := b ⟨v, true⟩
    unfold value at this
    revert this
    cases s.assigns v <;> cases s'.assigns v <;> simp

end Sat

namespace LRA

theorem varJson_eq {I : InfText} {t t' : LRA} {i j : Nat} (h : t.varJson I i = t'.varJson I j) : t.vals i = t'.vals j ∧ t.lo i = t'.lo j ∧ t.hi i = t'.hi j := by
  have hb : ∀ a : WithBot IQ, a ≠ ⊥ → ((a.unbotD 0 : IQ) : WithBot IQ) = a := by
    intro a ha; cases a with
    | bot => exact absurd rfl ha
    | coe a => rfl
  have ht : ∀ a : WithTop IQ, a ≠ ⊤ → ((a.untopD 0 : IQ) : WithTop IQ) = a := by
    intro a ha; cases a with
    | top => exact absurd rfl ha
    | coe a => rfl
  unfold varJson at h
  by_cases a1 : t.lo i = ⊥ <;> by_cases a2 : t.hi i = ⊤ <;> by_cases b1 : t'.lo j = ⊥ <;> by_cases b2 : t'.hi j = ⊤ <;>
    simp only [a1, a2, b1, b2, if_true, if_false, List.append_nil, List.cons_append, List.nil_append, Json.obj.injEq, List.cons.injEq, Prod.mk.injEq, Json.str.injEq,
      true_and, and_true, reduceCtorEq, and_false, String.reduceEq, false_and] at h
  · exact ⟨I.inj _ _ h.2, by rw [a1, b1], by rw [a2, b2]⟩
  · obtain ⟨-, h1, h2⟩ := h
    exact ⟨I.inj _ _ h1, by rw [a1, b1], by rw [← ht _ a2, ← ht _ b2, I.inj _ _ h2]⟩
  · obtain ⟨-, h1, h2⟩ := h
    exact ⟨I.inj _ _ h1, by rw [← hb _ a1, ← hb _ b1, I.inj _ _ h2], by rw [a2, b2]⟩
  · obtain ⟨-, h1, h2, h3⟩ := h
    exact ⟨I.inj _ _ h1, by rw [← hb _ a1, ← hb _ b1, I.inj _ _ h2], by rw [← ht _ a2, ← ht _ b2, I.inj _ _ h3]⟩

theorem mem_rows {t : LRA} {x : Nat} {l : Lin} : (x, l) ∈ t.rows ↔ x < t.n ∧ t.row x = some l := by
  unfold rows
  rw [List.mem_filterMap]
  constructor
  · rintro ⟨y, h1, h2⟩
    rw [Option.map_eq_some_iff] at h2
    obtain ⟨m, h3, h4⟩ := h2
    injection h4 with h4 h5; subst h4 h5
    exact ⟨List.mem_range.1 h1, h3⟩
  · rintro ⟨h1, h2⟩
    exact ⟨x, List.mem_range.2 h1, by rw [h2]; rfl⟩

/-- **C65.** Two linear-arithmetic theories with the same dump have the same variables, the same values, the same bounds, the same tableau, and the same assertions with
the same values of their literals. -/
theorem C65_lra_dump (I : InfText) (R : RatText) (val val' : Lit → Option Bool) (as as' : List Asrt) (t t' : LRA)
    (h : t.toJson I R val as = t'.toJson I R val' as') :
    t.n = t'.n ∧ (∀ i, i < t.n → t.vals i = t'.vals i ∧ t.lo i = t'.lo i ∧ t.hi i = t'.hi i ∧ t.row i = t'.row i) ∧
      as = as' ∧ ∀ a ∈ as, val ⟨a.b, true⟩ = val' ⟨a.b, true⟩ := by
  unfold toJson at h
  simp only [Json.obj.injEq, List.cons.injEq, Prod.mk.injEq, Json.arr.injEq, true_and, and_true] at h
  obtain ⟨h1, h2, h3⟩ := h
  obtain ⟨a, b⟩ := forall2_range (map_eq_of_inj (P := fun i j => t.vals i = t'.vals j ∧ t.lo i = t'.lo j ∧ t.hi i = t'.hi j) (fun i j e => varJson_eq e) h1)
  have k := map_eq_of_inj (P := fun (r r' : Nat × Lin) => r = r') (fun r r' e => by
    unfold rowJson at e
    simp only [Json.obj.injEq, List.cons.injEq, Prod.mk.injEq, Json.str.injEq, true_and, and_true] at e
    have e1 := congrArg String.toList e.1
    rw [String.toList_append, String.toList_append, Sat.toString_toList, Sat.toString_toList] at e1
    exact Prod.ext (Sat.numC_inj (List.append_cancel_left e1)) (Lin.C64_lin_text R _ _ e.2)) h3
  have hrows : t.rows = t'.rows := forall2_eq k
  have k2 := map_eq_of_inj (P := fun (r r' : Asrt) => r = r' ∧ val ⟨r.b, true⟩ = val' ⟨r'.b, true⟩) (fun r r' e => by
    unfold asrtJson at e
    simp only [Json.obj.injEq, List.cons.injEq, Prod.mk.injEq, Json.str.injEq, true_and, and_true] at e
    obtain ⟨e1, e2, e3⟩ := e
    have e4 := lit_str_inj e1
    have e5 := C64_assertion_text I _ _ e3
    simp only [Lit.mk.injEq, and_true] at e4
    simp only [Prod.mk.injEq] at e5
    refine ⟨?_, tfu_inj e2⟩
    cases r; cases r'
    simp only at e4 e5
    rw [e4, e5.1, e5.2.1, e5.2.2]) h2
  have hasr : as = as' := forall2_eq (k2.imp (fun _ _ h => h.1))
  refine ⟨a, fun i hi => ⟨(b i hi).1, (b i hi).2.1, (b i hi).2.2, ?_⟩, hasr, fun r hr => ?_⟩
  · have : ∀ l, t.row i = some l ↔ t'.row i = some l := by
      intro l
      have h4 : (i, l) ∈ t.rows ↔ (i, l) ∈ t'.rows := by rw [hrows]
      rw [mem_rows, mem_rows] at h4
      constructor
      · intro h5; exact (h4.1 ⟨hi, h5⟩).2
      · intro h5; exact (h4.2 ⟨a ▸ hi, h5⟩).2
    exact Option.ext (fun l => by simpa using this l)
  · rw [← hasr] at k2
    exact (List.forall₂_same.1 k2 r hr).2

end LRA
/-! ## Concrete dumps -/


open LRA

/-- After `b1 → b2` is posted and `b1` is assumed. -/
def jsonDemo : Sat.PSat := Sat.demo stdEnv [.newVar, .newVar, .newClause [nl 1, pl 2], .assume (pl 1)]

/-- The state is one the API can produce, so `C65_core_values` applies to it. -/
example : jsonDemo.RInv noContract := (Sat.demo_reach _ _).rinv

/-- Its dump, spelt out. -/
example : jsonDemo.toJson = .obj [
    ("vars", .arr [.obj [("name", .str "0"), ("value", .str "False")], .obj [("name", .str "1"), ("value", .str "True")], .obj [("name", .str "2"), ("value", .str "True")]]),
    ("constrs", .arr [.obj [("lits", .arr [.obj [("lit", .str "b2"), ("val", .str "T")], .obj [("lit", .str "¬b1"), ("val", .str "F")]])]])] := by
  kernel_rfl

/-- Two variables, `b1: x0 + x1 <= 5`, and `x0 >= 3`. -/
def jsonLra : Sat LRA := ((demo [.var, .var, .rel .leq l01 (num 5), .lb 0 (IQ.ofQ 3)]).map (·.1.1)).getD (Sat.init LRA.init)

/-- Its dump, spelt out: infinite bounds are left out. -/
example : jsonLra.th.toJson InfText.std RatText.std jsonLra.value [⟨true, 1, 2, IQ.ofQ 5⟩] = .obj [
    ("vars", .arr [.obj [("name", .str "0"), ("value", .str "3x0"), ("lb", .str "3x0")], .obj [("name", .str "1"), ("value", .str "0x0")],
      .obj [("name", .str "2"), ("value", .str "3x0")]]),
    ("asrts", .arr [.obj [("lit", .str "b1"), ("val", .str "U"), ("constr", .str "x2 <= 5x0")]]),
    ("tableau", .arr [.obj [("var", .str "x2"), ("expr", .str "x0 + x1")]])] := by
  kernel_rfl

end Semitone
