import Verif.Text.Json

/-!
# C64, C65: reading the texts and the dumps

`Text/Lin.lean` and `Text/Json.lean` prove that texts and dumps determine what they stand for. Here the texts are read: a small grammar of arithmetic texts with
its meaning, and the fields of the dumps, are the specification.
-/
namespace Semitone

/-- A signed product: `q`, `x3`, or `q*x3`, with its value when `x3` stands for `x 3`. -/
inductive Piece (R : RatText) (x : Nat → ℚ) : String → ℚ → Prop
  | num (q : ℚ) : Piece R x (R.str q) q
  | var (v : Nat) : Piece R x ("x" ++ toString v) (x v)
  | times (q : ℚ) (v : Nat) : Piece R x (R.str q ++ "*x" ++ toString v) (q * x v)

/-- Arithmetic texts with their value: pieces, the opposite of a variable, sums and differences, read from left to right. -/
inductive Reads (R : RatText) (x : Nat → ℚ) : String → ℚ → Prop
  | piece {s : String} {q : ℚ} : Piece R x s q → Reads R x s q
  | opp (v : Nat) : Reads R x ("-x" ++ toString v) (-x v)
  | plus {s t : String} {p q : ℚ} : Reads R x s p → Piece R x t q → Reads R x (s ++ " + " ++ t) (p + q)
  | minus {s t : String} {p q : ℚ} : Reads R x s p → Piece R x t q → Reads R x (s ++ " - " ++ t) (p - q)

theorem Reads.of_eq {R : RatText} {x : Nat → ℚ} {s t : String} {p q : ℚ} (h : Reads R x s p) (h1 : s = t) (h2 : p = q) : Reads R x t q := h1 ▸ h2 ▸ h

namespace Lin

theorem reads_first (R : RatText) (x : Nat → ℚ) (t : Nat × ℚ) : Reads R x (firstStr R t) (t.2 * x t.1) := by
  unfold firstStr
  split
  · next h => exact (Reads.piece (.var t.1)).of_eq rfl (by rw [h]; ring)
  · split
    · next h => exact (Reads.opp t.1).of_eq rfl (by rw [h]; ring)
    · exact .piece (.times _ _)

theorem reads_term (R : RatText) (x : Nat → ℚ) (t : Nat × ℚ) {s : String} {p : ℚ} (h : Reads R x s p) : Reads R x (s ++ termStr R t) (p + t.2 * x t.1) := by
  unfold termStr
  split
  · next e => exact (h.plus (.var t.1)).of_eq (by rw [show (" + x" : String) = " + " ++ "x" from rfl]; simp only [String.append_assoc]) (by rw [e]; ring)
  · split
    · next e => exact (h.minus (.var t.1)).of_eq (by rw [show (" - x" : String) = " - " ++ "x" from rfl]; simp only [String.append_assoc]) (by rw [e]; ring)
    · split
      · exact (h.plus (.times t.2 t.1)).of_eq (by simp only [String.append_assoc]) rfl
      · exact (h.minus (.times (-t.2) t.1)).of_eq (by simp only [String.append_assoc]) (by ring)

theorem reads_terms (R : RatText) (x : Nat → ℚ) : ∀ (ts : List (Nat × ℚ)) {s : String} {p : ℚ}, Reads R x s p →
    Reads R x (ts.foldl (fun s t => s ++ termStr R t) s) (p + (ts.map (fun t => t.2 * x t.1)).sum)
  | [], s, p, h => h.of_eq rfl (by simp)
  | t :: ts, s, p, h => (reads_terms R x ts (reads_term R x t h)).of_eq rfl (by rw [List.map_cons, List.sum_cons, add_assoc])

theorem reads_kt (R : RatText) (x : Nat → ℚ) (k : ℚ) {s : String} {p : ℚ} (h : Reads R x s p) : Reads R x (s ++ ktStr R k) (p + k) := by
  unfold ktStr
  split
  · exact (h.plus (.num k)).of_eq (by simp only [String.append_assoc]) rfl
  · split
    · exact (h.minus (.num (-k))).of_eq (by simp only [String.append_assoc]) (by ring)
    · exact h.of_eq (by simp) (by linarith)

/-- **C64.** The text of an expression, read as arithmetic, is the expression. -/
theorem C64_lin_reads (R : RatText) (l : Lin) (x : Nat → ℚ) : Reads R x (str R l) (l.eval 1 x) := by
  obtain ⟨vs, k⟩ := l
  cases vs with
  | nil => exact (Reads.piece (.num k)).of_eq rfl (by simp [eval, evalT])
  | cons t ts => exact (reads_kt R x k (reads_terms R x ts (reads_first R x t))).of_eq rfl (by simp [eval, evalT])

end Lin

namespace Json

/-- The field `k` of an object. -/
def get (j : Json) (k : String) : Option Json :=
  match j with
  | .obj l => l.lookup k
  | _ => none

end Json

/-- The text of a literal. -/
def litText (l : Lit) : String := (if l.sign then "b" else "¬b") ++ toString l.var

theorem lit_str (l : Lit) : l.str = litText l := by
  unfold Lit.str litText
  split <;> simp [*]

/-- The text `t` says that the value is `v`, in the vocabulary `yes`, `no`, `maybe`. -/
def Tells (yes no maybe : String) (t : String) (v : Option Bool) : Prop := (t = yes ↔ v = some true) ∧ (t = no ↔ v = some false) ∧ (t = maybe ↔ v = none)

theorem tfu_tells (v : Option Bool) : Tells "T" "F" "U" (tfu v) v := by
  rcases v with _ | _ | _ <;> simp [Tells, tfu]

theorem valName_tells (v : Option Bool) : Tells "True" "False" "Undefined" (valName v) v := by
  rcases v with _ | _ | _ <;> simp [Tells, valName]

namespace Sat
variable {T : Type}

/-- **C65.** Reading the dump of a core: as many variables as the core has, each with its number and its value; as many constraints as the core stores, each with its literals in order
and their values. -/
theorem C65_core_reads (s : Sat T) :
    (∃ vs : List Json, s.toJson.get "vars" = some (.arr vs) ∧ vs.length = s.nvars ∧
      ∀ (i : Nat) (j : Json), vs[i]? = some j → j.get "name" = some (.str (toString i)) ∧ ∃ t : String, j.get "value" = some (.str t) ∧ Tells "True" "False" "Undefined" t (s.value ⟨i, true⟩)) ∧
    (∃ cs : List Json, s.toJson.get "constrs" = some (.arr cs) ∧ cs.length = s.constrs.length ∧
      ∀ (i : Nat) (j : Json) (c : Nat), cs[i]? = some j → s.constrs[i]? = some c → ∃ ls : List Json, j.get "lits" = some (.arr ls) ∧ ls.length = (s.db c).length ∧
        ∀ (m : Nat) (k : Json) (l : Lit), ls[m]? = some k → (s.db c)[m]? = some l → k.get "lit" = some (.str (litText l)) ∧ ∃ t : String, k.get "val" = some (.str t) ∧ Tells "T" "F" "U" t (s.value l)) := by
  constructor
  · refine ⟨_, rfl, by simp, fun i j h => ?_⟩
    rw [List.getElem?_map, Option.map_eq_some_iff] at h
    obtain ⟨k, h1, rfl⟩ := h
    have : k = i := by
      rw [List.getElem?_eq_some_iff] at h1
      obtain ⟨_, h1⟩ := h1
      rw [← h1, List.getElem_range]
    subst this
    refine ⟨rfl, _, rfl, ?_⟩
    have e : s.value ⟨k, true⟩ = s.assigns k := by unfold value; rcases s.assigns k with _ | _ | _ <;> rfl
    rw [e]
    exact valName_tells _
  · refine ⟨_, rfl, by simp, fun i j c h hc => ?_⟩
    rw [List.getElem?_map, hc] at h
    obtain rfl := Option.some.inj h
    refine ⟨_, rfl, by simp, fun m k l h hl => ?_⟩
    rw [List.getElem?_map, hl] at h
    obtain rfl := Option.some.inj h
    exact ⟨by rw [← lit_str]; rfl, _, rfl, tfu_tells _⟩

end Sat

namespace LRA

/-- **C65.** Reading the dump of a linear-arithmetic theory: every variable with its number, its value and its finite bounds; every assertion with its literal, the value of the
literal and the constraint; and the rows of the tableau, all of them and no others, as texts that mean the rows. -/
theorem C65_lra_reads (I : InfText) (R : RatText) (val : Lit → Option Bool) (as : List Asrt) (t : LRA) :
    (∃ vs : List Json, (t.toJson I R val as).get "vars" = some (.arr vs) ∧ vs.length = t.n ∧
      ∀ (i : Nat) (j : Json), vs[i]? = some j → j.get "name" = some (.str (toString i)) ∧ j.get "value" = some (.str (I.str (t.vals i))) ∧
        (t.lo i = ⊥ → j.get "lb" = none) ∧ (∀ a : IQ, t.lo i = a → j.get "lb" = some (.str (I.str a))) ∧
        (t.hi i = ⊤ → j.get "ub" = none) ∧ (∀ a : IQ, t.hi i = a → j.get "ub" = some (.str (I.str a)))) ∧
    (∃ cs : List Json, (t.toJson I R val as).get "asrts" = some (.arr cs) ∧ cs.length = as.length ∧
      ∀ (i : Nat) (j : Json) (a : Asrt), cs[i]? = some j → as[i]? = some a → j.get "lit" = some (.str ("b" ++ toString a.b)) ∧
        (∃ u, j.get "val" = some (.str u) ∧ Tells "T" "F" "U" u (val ⟨a.b, true⟩)) ∧
        j.get "constr" = some (.str ("x" ++ toString a.x ++ (if a.le then " <= " else " >= ") ++ I.str a.v))) ∧
    (∃ rs : List Json, (t.toJson I R val as).get "tableau" = some (.arr rs) ∧ rs.length = ((List.range t.n).filter t.basic).length ∧
      ∀ (i : Nat) (j : Json) (v : Nat), rs[i]? = some j → ((List.range t.n).filter t.basic)[i]? = some v → j.get "var" = some (.str ("x" ++ toString v)) ∧
        ∃ (l : Lin) (e : String), t.row v = some l ∧ j.get "expr" = some (.str e) ∧ ∀ x, Reads R x e (l.eval 1 x)) := by
  refine ⟨⟨_, rfl, by simp, fun i j h => ?_⟩, ⟨_, rfl, by simp, fun i j a h ha => ?_⟩, ?_⟩
  · rw [List.getElem?_map, Option.map_eq_some_iff] at h
    obtain ⟨k, h1, rfl⟩ := h
    have : k = i := by
      rw [List.getElem?_eq_some_iff] at h1
      obtain ⟨_, h1⟩ := h1
      rw [← h1, List.getElem_range]
    subst this
    refine ⟨rfl, rfl, fun e => ?_, fun a e => ?_, fun e => ?_, fun a e => ?_⟩
    · unfold varJson; rw [if_pos e]
      split <;> rfl
    · unfold varJson; rw [if_neg (by rw [e]; exact WithBot.coe_ne_bot), e]; rfl
    · unfold varJson; rw [if_pos e]
      split <;> rfl
    · unfold varJson; rw [if_neg (c := t.hi k = ⊤) (by rw [e]; exact WithTop.coe_ne_top), e]
      split <;> rfl
  · rw [List.getElem?_map, ha] at h
    obtain rfl := Option.some.inj h
    exact ⟨rfl, ⟨_, rfl, tfu_tells _⟩, rfl⟩
  · have key : t.rows = ((List.range t.n).filter t.basic).map (fun v => (v, (t.row v).getD Lin.zero)) := by
      unfold rows
      induction List.range t.n with
      | nil => rfl
      | cons v vs ih =>
        rw [List.filterMap_cons, List.filter_cons]
        unfold basic at ih ⊢
        cases hv : t.row v with
        | none => simpa using ih
        | some l => simp [ih, hv]
    refine ⟨_, rfl, by rw [List.length_map, key, List.length_map], fun i j v h hv => ?_⟩
    rw [key, List.map_map, List.getElem?_map, hv] at h
    obtain rfl := Option.some.inj h
    have hb : t.basic v = true := (List.mem_filter.1 (List.mem_of_getElem? hv)).2
    obtain ⟨l, hl⟩ := Option.isSome_iff_exists.1 hb
    refine ⟨rfl, l, _, hl, rfl, fun x => ?_⟩
    simp only [hl, Option.getD_some]
    exact Lin.C64_lin_reads R l x

end LRA

/-! ### Concrete readings -/

/-- A text and its meaning. -/
example : Reads RatText.std (fun _ => 2) "-3/2*x0 + x2 - x3 + 5*x10 - 7" 0 :=
  (Lin.C64_lin_reads RatText.std ⟨[(0, -3 / 2), (2, 1), (3, -1), (10, 5)], -7⟩ (fun _ => 2)).of_eq (by decide +kernel) (by norm_num [Lin.eval, Lin.evalT])

example : ∃ (vs : List Json) (j : Json), jsonDemo.toJson.get "vars" = some (.arr vs) ∧ vs[1]? = some j ∧ j.get "value" = some (.str "True") := ⟨_, _, rfl, rfl, by kernel_rfl⟩

end Semitone
