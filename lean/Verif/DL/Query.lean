import Verif.DL.PropsB

/-!
# C35: bounds, distances and matching of linear expressions

Model of `bounds(lin)`, `distance(lin, lin)`, `matches(lin, lin)` (`idl_theory.cpp:298-391`, `rdl_theory.cpp:282-370`).
The integer theory multiplies and adds the sentinel `inf()` as an integer; here infinity is absorbing.
-/
namespace Semitone
namespace DL

/-- A number or an infinity. -/
inductive Ext (U : Type) where
  | ninf
  | fin (u : U)
  | pinf

namespace Ext
variable {U : Type}
/-- Is `u` at least the bound? -/
def below [LE U] : Ext U → U → Prop
  | ninf, _ => True
  | fin a, u => a ≤ u
  | pinf, _ => False
/-- Is `u` at most the bound? -/
def above [LE U] : Ext U → U → Prop
  | ninf, _ => False
  | fin a, u => u ≤ a
  | pinf, _ => True
instance [LE U] [DecidableLE U] (a : Ext U) (u : U) : Decidable (a.below u) := by unfold below; cases a <;> infer_instance
instance [LE U] [DecidableLE U] (a : Ext U) (u : U) : Decidable (a.above u) := by unfold above; cases a <;> infer_instance
/-- Addition of a number. -/
def plus [Add U] : Ext U → U → Ext U
  | ninf, _ => ninf
  | fin a, u => fin (a + u)
  | pinf, _ => pinf
end Ext

/-- How a theory over `W` computes with coefficients and known terms, the results being in `U`: `emb` embeds the distances, `num` is what is added for a
known term (`numerator()` in the integer theory), `exact` is the number itself, `scale` multiplies by a coefficient, `flip` says that the two-variable
case of `bounds(lin)` calls `distance(v1, v0)` (`idl_theory.cpp:328`) and not `distance(v0, v1)` (`rdl_theory.cpp:309`). -/
structure Num (W U : Type) where
  emb : W → U
  num : ℚ → U
  exact : ℚ → U
  scale : ℚ → U → U
  flip : Bool

/-- The integer theory. -/
def intN : Num ℤ ℚ where
  emb := fun w => (w : ℚ)
  num := fun q => (q.num : ℚ)
  exact := id
  scale := fun c u => u * (c.num : ℚ)
  flip := true

/-- The rational theory; here the infinitesimal part may become a fraction. -/
def ratN : Num (ℚ ×ₗ ℤ) (ℚ ×ₗ ℚ) where
  emb := fun w => toLex ((ofLex w).1, ((ofLex w).2 : ℚ))
  num := fun q => toLex (q, 0)
  exact := fun q => toLex (q, 0)
  scale := fun c u => toLex (c * (ofLex u).1, c * (ofLex u).2)
  flip := false

variable {W U : Type} [AddCommGroup W] [LinearOrder W] [IsOrderedAddMonoid W] [Dom W]

/-- A lower bound as an extended number. -/
def Num.lo (N : Num W U) : WithBot W → Ext U
  | ⊥ => .ninf
  | (a : W) => .fin (N.emb a)
/-- An upper bound as an extended number. -/
def Num.hi (N : Num W U) : WithTop W → Ext U
  | ⊤ => .pinf
  | (a : W) => .fin (N.emb a)
/-- Product with a non-zero coefficient. -/
def Num.times (N : Num W U) (c : ℚ) : Ext U → Ext U
  | .ninf => if c < 0 then .pinf else .ninf
  | .fin a => .fin (N.scale c a)
  | .pinf => if c < 0 then .ninf else .pinf

/-- `is_integer` in the integer theory, always true in the rational one. -/
def okQ (W : Type) [AddCommGroup W] [LinearOrder W] [IsOrderedAddMonoid W] [Dom W] (q : ℚ) : Bool := (Dom.ofQ q : Option W).isSome

variable [Add U]

/-- `distance(from, to)` of two time points, extended. -/
def distE (N : Num W U) (t : DL W) (i j : Nat) : Except Err (Ext U × Ext U) :=
  if i < t.cap ∧ j < t.cap then .ok (N.lo (t.distance i j).1, N.hi (t.distance i j).2) else .error .ub

/-- `bounds(const lin &)` (`idl_theory.cpp:298-337`, `rdl_theory.cpp:282-318`). -/
def boundsL (N : Num W U) (t : DL W) (l : Lin) : Except Err (Ext U × Ext U) :=
  match l.vars with
  | [] => if okQ W l.kt then .ok (.fin (N.num l.kt), .fin (N.num l.kt)) else .error .invalid
  | [(v, c)] =>
    if okQ W c && okQ W l.kt then
      if v < t.cap then .ok ((N.times c (N.lo (t.lb v))).plus (N.num l.kt), (N.times c (N.hi (t.ub v))).plus (N.num l.kt)) else .error .ub
    else .error .invalid
  | [(v0, c0), (v1, c1)] =>
    if c1 / c0 = -1 && okQ W l.kt then
      match (if N.flip then distE N t v1 v0 else distE N t v0 v1) with
      | .error e => .error e
      | .ok d => .ok (d.1.plus (N.num (l.kt / c0)), d.2.plus (N.num (l.kt / c0)))
    else .error .invalid
  | _ => .error .invalid

/-- `distance(const lin &from, const lin &to)` (`idl_theory.cpp:339-367`, `rdl_theory.cpp:320-346`). -/
def distanceL (N : Num W U) (t : DL W) (src tgt : Lin) : Except Err (Ext U × Ext U) :=
  match (src.sub tgt).vars with
  | [] => .ok (.fin (N.num (src.sub tgt).kt), .fin (N.num (src.sub tgt).kt))
  | [(v, c)] => if okQ W ((src.sub tgt).kt / c) then distE N t v 0 else .error .invalid
  | [(v0, c0), (v1, c1)] => if c1 / c0 = -1 && okQ W ((src.sub tgt).kt / c0) then distE N t v0 v1 else .error .invalid
  | _ => .error .invalid

variable [LE U] [DecidableLE U]

/-- `matches(const lin &, const lin &)` (`idl_theory.cpp:369-391`, `rdl_theory.cpp:348-370`). -/
def matchesL (N : Num W U) (t : DL W) (l0 l1 : Lin) : Except Err Bool :=
  match l0.vars, l1.vars with
  | [], [] => .ok (decide (l0.kt = l1.kt))
  | [], [_] =>
    match boundsL N t l1 with
    | .error e => .error e
    | .ok b => .ok (decide (b.1.below (N.exact l0.kt)) && decide (b.2.above (N.exact l0.kt)))
  | [_], [] =>
    match boundsL N t l0 with
    | .error e => .error e
    | .ok b => .ok (decide (b.1.below (N.exact l1.kt)) && decide (b.2.above (N.exact l1.kt)))
  | [(v0, _)], [(v1, _)] =>
    match distE N t v0 v1 with
    | .error e => .error e
    | .ok d => .ok (decide ((d.1.plus (N.exact (l0.kt - l1.kt))).below (N.exact 0)) && decide ((d.2.plus (N.exact (l0.kt - l1.kt))).above (N.exact 0)))
  | _, _ => .error .invalid

/-- Specification: the interval contains the number. -/
def Contains (b : Ext U × Ext U) (u : U) : Prop := b.1.below u ∧ b.2.above u

end DL
end Semitone
