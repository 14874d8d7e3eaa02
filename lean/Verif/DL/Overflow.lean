import Verif.DL.Copy
import Verif.DL.PropsA
import Mathlib.Data.Finset.Card
import Mathlib.Tactic.Linarith

/-!
# The 64-bit integer theory

`DL/Model.lean` computes with exact integers and a separate infinity. The integer theory of the code computes with `utils::I`, a signed 64-bit
integer, and the sentinel `inf()` (`idl_theory.h:144`), and signed overflow is undefined behaviour. This file models that program, with every
arithmetic operation checked, and proves that it does exactly what the exact model does as long as the magnitudes are moderate.
-/
namespace Semitone
namespace DL

/-! ### How large a distance can become -/

/-- Among `n` numbers, one of which is zero and one larger than `(n - 1) K`, there is a gap larger than `K`. -/
theorem gap {n : Nat} {K : ℤ} (hK : 0 ≤ K) (f : Nat → ℤ) {i j : Nat} (hi : i < n) (hj : j < n) (h0 : f i = 0) (h1 : ((n : ℤ) - 1) * K < f j) :
    ∃ m : Nat, m + 1 < n ∧ ∀ v, v < n → f v ≤ m * K ∨ (m + 1) * K < f v := by
  by_contra hcon
  push Not at hcon
  have hij : i ≠ j := by
    rintro rfl
    rw [h0] at h1
    have : (0 : ℤ) ≤ ((n : ℤ) - 1) * K := mul_nonneg (by omega) hK
    omega
  choose! g hg using hcon
  have hmono : ∀ {a b : Nat}, a ≤ b → (a : ℤ) * K ≤ b * K := fun h => mul_le_mul_of_nonneg_right (by exact_mod_cast h) hK
  have hcard : (((Finset.range n).erase i).erase j).card < (Finset.range (n - 1)).card := by
    rw [Finset.card_erase_of_mem (by simp [hj, Ne.symm hij]), Finset.card_erase_of_mem (by simp [hi]), Finset.card_range, Finset.card_range]
    omega
  obtain ⟨a, ha, b, hb, hab, e⟩ := Finset.exists_ne_map_eq_of_card_lt_of_maps_to hcard (f := g) (by
    intro m hm
    have hm' : m + 1 < n := by have := Finset.mem_range.mp (Finset.mem_coe.mp hm); omega
    obtain ⟨q1, q2, q3⟩ := hg m hm'
    simp only [Finset.coe_erase, Finset.coe_range, Set.mem_diff, Set.mem_Iio, Set.mem_singleton_iff]
    refine ⟨⟨q1, ?_⟩, ?_⟩
    · rintro e
      rw [e, h0] at q2
      have : (0 : ℤ) ≤ m * K := mul_nonneg (by omega) hK
      omega
    · rintro e
      rw [e] at q3
      have := hmono (a := m + 1) (b := n - 1) (by omega)
      have e2 : ((n - 1 : Nat) : ℤ) = (n : ℤ) - 1 := by omega
      rw [e2] at this
      push_cast at this
      omega)
  have key : ∀ {a b : Nat}, a ∈ Finset.range (n - 1) → b ∈ Finset.range (n - 1) → a < b → g a ≠ g b := by
    intro a b ha hb hab e
    have ha := Finset.mem_range.mp ha
    have hb := Finset.mem_range.mp hb
    obtain ⟨_, _, q3⟩ := hg a (by omega)
    obtain ⟨_, q2, _⟩ := hg b (by omega)
    have := hmono (a := a + 1) (b := b) (by omega)
    push_cast at this
    rw [e] at q3
    omega
  rcases lt_or_gt_of_ne hab with h | h
  · exact key ha hb h e
  · exact key hb ha h e.symm

/-- Every finite distance is bounded by the number of time points, minus one, times the largest asserted distance. -/
theorem dist_bound {t : DL ℤ} {F : List (Dist ℤ × Bool)} (c : Core t F) {K : ℤ} (hK : 0 ≤ K) (hF : ∀ e ∈ F, |ew e| ≤ K) {i j : Nat} (hi : i < t.nv)
    (hj : j < t.nv) {x : ℤ} (hx : t.d i j = (x : WithTop ℤ)) : |x| ≤ ((t.nv : ℤ) - 1) * K := by
  obtain ⟨X, hP, hXx⟩ := (far_pot c.closed hi hj).1 x hx
  have hX := pot_satF c hP
  have contra : ∀ C : Nat → Prop, ¬ C i → C j → (∀ e ∈ F, ¬ C (es e) → C (et e) → X (et e) - X (es e) + 1 ≤ ew e) → False := by
    intro C h1 h2 h3
    classical
    have hs : SatF (fun v => if C v then X v + 1 else X v) F := by
      intro e he
      rw [holds_iff]
      have h4 := (holds_iff X e).mp (hX e he)
      have h5 := h3 e he
      by_cases a : C (es e) <;> by_cases b : C (et e)
      · rw [if_pos a, if_pos b]; omega
      · rw [if_pos a, if_neg b]; omega
      · rw [if_neg a, if_pos b]; have := h5 a b; omega
      · rw [if_neg a, if_neg b]; omega
    have := c.sound _ hs i j hi hj
    rw [hx, if_pos h2, if_neg h1] at this
    norm_cast at this
    omega
  have hmono : ∀ {a b : Nat}, a ≤ b → (a : ℤ) * K ≤ b * K := fun h => mul_le_mul_of_nonneg_right (by exact_mod_cast h) hK
  have hm0 : ∀ m : Nat, (0 : ℤ) ≤ m * K := fun m => mul_nonneg (by omega) hK
  have e2 : ((t.nv - 1 : Nat) : ℤ) = (t.nv : ℤ) - 1 := by omega
  rw [abs_le]
  constructor
  · by_contra hlt
    obtain ⟨m, hm, hg⟩ := gap hK (fun v => X i - X v) hi hj (by simp) (by show _ < X i - X j; omega)
    refine contra (fun v => m * K < X i - X v) (by have := hm0 m; omega) ?_ ?_
    · have := hmono (a := m) (b := t.nv - 1) (by omega)
      rw [e2] at this
      omega
    · intro e he h1 h2
      obtain ⟨a, b, _, _⟩ := c.compl e he
      have h4 := (hg _ b).resolve_left (not_le.mpr h2)
      have := abs_le.mp (hF e he)
      have e3 : ((m : ℤ) + 1) * K = m * K + K := by ring
      omega
  · by_contra hlt
    obtain ⟨m, hm, hg⟩ := gap hK (fun v => X v - X i) hi hj (by simp) (by show _ < X j - X i; omega)
    refine contra (fun v => m * K < X v - X i) (by have := hm0 m; omega) ?_ ?_
    · have := hmono (a := m) (b := t.nv - 1) (by omega)
      rw [e2] at this
      omega
    · intro e he h1 h2
      obtain ⟨a, b, _, _⟩ := c.compl e he
      have h4 := (hg _ b).resolve_left (not_le.mpr h2)
      have := abs_le.mp (hF e he)
      have h5 := (holds_iff X e).mp (hX e he)
      have e3 : ((m : ℤ) + 1) * K = m * K + K := by ring
      omega

end DL

/-! ### The machine program -/

/-- `inf()` (`idl_theory.h:144`): half of the largest 64-bit integer, minus one. -/
def inf64 : ℤ := (2 ^ 63 - 1) / 2 - 1

/-- The result of a signed 64-bit operation whose mathematical result is `x`; `none` is signed overflow. -/
def chk (x : ℤ) : Option ℤ := if -(2 ^ 63) ≤ x ∧ x ≤ 2 ^ 63 - 1 then some x else none

/-- `struct layer` (`idl_theory.h:176-181`), with machine integers. -/
structure Layer64 where
  oldD : Nat → Nat → Option ℤ
  oldP : Nat → Nat → Option (Option Nat)
  oldC : Nat → Nat → Option (Option (Dist ℤ))

/-- `class idl_theory` (`idl_theory.h:14-191`), with machine integers in the matrix and `inf64` for infinity; otherwise as `DL`. -/
structure DL64 where
  nv : Nat
  cap : Nat
  d : Nat → Nat → ℤ
  pred : Nat → Nat → Option Nat
  cur : Nat → Nat → Option (Dist ℤ)
  vd : Nat → Option (Dist ℤ)
  dcs : Nat → Nat → List (Dist ℤ)
  layers : List Layer64
  bad : Bool

/-- The answer of the machine program to `propagate(lit)`: as `TAct`, or signed overflow (or the failing magnitude assertion of line 506). -/
inductive MAct where
  | ok (t : DL64)
  | confl (t : DL64) (cnfl : List Lit)
  | record (cl : List Lit) (k : (Lit → Option Bool) → MAct)
  | fail (e : Err)
  | overflow

namespace DL64

/-- `idl_theory::idl_theory(sat, size)` (lines 9-17). -/
def init (size : Nat) : DL64 :=
  { nv := 1, cap := size, d := fun i j => if i = j then 0 else inf64, pred := DL.p0, cur := fun _ _ => none, vd := fun _ => none, dcs := fun _ _ => [],
    layers := [], bad := false }

/-- `idl_theory::resize` (lines 625-642). -/
def resize (t : DL64) (size : Nat) : DL64 :=
  { t with
    cap := size
    d := fun i j => if i < t.cap ∧ j < t.cap then t.d i j else if i = j then 0 else inf64
    pred := fun i j => if i < t.cap ∧ j < t.cap then t.pred i j else DL.p0 i j }

/-- `idl_theory::new_var` (lines 34-40). -/
def newVar (t : DL64) : DL64 × Nat :=
  let tp := t.nv
  let t := { t with nv := t.nv + 1 }
  (if t.cap = tp then t.resize ((t.cap * 3) / 2 + 1) else t, tp)

/-- `idl_theory::set_dist` (lines 593-614), without the value listeners. -/
def setDist (t : DL64) (i j : Nat) (w : ℤ) : DL64 :=
  { t with
    bad := t.bad || !decide (w < t.d i j)
    layers := match t.layers with
      | [] => []
      | L :: Ls => (if (L.oldD i j).isNone then { L with oldD := upd2 L.oldD i j (some (t.d i j)) } else L) :: Ls
    d := upd2 t.d i j w }

/-- `idl_theory::set_pred` (lines 616-623). -/
def setPred (t : DL64) (i j : Nat) (p : Option Nat) : DL64 :=
  { t with
    layers := match t.layers with
      | [] => []
      | L :: Ls => (if (L.oldP i j).isNone then { L with oldP := upd2 L.oldP i j (some (some i)) } else L) :: Ls
    pred := upd2 t.pred i j p }

/-- Local variables of `idl_theory::propagate(from, to, dist)` (lines 509-511). -/
structure Loop where
  t : DL64
  si : List Nat
  sj : List Nat
  cu : List (Nat × Nat)

/-- First half of the body of the O(n) loop (lines 518-525), with the subtraction the code does. -/
def loop1a (src tgt : Nat) (w : ℤ) (l : Loop) (u : Nat) : Option Loop :=
  if l.t.d u src = inf64 then some l
  else (chk (l.t.d u tgt - w)).bind fun r =>
    if l.t.d u src < r then
      (chk (l.t.d u src + w)).bind fun x => some
        { t := (l.t.setDist u tgt x).setPred u tgt (some src)
          si := l.si ++ [u]
          sj := l.sj
          cu := l.cu ++ [(u, tgt), (tgt, u)] }
    else some l

/-- Second half of the body of the O(n) loop (lines 526-533). -/
def loop1b (src tgt : Nat) (w : ℤ) (l : Loop) (u : Nat) : Option Loop :=
  if l.t.d tgt u = inf64 then some l
  else (chk (l.t.d src u - w)).bind fun r =>
    if l.t.d tgt u < r then
      (chk (l.t.d tgt u + w)).bind fun x => some
        { t := (l.t.setDist src u x).setPred src u (l.t.pred tgt u)
          si := l.si
          sj := l.sj ++ [u]
          cu := l.cu ++ [(src, u), (u, src)] }
    else some l

/-- Body of the O(n²) loop (lines 539-545). -/
def loop2 (tgt : Nat) (l : Loop) (p : Nat × Nat) : Option Loop :=
  if p.1 = p.2 then some l
  else (chk (l.t.d p.1 tgt + l.t.d tgt p.2)).bind fun x =>
    if x < l.t.d p.1 p.2 then some
      { l with
        t := (l.t.setDist p.1 p.2 x).setPred p.1 p.2 (l.t.pred tgt p.2)
        cu := l.cu ++ [p, (p.2, p.1)] }
    else some l

/-- `idl_theory::propagate(from, to, dist)` (lines 504-545). `std::abs(dist)` overflows on the smallest integer; the assertion of line 506 is
`none` as well. -/
def relaxEdge (t : DL64) (src tgt : Nat) (w : ℤ) : Option (DL64 × List (Nat × Nat)) :=
  (chk |w|).bind fun a =>
    if a < inf64 then
      let t := (t.setDist src tgt w).setPred src tgt (some src)
      ((List.range t.nv).foldlM (fun l u => (loop1a src tgt w l u).bind fun l => loop1b src tgt w l u) (Loop.mk t [] [] [(src, tgt), (tgt, src)])).bind fun l =>
        ((l.si.flatMap (fun i => l.sj.map (fun j => (i, j)))).foldlM (loop2 tgt) l).bind fun l => some (l.t, l.cu)
    else none

/-- Storing the constraint being asserted (lines 421-430, 454-463). -/
def setCur (t : DL64) (i j : Nat) (dd : Dist ℤ) : DL64 :=
  { t with
    layers := match t.layers with
      | [] => []
      | L :: Ls => (if (L.oldC i j).isNone then { L with oldC := upd2 L.oldC i j (some (t.cur i j)) } else L) :: Ls
    cur := if (t.cur i j).isNone then upd2 t.cur i j (some dd) else t.cur }

/-- Outcome of asserting a constraint. -/
inductive Outcome where
  | conflict (i j : Nat)
  | noop
  | update (t : DL64) (cu : List (Nat × Nat))

/-- The two branches of `idl_theory::propagate(lit)` (lines 399-467). -/
def assertD (t : DL64) (dd : Dist ℤ) (sign : Bool) : Option Outcome :=
  if sign then
    (chk (-dd.w)).bind fun nw =>
      if t.d dd.tgt dd.src < nw then some (.conflict dd.tgt dd.src)
      else if dd.w < t.d dd.src dd.tgt then
        ((t.setCur dd.src dd.tgt dd).relaxEdge dd.src dd.tgt dd.w).bind fun r => some (.update r.1 r.2)
      else some .noop
  else
    if t.d dd.src dd.tgt ≤ dd.w then some (.conflict dd.src dd.tgt)
    else (chk (-dd.w)).bind fun nw =>
      if nw ≤ t.d dd.tgt dd.src then
        (chk (nw - 1)).bind fun w' =>
          ((t.setCur dd.tgt dd.src dd).relaxEdge dd.tgt dd.src w').bind fun r => some (.update r.1 r.2)
      else some .noop

/-- The walk along the predecessors (lines 404-415, 437-448, 555-566, 574-585). -/
def explain (t : DL64) (val : Lit → Option Bool) (i : Nat) : Nat → Nat → Except Err (List Lit)
  | 0, c => if c = i then .ok [] else .error .fuel
  | n + 1, c =>
    if c = i then .ok []
    else match t.pred i c with
      | none => .error .ub
      | some k =>
        match explain t val i n k with
        | .error e => .error e
        | .ok L =>
          match t.cur k c with
          | none => .ok L
          | some dd =>
            match val ⟨dd.b, true⟩ with
            | some true => .ok (⟨dd.b, false⟩ :: L)
            | some false => .ok (⟨dd.b, true⟩ :: L)
            | none => .ok L

/-- The loop that looks for constraints decided by the new distances (lines 547-590). -/
def emit (t : DL64) : List (Dist ℤ) → (Lit → Option Bool) → MAct
  | [], _ => .ok t
  | dd :: ds, val =>
    if val ⟨dd.b, true⟩ = none then
      match chk (-dd.w) with
      | none => .overflow
      | some nw =>
        if t.d dd.tgt dd.src < nw then
          match t.explain val dd.tgt t.nv dd.src with
          | .error e => .fail e
          | .ok L => .record (⟨dd.b, false⟩ :: L) (fun v => emit t ds v)
        else if t.d dd.src dd.tgt ≤ dd.w then
          match t.explain val dd.src t.nv dd.tgt with
          | .error e => .fail e
          | .ok L => .record (⟨dd.b, true⟩ :: L) (fun v => emit t ds v)
        else emit t ds val
    else emit t ds val

/-- `idl_theory::propagate(const lit &p)` (lines 393-469). -/
def propagate (t : DL64) (val : Lit → Option Bool) (p : Lit) : MAct :=
  match t.vd p.var with
  | none => .fail .terminate
  | some dd =>
    match val ⟨dd.b, true⟩ with
    | none => .ok t
    | some sign =>
      if t.nv ≤ t.cap ∧ dd.src < t.nv ∧ dd.tgt < t.nv then
        match t.assertD dd sign with
        | none => .overflow
        | some (.conflict i j) =>
          match t.explain val i t.nv j with
          | .error e => .fail e
          | .ok L => .confl t (L ++ [p.neg])
        | some .noop => .ok t
        | some (.update t' cu) => if t'.bad then .fail .assert else emit t' (cu.flatMap (fun q => t'.dcs q.1 q.2)) val
      else .fail .ub

/-- `idl_theory::check` (lines 471-486). -/
def checkOk (t : DL64) (val : Lit → Option Bool) : Bool :=
  (List.range t.nv).all (fun i => (List.range t.nv).all (fun j =>
    match t.cur i j with
    | none => true
    | some dd =>
      match val ⟨dd.b, true⟩ with
      | some true => decide (t.d dd.src dd.tgt ≤ dd.w)
      | some false =>
        match chk (-dd.w) with
        | none => false
        | some nw => decide (t.d dd.tgt dd.src < nw)
      | none => true))

/-- `idl_theory::push` (line 488). -/
def push (t : DL64) : DL64 := { t with layers := ⟨fun _ _ => none, fun _ _ => none, fun _ _ => none⟩ :: t.layers }

/-- `idl_theory::pop` (lines 490-502). -/
def pop (t : DL64) : Except Err DL64 :=
  match t.layers with
  | [] => .error .ub
  | L :: Ls => .ok
    { t with
      d := fun i j => (L.oldD i j).getD (t.d i j)
      pred := fun i j => (L.oldP i j).getD (t.pred i j)
      cur := fun i j => match L.oldC i j with
        | none => t.cur i j
        | some (some dd) => if (t.cur i j).isNone then some dd else t.cur i j
        | some none => none
      layers := Ls }

/-- `idl_theory::lb(v)`, `ub(v)`, `bounds(v)` and `distance(from, to)` (`idl_theory.h:87-109`). -/
def lb (t : DL64) (v : Nat) : Option ℤ := chk (-t.d v 0)
def ub (t : DL64) (v : Nat) : ℤ := t.d 0 v
def bounds (t : DL64) (v : Nat) : Option (ℤ × ℤ) := (chk (-t.d v 0)).bind fun a => some (a, t.d 0 v)
def distance (t : DL64) (i j : Nat) : Option (ℤ × ℤ) := (chk (-t.d j i)).bind fun a => some (a, t.d i j)

/-- Registration of a new constraint (lines 53-55). -/
def register (t : DL64) (dd : Dist ℤ) : DL64 :=
  { t with vd := upd t.vd dd.b (some dd), dcs := upd2 t.dcs dd.src dd.tgt (t.dcs dd.src dd.tgt ++ [dd]) }

/-- `idl_theory::new_distance(from, to, dist)` (lines 42-58). -/
def newDistance (s : Sat DL64) (src tgt : Nat) (w : ℤ) : Option (Except Err (Sat DL64 × Lit)) :=
  if src < s.th.cap ∧ tgt < s.th.cap then
    (chk (-w)).bind fun nw =>
      if s.th.d tgt src < nw then some (.ok (s, falseLit))
      else if s.th.d src tgt ≤ w then some (.ok (s, trueLit))
      else
        let r := s.newVar
        let s := r.1.bind r.2 0
        some (.ok ({ s with th := s.th.register ⟨r.2, src, tgt, w⟩ }, ⟨r.2, true⟩))
  else some (.error .ub)

end DL64

/-! ### The machine state that stands for an exact one -/

/-- The machine representation of a matrix entry. -/
def enc : WithTop ℤ → ℤ
  | ⊤ => inf64
  | (x : ℤ) => x

/-- The machine representation of a lower bound: minus infinity is `-inf()`. -/
def encB : WithBot ℤ → ℤ
  | ⊥ => -inf64
  | (x : ℤ) => x

def Layer.enc (L : Layer ℤ) : Layer64 := ⟨fun i j => (L.oldD i j).map Semitone.enc, L.oldP, L.oldC⟩

/-- The machine representation of a state. -/
def DL.enc (t : DL ℤ) : DL64 :=
  ⟨t.nv, t.cap, fun i j => Semitone.enc (t.d i j), t.pred, t.cur, t.vd, t.dcs, t.layers.map Layer.enc, t.bad⟩

/-- The machine representation of an answer. -/
def TAct.enc : TAct (DL ℤ) → MAct
  | .ok t => .ok t.enc
  | .confl t cl => .confl t.enc cl
  | .record cl k => .record cl (fun v => (k v).enc)
  | .fail e => .fail e

/-- The machine program accepts the literal, after having recorded some clauses, and is left in the given state. -/
inductive MAct.Ends : MAct → DL64 → Prop
  | ok {t} : MAct.Ends (.ok t) t
  | record {cl k v t} : MAct.Ends (k v) t → MAct.Ends (.record cl k) t

/-- The answer contains no overflow, whatever the core answers in between. -/
inductive MAct.Safe : MAct → Prop
  | ok {t} : MAct.Safe (.ok t)
  | confl {t cl} : MAct.Safe (.confl t cl)
  | record {cl k} : (∀ v, MAct.Safe (k v)) → MAct.Safe (.record cl k)
  | fail {e} : MAct.Safe (.fail e)

theorem TAct.enc_safe : ∀ a : TAct (DL ℤ), a.enc.Safe
  | .ok _ => .ok
  | .confl _ _ => .confl
  | .record _ k => .record (fun v => TAct.enc_safe (k v))
  | .fail _ => .fail

/-- Replacing the state of the theory. -/
def Sat.withTh {T U : Type} (s : Sat T) (u : U) : Sat U := { s with th := u }

/-- A matrix entry that cannot be confused with infinity. -/
def Sm (a : WithTop ℤ) : Prop := ∀ x : ℤ, a = (x : WithTop ℤ) → |x| < inf64

theorem inf64_val : inf64 = 4611686018427387902 := by decide

theorem chk_of {x : ℤ} (h : |x| ≤ 2 * inf64) : chk x = some x := by
  rw [inf64_val] at h
  have := abs_le.mp h
  unfold chk
  rw [if_pos (by constructor <;> norm_num <;> omega)]

theorem enc_coe (x : ℤ) : enc (x : WithTop ℤ) = x := rfl
theorem enc_top : enc ⊤ = inf64 := rfl

theorem Sm.abs {a : WithTop ℤ} (h : Sm a) : |enc a| ≤ inf64 := by
  cases a with
  | top => simp [enc, inf64_val]
  | coe x => exact (h x rfl).le

theorem sm_coe {x : ℤ} (h : |x| < inf64) : Sm (x : WithTop ℤ) := by
  intro y hy
  have : x = y := by exact_mod_cast hy
  exact this ▸ h
theorem sm_top : Sm ⊤ := fun x h => by cases h

theorem enc_lt {a b : WithTop ℤ} (ha : Sm a) (hb : Sm b) : enc a < enc b ↔ a < b := by
  cases a with
  | top =>
    cases b with
    | top => simp
    | coe y =>
      have := (abs_lt.mp (hb y rfl)).2
      simp only [enc_coe, enc_top, not_top_lt, iff_false]
      omega
  | coe x =>
    cases b with
    | top =>
      have := (abs_lt.mp (ha x rfl)).2
      simp only [enc_coe, enc_top, WithTop.coe_lt_top, iff_true]
      omega
    | coe y =>
      simp only [enc_coe]
      norm_cast

theorem enc_le {a b : WithTop ℤ} (ha : Sm a) (hb : Sm b) : enc a ≤ enc b ↔ a ≤ b := by
  rw [← not_lt, ← not_lt, enc_lt hb ha]

namespace DL

theorem enc_setDist {t : DL ℤ} {i j : Nat} {x : WithTop ℤ} (hx : Sm x) (hd : Sm (t.d i j)) : (t.setDist i j x).enc = t.enc.setDist i j (Semitone.enc x) := by
  have e1 : decide (x < t.d i j) = decide (Semitone.enc x < Semitone.enc (t.d i j)) := decide_eq_decide.mpr (enc_lt hx hd).symm
  have e2 : (fun a b => Semitone.enc (upd2 t.d i j x a b)) = upd2 (fun a b => Semitone.enc (t.d a b)) i j (Semitone.enc x) := by
    funext a b
    unfold upd2
    split <;> rfl
  unfold setDist enc DL64.setDist
  simp only [DL64.mk.injEq, true_and, e1, e2, and_true]
  cases t.layers with
  | nil => rfl
  | cons L Ls =>
    simp only [List.map_cons, List.cons.injEq, and_true]
    unfold Layer.enc
    simp only [Option.isNone_map]
    split
    · simp only [Layer64.mk.injEq, and_true]
      funext a b
      unfold upd2
      split <;> rfl
    · rfl

theorem enc_setPred {t : DL ℤ} {i j : Nat} {p : Option Nat} : (t.setPred i j p).enc = t.enc.setPred i j p := by
  unfold setPred enc DL64.setPred
  simp only [DL64.mk.injEq, true_and, and_true]
  cases t.layers with
  | nil => rfl
  | cons L Ls =>
    simp only [List.map_cons, List.cons.injEq, and_true]
    unfold Layer.enc
    simp only
    split <;> rfl

theorem enc_setCur {t : DL ℤ} {i j : Nat} {dd : Dist ℤ} : (t.setCur i j dd).enc = t.enc.setCur i j dd := by
  unfold setCur enc DL64.setCur
  simp only [DL64.mk.injEq, true_and, and_true]
  cases t.layers with
  | nil => rfl
  | cons L Ls =>
    simp only [List.map_cons, List.cons.injEq, and_true]
    unfold Layer.enc
    simp only
    split <;> rfl

def encLoop (l : Loop ℤ) : DL64.Loop := ⟨l.t.enc, l.si, l.sj, l.cu⟩

section
variable {n : Nat} {d : Nat → Nat → WithTop ℤ} {s t : Nat} {w : ℤ} {p : Nat → Nat → Option Nat} {D : Nat → Nat → Prop} {B K : ℤ}

/-- The magnitudes during an update. -/
structure Bd (n : Nat) (d : Nat → Nat → WithTop ℤ) (s t : Nat) (w : ℤ) (B K : ℤ) : Prop where
  old : ∀ i j (x : ℤ), i < n → j < n → d i j = (x : WithTop ℤ) → |x| ≤ B
  new : ∀ i j (x : ℤ), i < n → j < n → relax d s t w i j = (x : WithTop ℤ) → |x| ≤ B
  wle : |w| ≤ K
  sum : B + K < inf64
  b0 : 0 ≤ B
  k0 : 0 ≤ K

theorem Bd.at (b : Bd n d s t w B K) {T : DL ℤ} (m : Mid n d p s t w D T) {i j : Nat} (hi : i < n) (hj : j < n) {x : ℤ} (hx : T.d i j = (x : WithTop ℤ)) : |x| ≤ B := by
  by_cases h : D i j
  · rw [m.done i j h] at hx; exact b.new i j x hi hj hx
  · rw [m.undone i j h] at hx; exact b.old i j x hi hj hx

theorem Bd.sm (b : Bd n d s t w B K) {T : DL ℤ} (m : Mid n d p s t w D T) {i j : Nat} (hi : i < n) (hj : j < n) : Sm (T.d i j) := by
  intro x hx
  have := b.at m hi hj hx
  have := b.sum
  have := b.k0
  omega

theorem enc_cmp {a c : WithTop ℤ} {w B K : ℤ} (ha : ∀ x : ℤ, a = (x : WithTop ℤ) → |x| ≤ B) (hc : Sm c) (hw : |w| ≤ K) (hs : B + K < inf64) :
    (a ≠ ⊤ ∧ a + (w : WithTop ℤ) < c) ↔ (Semitone.enc a ≠ inf64 ∧ Semitone.enc a < Semitone.enc c - w) := by
  have hw' := abs_le.mp hw
  cases a with
  | top => simp [enc_top]
  | coe x =>
    have h1 := ha x rfl
    have h2 := abs_le.mp h1
    have h3 : x ≠ inf64 := by omega
    cases c with
    | top =>
      simp only [enc_coe, enc_top]
      constructor
      · intro _; exact ⟨h3, by omega⟩
      · intro _; exact ⟨by simp, by norm_cast; exact WithTop.coe_lt_top _⟩
    | coe y =>
      simp only [enc_coe]
      constructor
      · rintro ⟨_, h⟩
        norm_cast at h
        exact ⟨h3, by omega⟩
      · rintro ⟨_, h⟩
        refine ⟨by simp, ?_⟩
        norm_cast
        omega

theorem enc_loop1a (b : Bd n d s t w B K) (hs : s < n) (ht : t < n) (l : Loop ℤ) {u : Nat} (hu : u < n) (m : Mid n d p s t w D l.t) :
    DL64.loop1a s t w (encLoop l) u = some (encLoop (loop1a s t w l u)) := by
  have cmp := enc_cmp (fun x hx => b.at m hu hs hx) (b.sm m hu ht) b.wle b.sum
  have hab : |Semitone.enc (l.t.d u t)| ≤ inf64 := (b.sm m hu ht).abs
  have hw := b.wle
  have hk : K < inf64 := by have := b.sum; have := b.b0; omega
  have hc : chk (Semitone.enc (l.t.d u t) - w) = some (Semitone.enc (l.t.d u t) - w) := chk_of (by rw [abs_le] at *; omega)
  unfold DL64.loop1a loop1a
  show (if Semitone.enc (l.t.d u s) = inf64 then _ else _) = _
  by_cases h1 : Semitone.enc (l.t.d u s) = inf64
  · rw [if_pos h1, if_neg (fun h => (cmp.mp h).1 h1)]
  · rw [if_neg h1]
    show ((chk (Semitone.enc (l.t.d u t) - w)).bind fun r => if Semitone.enc (l.t.d u s) < r then _ else _) = _
    rw [hc, Option.bind_some]
    by_cases h2 : Semitone.enc (l.t.d u s) < Semitone.enc (l.t.d u t) - w
    · have h3 := cmp.mpr ⟨h1, h2⟩
      rw [if_pos h2, if_pos h3]
      obtain ⟨x, hx⟩ : ∃ x : ℤ, l.t.d u s = (x : WithTop ℤ) := by
        cases h : l.t.d u s with
        | top => exact absurd h h3.1
        | coe x => exact ⟨x, rfl⟩
      have hxB := b.at m hu hs hx
      have hsum : |x + w| ≤ B + K := by rw [abs_le] at *; omega
      have hlt := b.sum
      have hb0 := b.b0
      have hk0 := b.k0
      show ((chk (Semitone.enc (l.t.d u s) + w)).bind fun x => some _) = _
      rw [hx, enc_coe, chk_of (by omega), Option.bind_some]
      unfold encLoop
      simp only [Option.some.injEq, DL64.Loop.mk.injEq, and_true]
      rw [enc_setPred, enc_setDist (by norm_cast; exact sm_coe (by omega)) (b.sm m hu ht)]
      rfl
    · rw [if_neg h2, if_neg (fun h => h2 (cmp.mp h).2)]

theorem enc_loop1b (b : Bd n d s t w B K) (hs : s < n) (ht : t < n) (l : Loop ℤ) {u : Nat} (hu : u < n) (m : Mid n d p s t w D l.t) :
    DL64.loop1b s t w (encLoop l) u = some (encLoop (loop1b s t w l u)) := by
  have cmp := enc_cmp (fun x hx => b.at m ht hu hx) (b.sm m hs hu) b.wle b.sum
  have hab : |Semitone.enc (l.t.d s u)| ≤ inf64 := (b.sm m hs hu).abs
  have hw := b.wle
  have hk : K < inf64 := by have := b.sum; have := b.b0; omega
  have hc : chk (Semitone.enc (l.t.d s u) - w) = some (Semitone.enc (l.t.d s u) - w) := chk_of (by rw [abs_le] at *; omega)
  unfold DL64.loop1b loop1b
  show (if Semitone.enc (l.t.d t u) = inf64 then _ else _) = _
  by_cases h1 : Semitone.enc (l.t.d t u) = inf64
  · rw [if_pos h1, if_neg (fun h => (cmp.mp h).1 h1)]
  · rw [if_neg h1]
    show ((chk (Semitone.enc (l.t.d s u) - w)).bind fun r => if Semitone.enc (l.t.d t u) < r then _ else _) = _
    rw [hc, Option.bind_some]
    by_cases h2 : Semitone.enc (l.t.d t u) < Semitone.enc (l.t.d s u) - w
    · have h3 := cmp.mpr ⟨h1, h2⟩
      rw [if_pos h2, if_pos h3]
      obtain ⟨x, hx⟩ : ∃ x : ℤ, l.t.d t u = (x : WithTop ℤ) := by
        cases h : l.t.d t u with
        | top => exact absurd h h3.1
        | coe x => exact ⟨x, rfl⟩
      have hxB := b.at m ht hu hx
      have hsum : |x + w| ≤ B + K := by rw [abs_le] at *; omega
      have hlt := b.sum
      have hb0 := b.b0
      have hk0 := b.k0
      show ((chk (Semitone.enc (l.t.d t u) + w)).bind fun x => some _) = _
      rw [hx, enc_coe, chk_of (by omega), Option.bind_some]
      unfold encLoop
      simp only [Option.some.injEq, DL64.Loop.mk.injEq, and_true]
      rw [enc_setPred, enc_setDist (by norm_cast; exact sm_coe (by omega)) (b.sm m hs hu)]
      rfl
    · rw [if_neg h2, if_neg (fun h => h2 (cmp.mp h).2)]

theorem enc_loop2 (b : Bd n d s t w B K) (ht : t < n) (l : Loop ℤ) {q : Nat × Nat} (h1 : q.1 < n) (h2 : q.2 < n) (m : Mid n d p s t w D l.t)
    (f1 : l.t.d q.1 t ≠ ⊤) (f2 : l.t.d t q.2 ≠ ⊤) (hsm : ∀ x : ℤ, l.t.d q.1 t + l.t.d t q.2 = (x : WithTop ℤ) → x < l.t.d q.1 q.2 → |x| ≤ B) :
    DL64.loop2 t (encLoop l) q = some (encLoop (loop2 t l q)) := by
  obtain ⟨x, hx⟩ := WithTop.ne_top_iff_exists.mp f1
  obtain ⟨y, hy⟩ := WithTop.ne_top_iff_exists.mp f2
  have hxB := b.at m h1 ht hx.symm
  have hyB := b.at m ht h2 hy.symm
  have hlt := b.sum
  have hk0 := b.k0
  have hsum : |x + y| ≤ 2 * inf64 := by rw [abs_le] at *; omega
  have hS := b.sm m h1 h2
  unfold DL64.loop2 loop2
  by_cases hq : q.1 = q.2
  · rw [if_pos hq, if_neg (fun h => h.1 hq)]
  · rw [if_neg hq]
    show ((chk (Semitone.enc (l.t.d q.1 t) + Semitone.enc (l.t.d t q.2))).bind fun x => if x < Semitone.enc (l.t.d q.1 q.2) then _ else _) = _
    rw [← hx, ← hy, enc_coe, enc_coe, chk_of hsum, Option.bind_some]
    by_cases hlt2 : ((x : WithTop ℤ) + (y : WithTop ℤ)) < l.t.d q.1 q.2
    · have hB : |x + y| ≤ B := hsm (x + y) (by rw [← hx, ← hy]; norm_cast) (by push_cast; exact hlt2)
      have hsm2 : Sm ((x + y : ℤ) : WithTop ℤ) := sm_coe (by omega)
      have h3 : x + y < Semitone.enc (l.t.d q.1 q.2) := by
        rw [← enc_coe (x + y), enc_lt hsm2 hS]
        push_cast
        exact hlt2
      rw [if_pos h3, if_pos ⟨hq, hlt2⟩]
      unfold encLoop
      simp only [Option.some.injEq, DL64.Loop.mk.injEq, and_true, true_and]
      rw [enc_setPred, enc_setDist (by norm_cast) hS]
      rfl
    · rw [if_neg (c := q.1 ≠ q.2 ∧ _) (fun h => hlt2 h.2), if_neg]
      intro h
      cases hc : l.t.d q.1 q.2 with
      | top => rw [hc] at hlt2; exact hlt2 (by norm_cast; exact WithTop.coe_lt_top _)
      | coe z =>
        rw [hc] at hlt2 h
        rw [enc_coe] at h
        exact hlt2 (by exact_mod_cast h)


theorem enc_loop1_fold (hc : Closed n d) (h : EdgeOK n d s t w) (b : Bd n d s t w B K) : ∀ (us P : List Nat) (l : Loop ℤ), (P ++ us).Nodup → (∀ u ∈ us, u < n) →
    Mid n d p s t w (Done1 s t P) l.t → Coll d s t w P l →
    us.foldlM (fun l u => (DL64.loop1a s t w l u).bind fun l => DL64.loop1b s t w l u) (encLoop l) =
      some (encLoop (us.foldl (fun l u => loop1b s t w (loop1a s t w l u) u) l))
  | [], P, l, _, _, m, c => rfl
  | u :: us, P, l, hn, hlt, m, c => by
    have hu : u ∉ P := fun hu => (List.nodup_append.mp hn).2.2 u hu u List.mem_cons_self rfl
    have hun := hlt u List.mem_cons_self
    obtain ⟨m1, c1⟩ := loop1_step hc h P l u hu m c
    have ma := mid_loop1a hc h l (u := u) m
    rw [List.foldlM_cons, enc_loop1a b h.hs h.ht l hun m, Option.bind_some, enc_loop1b b h.hs h.ht _ hun ma]
    exact enc_loop1_fold hc h b us (P ++ [u]) _ (by simpa using hn) (fun v hv => hlt v (List.mem_cons_of_mem _ hv)) m1 c1

theorem enc_loop2_fold (hc : Closed n d) (h : EdgeOK n d s t w) (b : Bd n d s t w B K) : ∀ (qs : List (Nat × Nat)) (D : Nat → Nat → Prop) (l : Loop ℤ),
    (∀ q ∈ qs, q.1 < n ∧ q.2 < n ∧ q.2 ≠ t ∧ D q.1 t ∧ d q.1 s + (w : WithTop ℤ) < d q.1 t) → (∀ q ∈ qs, d t q.2 ≠ ⊤) →
    Mid n d p s t w D l.t → qs.foldlM (DL64.loop2 t) (encLoop l) = some (encLoop (qs.foldl (loop2 t) l))
  | [], D, l, _, _, m => rfl
  | q :: qs, D, l, hq, hf, m => by
    obtain ⟨h1, h2, h3, h4, h5⟩ := hq q List.mem_cons_self
    have e1 : l.t.d q.1 t = d q.1 s + (w : WithTop ℤ) := by
      rw [m.done q.1 t h4, relax_col_t hc h]
      exact min_eq_right h5.le
    have e2 : l.t.d t q.2 = d t q.2 := m.d_eq (relax_row_t h q.2)
    have m1 := (loop2_fold hc h [q] D l (fun q' hq' => by rw [List.mem_singleton.mp hq']; exact ⟨h1, h2, h3, h4, h5⟩) m).1
    simp only [List.foldl_cons, List.foldl_nil] at m1
    rw [List.foldlM_cons, enc_loop2 b h.ht l h1 h2 m ?_ ?_ ?_]
    · exact enc_loop2_fold hc h b qs _ _ (fun q' hq' => by
        obtain ⟨a1, a2, a3, a4, a5⟩ := hq q' (List.mem_cons_of_mem _ hq')
        exact ⟨a1, a2, a3, Or.inl a4, a5⟩) (fun q' hq' => hf q' (List.mem_cons_of_mem _ hq')) m1
    · rw [e1]
      exact ne_top_of_lt h5
    · rw [e2]
      exact hf q List.mem_cons_self
    · intro x hx hlt
      rw [e1, e2] at hx
      refine b.new q.1 q.2 x h1 h2 ?_
      unfold relax
      rw [hx]
      by_cases hD : D q.1 q.2
      · rw [m.done _ _ hD] at hlt
        unfold relax at hlt
        rw [hx] at hlt
        exact absurd (lt_of_lt_of_le hlt (min_le_right _ _)) (lt_irrefl _)
      · rw [m.undone _ _ hD] at hlt
        exact min_eq_right hlt.le

theorem enc_relaxEdge (T : DL ℤ) (hb : T.bad = false) (hc : Closed T.nv T.d) (h : EdgeOK T.nv T.d s t w) (b : Bd T.nv T.d s t w B K) :
    T.enc.relaxEdge s t w = some ((T.relaxEdge s t w).1.enc, (T.relaxEdge s t w).2) := by
  have hw : (w : WithTop ℤ) = T.d s s + (w : WithTop ℤ) + T.d t t := by rw [hc.diag s h.hs, hc.diag t h.ht]; simp
  have m0 : Mid T.nv T.d T.pred s t w (fun _ _ => False) T :=
    ⟨rfl, fun _ _ h => h.elim, fun _ _ _ => rfl, fun _ _ h => h.elim, fun _ _ _ => rfl, hb⟩
  have m1 := m0.update (a := s) (b := t) hw (q := some s) (by simp) h.lt
  have m2 : Mid T.nv T.d T.pred s t w (Done1 s t []) ((T.setDist s t (w : WithTop ℤ)).setPred s t (some s)) :=
    m1.congr (fun i j => by simp [Done1])
  have c2 : Coll T.d s t w [] ⟨(T.setDist s t (w : WithTop ℤ)).setPred s t (some s), [], [], [(s, t), (t, s)]⟩ := by
    refine ⟨fun i => by simp, fun i => by simp, fun i j => ?_⟩
    simp only [List.mem_cons, Prod.mk.injEq, List.not_mem_nil, or_false, false_and, and_false]
    tauto
  obtain ⟨m3, c3⟩ := loop1_fold hc h (List.range T.nv) [] _ (by simpa using List.nodup_range) m2 c2
  have f1 := enc_loop1_fold hc h b (List.range T.nv) [] _ (by simpa using List.nodup_range) (fun u hu => List.mem_range.mp hu) m2 c2
  simp only [List.nil_append] at m3 c3
  have hwK : |w| < inf64 := by have := b.wle; have := b.sum; have := b.b0; omega
  have hw0 : |(|w|)| ≤ 2 * inf64 := by rw [abs_abs]; have := b.sum; have := b.b0; have := b.k0; omega
  have e0 : (T.enc.setDist s t w).setPred s t (some s) = ((T.setDist s t (w : WithTop ℤ)).setPred s t (some s)).enc := by
    rw [enc_setPred, enc_setDist (sm_coe hwK) (b.sm m0 h.hs h.ht)]
    rfl
  unfold DL64.relaxEdge relaxEdge
  rw [chk_of hw0, Option.bind_some, if_pos hwK]
  simp only [e0]
  have hnv : ((T.setDist s t (w : WithTop ℤ)).setPred s t (some s)).enc.nv = T.nv := rfl
  have hnv' : ((T.setDist s t (w : WithTop ℤ)).setPred s t (some s)).nv = T.nv := rfl
  simp only [hnv, hnv']
  have e1 : (DL64.Loop.mk ((T.setDist s t (w : WithTop ℤ)).setPred s t (some s)).enc [] [] [(s, t), (t, s)]) =
    encLoop ⟨(T.setDist s t (w : WithTop ℤ)).setPred s t (some s), [], [], [(s, t), (t, s)]⟩ := rfl
  rw [e1, f1, Option.bind_some]
  generalize (List.range T.nv).foldl (fun l u => loop1b s t w (loop1a s t w l u) u)
    ⟨(T.setDist s t (w : WithTop ℤ)).setPred s t (some s), [], [], [(s, t), (t, s)]⟩ = l at m3 c3
  have hqs : ∀ q : Nat × Nat, q ∈ l.si.flatMap (fun i => l.sj.map (fun j => (i, j))) → q.1 ∈ l.si ∧ q.2 ∈ l.sj := by
    rintro ⟨a, b⟩
    simp only [List.mem_flatMap, List.mem_map, Prod.mk.injEq]
    rintro ⟨i, hi, j, hj, rfl, rfl⟩
    exact ⟨hi, hj⟩
  have f2 := enc_loop2_fold hc h b (l.si.flatMap (fun i => l.sj.map (fun j => (i, j)))) (Done1 s t (List.range T.nv)) l (fun q hq => by
    obtain ⟨h1, h2⟩ := hqs q hq
    obtain ⟨a1, a2, a3⟩ := (c3.si _).mp h1
    obtain ⟨b1, b2, _⟩ := (c3.sj _).mp h2
    exact ⟨List.mem_range.mp a1, List.mem_range.mp b1, b2, Or.inr (Or.inl ⟨rfl, a1⟩), a3⟩) (fun q hq => by
    obtain ⟨_, h2⟩ := hqs q hq
    obtain ⟨_, _, b3⟩ := (c3.sj _).mp h2
    exact ne_top_of_add_lt b3) m3
  show ((l.si.flatMap (fun i => l.sj.map (fun j => (i, j)))).foldlM (DL64.loop2 t) (encLoop l)).bind _ = _
  rw [f2, Option.bind_some]
  rfl

end

/-- The magnitudes of a state: `nv` time points, and no constraint larger than `K`. -/
structure Small (K : ℤ) (nv : Nat) (vd : Nat → Option (Dist ℤ)) : Prop where
  pos : 0 ≤ K
  reg : ∀ v dd, vd v = some dd → |dd.w| ≤ K
  size : (nv : ℤ) * (K + 1) < inf64

theorem ew_abs {dd : Dist ℤ} {sg : Bool} {K : ℤ} (h : |dd.w| ≤ K) : |ew (dd, sg)| ≤ K + 1 := by
  have := abs_le.mp h
  rw [abs_le]
  cases sg
  · show -(K + 1) ≤ -dd.w - 1 ∧ -dd.w - 1 ≤ K + 1
    omega
  · show -(K + 1) ≤ dd.w ∧ dd.w ≤ K + 1
    omega

section
variable {t : DL ℤ} {A : List (List (Dist ℤ × Bool))} {K : ℤ}

theorem Hist.bound (h : Hist (t, A)) (hs : Small K t.nv t.vd) {i j : Nat} (hi : i < t.nv) (hj : j < t.nv) {x : ℤ} (hx : t.d i j = (x : WithTop ℤ)) :
    |x| ≤ ((t.nv : ℤ) - 1) * (K + 1) := by
  refine dist_bound h.good.1.core (by have := hs.pos; omega) (fun e he => ?_) hi hj hx
  obtain ⟨v, hv⟩ := h.asserted e he
  exact ew_abs (dd := e.1) (sg := e.2) (hs.reg v _ hv)

theorem Small.lt (hs : Small K t.nv t.vd) : ((t.nv : ℤ) - 1) * (K + 1) + (K + 1) < inf64 := by
  have := hs.size
  have e : ((t.nv : ℤ) - 1) * (K + 1) + (K + 1) = t.nv * (K + 1) := by ring
  omega

theorem Hist.nvpos (h : Hist (t, A)) : 1 ≤ t.nv := h.good.1.core.one

theorem Hist.sm (h : Hist (t, A)) (hs : Small K t.nv t.vd) (i j : Nat) : Sm (t.d i j) := by
  by_cases hij : i < t.nv ∧ j < t.nv
  · intro x hx
    have := h.bound hs hij.1 hij.2 hx
    have := hs.lt
    have := hs.pos
    omega
  · rw [h.good.1.core.out i j hij]
    unfold d0
    split
    · exact sm_coe (by decide)
    · exact sm_top

theorem Hist.kw (h : Hist (t, A)) (hs : Small K t.nv t.vd) : K + 1 < inf64 := by
  have := hs.lt
  have h1 : (0 : ℤ) ≤ ((t.nv : ℤ) - 1) * (K + 1) := mul_nonneg (by have := h.nvpos; omega) (by have := hs.pos; omega)
  omega

/-- The magnitudes of an update. -/
theorem Hist.bd (h : Hist (t, A)) (hs : Small K t.nv t.vd) {v : Nat} {dd : Dist ℤ} (hv : t.vd v = some dd) {sg : Bool} {t' : DL ℤ} {cu : List (Nat × Nat)}
    (hst : Step t t' (dd, sg) cu) : Bd t.nv t.d (es (dd, sg)) (et (dd, sg)) (ew (dd, sg)) (((t.nv : ℤ) - 1) * (K + 1)) (K + 1) := by
  have c' := core_relax h.good.1.core (dd, sg) hst.edge hst.rel rfl hst.nv hst.cap hst.cur
  refine ⟨fun i j x hi hj hx => h.bound hs hi hj hx, fun i j x hi hj hx => ?_, ew_abs (hs.reg v _ hv), hs.lt,
    mul_nonneg (by have := h.nvpos; omega) (by have := hs.pos; omega), by have := hs.pos; omega⟩
  rw [← hst.rel.d_in i j hi hj] at hx
  have := dist_bound c' (K := K + 1) (by have := hs.pos; omega) (fun e he => ?_) (by rw [hst.nv]; exact hi) (by rw [hst.nv]; exact hj) hx
  · rwa [hst.nv] at this
  · rcases List.mem_cons.mp he with rfl | he
    · exact ew_abs (hs.reg v _ hv)
    · obtain ⟨u, hu⟩ := h.asserted e he
      exact ew_abs (dd := e.1) (sg := e.2) (hs.reg u _ hu)

def Outcome.enc : Outcome ℤ → DL64.Outcome
  | .conflict i j => .conflict i j
  | .noop => .noop
  | .update t cu => .update t.enc cu

theorem enc_assertD (h : Hist (t, A)) (hs : Small K t.nv t.vd) {v : Nat} {dd : Dist ℤ} (hv : t.vd v = some dd) (sg : Bool) :
    t.enc.assertD dd sg = some (t.assertD dd sg).enc := by
  obtain ⟨_, a2, a3, a4⟩ := h.good.2.vd _ _ hv
  have c := h.good.1.core
  have sp := assertD_spec c dd sg a2 a3 a4
  have hw := abs_le.mp (hs.reg v _ hv)
  have hk := h.kw hs
  have hp := hs.pos
  have nw : chk (-dd.w) = some (-dd.w) := chk_of (by rw [abs_le]; omega)
  have sw : Sm ((dd.w : ℤ) : WithTop ℤ) := sm_coe (by rw [abs_lt]; omega)
  have snw : Sm ((-dd.w : ℤ) : WithTop ℤ) := sm_coe (by rw [abs_lt]; omega)
  have l1 : Semitone.enc (t.d dd.tgt dd.src) < -dd.w ↔ t.d dd.tgt dd.src < ((-dd.w : ℤ) : WithTop ℤ) := enc_lt (h.sm hs _ _) snw
  have l2 : dd.w < Semitone.enc (t.d dd.src dd.tgt) ↔ (dd.w : WithTop ℤ) < t.d dd.src dd.tgt := enc_lt sw (h.sm hs _ _)
  have l3 : Semitone.enc (t.d dd.src dd.tgt) ≤ dd.w ↔ t.d dd.src dd.tgt ≤ (dd.w : WithTop ℤ) := enc_le (h.sm hs _ _) sw
  have l4 : -dd.w ≤ Semitone.enc (t.d dd.tgt dd.src) ↔ ((-dd.w : ℤ) : WithTop ℤ) ≤ t.d dd.tgt dd.src := enc_le snw (h.sm hs _ _)
  cases sg with
  | true =>
    unfold DL64.assertD assertD at *
    simp only [if_true] at *
    rw [nw, Option.bind_some]
    show (if Semitone.enc (t.d dd.tgt dd.src) < -dd.w then _ else if dd.w < Semitone.enc (t.d dd.src dd.tgt) then _ else _) = _
    by_cases h1 : t.d dd.tgt dd.src < ((-dd.w : ℤ) : WithTop ℤ)
    · rw [if_pos (l1.mpr h1), if_pos h1]; rfl
    · rw [if_neg (fun hh => h1 (l1.mp hh)), if_neg h1]
      rw [if_neg h1] at sp
      by_cases h2 : (dd.w : WithTop ℤ) < t.d dd.src dd.tgt
      · rw [if_pos (l2.mpr h2), if_pos h2]
        rw [if_pos h2] at sp
        simp only at sp
        have b := h.bd hs hv sp
        have hr : (t.setCur dd.src dd.tgt dd).enc.relaxEdge dd.src dd.tgt dd.w = some (((t.setCur dd.src dd.tgt dd).relaxEdge dd.src dd.tgt dd.w).1.enc,
          ((t.setCur dd.src dd.tgt dd).relaxEdge dd.src dd.tgt dd.w).2) := enc_relaxEdge (t.setCur dd.src dd.tgt dd) c.ok c.closed sp.edge b
        rw [← enc_setCur, hr]
        rfl
      · rw [if_neg (fun hh => h2 (l2.mp hh)), if_neg h2]; rfl
  | false =>
    unfold DL64.assertD assertD at *
    simp only [Bool.false_eq_true, if_false] at *
    show (if Semitone.enc (t.d dd.src dd.tgt) ≤ dd.w then _ else _) = _
    by_cases h1 : t.d dd.src dd.tgt ≤ (dd.w : WithTop ℤ)
    · rw [if_pos (l3.mpr h1), if_pos h1]; rfl
    · rw [if_neg (fun hh => h1 (l3.mp hh)), if_neg h1, nw, Option.bind_some]
      rw [if_neg h1] at sp
      show (if -dd.w ≤ Semitone.enc (t.d dd.tgt dd.src) then _ else _) = _
      by_cases h2 : ((-dd.w : ℤ) : WithTop ℤ) ≤ t.d dd.tgt dd.src
      · rw [if_pos (l4.mpr h2), if_pos h2, chk_of (by rw [abs_le]; omega), Option.bind_some]
        rw [if_pos h2] at sp
        simp only at sp
        have b := h.bd hs hv sp
        have hr : (t.setCur dd.tgt dd.src dd).enc.relaxEdge dd.tgt dd.src (-dd.w - 1) = some (((t.setCur dd.tgt dd.src dd).relaxEdge dd.tgt dd.src (-dd.w - 1)).1.enc,
          ((t.setCur dd.tgt dd.src dd).relaxEdge dd.tgt dd.src (-dd.w - 1)).2) := enc_relaxEdge (t.setCur dd.tgt dd.src dd) c.ok c.closed sp.edge b
        rw [← enc_setCur, hr]
        rfl
      · rw [if_neg (fun hh => h2 (l4.mp hh)), if_neg h2]; rfl

theorem enc_explain (t : DL ℤ) (val : Lit → Option Bool) (i : Nat) : ∀ n c, t.enc.explain val i n c = t.explain val i n c
  | 0, c => rfl
  | n + 1, c => by
    unfold DL64.explain explain
    show (if c = i then _ else match t.pred i c with | none => _ | some k => _) = _
    split
    · rfl
    · cases t.pred i c with
      | none => rfl
      | some k =>
        simp only [enc_explain t val i n k]
        have e : t.enc.cur k c = t.cur k c := rfl
        rw [e]
        cases t.explain val i n k with
        | error e => rfl
        | ok L =>
          cases t.cur k c with
          | none => rfl
          | some dd =>
            cases val ⟨dd.b, true⟩ with
            | none => rfl
            | some b => cases b <;> rfl

theorem enc_emit (t : DL ℤ) (hsm : ∀ i j, Sm (t.d i j)) : ∀ (ds : List (Dist ℤ)) (val : Lit → Option Bool), (∀ dd ∈ ds, |dd.w| < inf64) →
    t.enc.emit ds val = (t.emit ds val).enc
  | [], val, _ => rfl
  | dd :: ds, val, hds => by
    have hw := hds dd List.mem_cons_self
    have hw' := abs_lt.mp hw
    have nw : chk (-dd.w) = some (-dd.w) := chk_of (by rw [abs_le]; omega)
    have ih : ∀ v, t.enc.emit ds v = (t.emit ds v).enc := fun v => enc_emit t hsm ds v (fun d' hd' => hds d' (List.mem_cons_of_mem _ hd'))
    have l1 : Semitone.enc (t.d dd.tgt dd.src) < -dd.w ↔ t.d dd.tgt dd.src < ((-dd.w : ℤ) : WithTop ℤ) := enc_lt (hsm _ _) (sm_coe (by rw [abs_neg]; exact hw))
    have l3 : Semitone.enc (t.d dd.src dd.tgt) ≤ dd.w ↔ t.d dd.src dd.tgt ≤ (dd.w : WithTop ℤ) := enc_le (hsm _ _) (sm_coe hw)
    unfold DL64.emit emit
    by_cases h0 : val ⟨dd.b, true⟩ = none
    · rw [if_pos h0, if_pos h0, nw]
      show (if Semitone.enc (t.d dd.tgt dd.src) < -dd.w then _ else if Semitone.enc (t.d dd.src dd.tgt) ≤ dd.w then _ else _) = _
      by_cases h1 : t.d dd.tgt dd.src < ((-dd.w : ℤ) : WithTop ℤ)
      · rw [if_pos (l1.mpr h1), if_pos h1, enc_explain]
        show (match t.explain val dd.tgt t.nv dd.src with | .error e => _ | .ok L => _) = _
        cases t.explain val dd.tgt t.nv dd.src with
        | error e => rfl
        | ok L => simp only [TAct.enc, ih]
      · rw [if_neg (fun hh => h1 (l1.mp hh)), if_neg h1]
        by_cases h2 : t.d dd.src dd.tgt ≤ (dd.w : WithTop ℤ)
        · rw [if_pos (l3.mpr h2), if_pos h2, enc_explain]
          show (match t.explain val dd.src t.nv dd.tgt with | .error e => _ | .ok L => _) = _
          cases t.explain val dd.src t.nv dd.tgt with
          | error e => rfl
          | ok L => simp only [TAct.enc, ih]
        · rw [if_neg (fun hh => h2 (l3.mp hh)), if_neg h2, ih]
    · rw [if_neg h0, if_neg h0, ih]

/-! ### C37 -/

/-- C37: in every reachable state whose magnitudes are moderate, the machine program answers `propagate(lit)` exactly as the exact model does. -/
theorem enc_propagate (h : Hist (t, A)) (hs : Small K t.nv t.vd) (val : Lit → Option Bool) (p : Lit) : t.enc.propagate val p = (t.propagate val p).enc := by
  unfold DL64.propagate propagate
  show (match t.vd p.var with | none => _ | some dd => _) = _
  cases hv : t.vd p.var with
  | none => rfl
  | some dd =>
    simp only
    cases hval : val ⟨dd.b, true⟩ with
    | none => rfl
    | some sg =>
      simp only
      show (if t.nv ≤ t.cap ∧ dd.src < t.nv ∧ dd.tgt < t.nv then _ else _) = _
      by_cases hr : t.nv ≤ t.cap ∧ dd.src < t.nv ∧ dd.tgt < t.nv
      · rw [if_pos hr, if_pos hr, enc_assertD h hs hv sg]
        obtain ⟨_, a2, a3, a4⟩ := h.good.2.vd _ _ hv
        have sp := assertD_spec h.good.1.core dd sg a2 a3 a4
        cases ho : t.assertD dd sg with
        | conflict i j =>
          simp only [Outcome.enc, enc_explain]
          show (match t.explain val i t.nv j with | .error e => _ | .ok L => _) = _
          cases t.explain val i t.nv j <;> rfl
        | noop => rfl
        | update t' cu =>
          rw [ho] at sp
          simp only at sp
          simp only [Outcome.enc]
          have hb : t'.bad = false := sp.rel.notbad
          show (if t'.bad = true then _ else t'.enc.emit (cu.flatMap (fun q => t'.dcs q.1 q.2)) val) = _
          rw [hb]
          simp only [Bool.false_eq_true, if_false]
          have b := h.bd hs hv sp
          refine enc_emit t' (fun i j => ?_) _ val (fun d' hd' => ?_)
          · by_cases hij : i < t.nv ∧ j < t.nv
            · intro x hx
              rw [sp.rel.d_in i j hij.1 hij.2] at hx
              have := b.new i j x hij.1 hij.2 hx
              have := b.sum
              have := b.k0
              omega
            · rw [sp.rel.d_out i j hij]
              exact h.sm hs i j
          · obtain ⟨q, _, hq⟩ := List.mem_flatMap.mp hd'
            rw [sp.dcs] at hq
            have := hs.reg _ _ (h.good.2.dcs _ _ _ hq).1
            have := h.kw hs
            omega
      · rw [if_neg hr, if_neg hr]; rfl


theorem enc_newVar : t.newVar.1.enc = t.enc.newVar.1 := by
  unfold newVar DL64.newVar
  simp only
  have e : t.enc.cap = t.cap := rfl
  have e' : t.enc.nv = t.nv := rfl
  rw [e, e']
  split
  · unfold resize DL64.resize enc
    simp only [DL64.mk.injEq, true_and, and_true]
    funext i j
    show Semitone.enc (if i < t.cap ∧ j < t.cap then t.d i j else d0 i j) = _
    split
    · rfl
    · unfold d0
      split <;> rfl
  · rfl

theorem enc_register (dd : Dist ℤ) : (t.register dd).enc = t.enc.register dd := rfl
theorem enc_push : t.push.enc = t.enc.push := rfl
theorem enc_init (size : Nat) : (init size : DL ℤ).enc = DL64.init size := by
  unfold init enc DL64.init
  simp only [DL64.mk.injEq, true_and, and_true, List.map_nil]
  funext i j
  unfold d0
  split <;> rfl

theorem enc_pop : t.enc.pop = t.pop.map enc := by
  unfold pop DL64.pop
  have e : t.enc.layers = t.layers.map Layer.enc := rfl
  rw [e]
  cases t.layers with
  | nil => rfl
  | cons L Ls =>
    show Except.ok _ = Except.ok _
    congr 1
    unfold enc
    simp only [DL64.mk.injEq, true_and, and_true]
    refine ⟨?_, ?_⟩
    · funext i j
      unfold Layer.enc
      simp only
      cases L.oldD i j <;> rfl
    · refine ⟨rfl, ?_⟩
      funext i j
      show (match L.oldC i j with | none => _ | some (some dd) => _ | some none => _) = _
      cases L.oldC i j with
      | none => rfl
      | some o => cases o <;> rfl

theorem neg_enc {a : WithTop ℤ} (h : Sm a) : chk (-Semitone.enc a) = some (encB (negTop a)) := by
  have := h.abs
  have h0 : (0 : ℤ) ≤ inf64 := by decide
  rw [chk_of (by rw [abs_neg]; omega)]
  cases a <;> rfl

theorem enc_checkOk (h : Hist (t, A)) (hs : Small K t.nv t.vd) (val : Lit → Option Bool) : t.enc.checkOk val = t.checkOk val := by
  unfold DL64.checkOk checkOk
  have e : t.enc.nv = t.nv := rfl
  rw [e]
  refine congrArg (List.all (List.range t.nv)) ?_
  funext i
  refine congrArg (List.all (List.range t.nv)) ?_
  funext j
  · skip
    have e : t.enc.cur i j = t.cur i j := rfl
    rw [e]
    cases hc : t.cur i j with
    | none => rfl
    | some dd =>
      obtain ⟨sg, hF, _⟩ := h.good.1.core.curF i j dd hc
      obtain ⟨v, hv⟩ := h.asserted _ hF
      have hw := hs.reg v dd hv
      have hk := h.kw hs
      have hp := hs.pos
      have hw' : |dd.w| < inf64 := by omega
      simp only
      cases val ⟨dd.b, true⟩ with
      | none => rfl
      | some b =>
        cases b with
        | true => exact decide_eq_decide.mpr (enc_le (h.sm hs _ _) (sm_coe hw'))
        | false =>
          simp only
          rw [chk_of (by rw [abs_neg]; omega)]
          exact decide_eq_decide.mpr (enc_lt (h.sm hs _ _) (sm_coe (by rw [abs_neg]; exact hw')))

theorem enc_newDistance {s : Sat (DL ℤ)} (h : Hist (s.th, A)) (hs : Small K s.th.nv s.th.vd) {w : ℤ} (hw : |w| ≤ K) (src tgt : Nat) :
    DL64.newDistance (s.withTh s.th.enc) src tgt w = some ((newDistance s src tgt w).map (fun r => (r.1.withTh r.1.th.enc, r.2))) := by
  have hk := h.kw hs
  have hp := hs.pos
  have hw' : |w| < inf64 := by omega
  have l1 : Semitone.enc (s.th.d tgt src) < -w ↔ s.th.d tgt src < ((-w : ℤ) : WithTop ℤ) := enc_lt (h.sm hs _ _) (sm_coe (by rw [abs_neg]; exact hw'))
  have l3 : Semitone.enc (s.th.d src tgt) ≤ w ↔ s.th.d src tgt ≤ (w : WithTop ℤ) := enc_le (h.sm hs _ _) (sm_coe hw')
  unfold DL64.newDistance newDistance
  show (if src < s.th.cap ∧ tgt < s.th.cap then _ else _) = _
  by_cases hc : src < s.th.cap ∧ tgt < s.th.cap
  · rw [if_pos hc, if_pos hc, chk_of (by rw [abs_neg]; omega), Option.bind_some]
    show (if Semitone.enc (s.th.d tgt src) < -w then _ else if Semitone.enc (s.th.d src tgt) ≤ w then _ else _) = _
    by_cases h1 : s.th.d tgt src < ((-w : ℤ) : WithTop ℤ)
    · rw [if_pos (l1.mpr h1), if_pos h1]; rfl
    · rw [if_neg (fun hh => h1 (l1.mp hh)), if_neg h1]
      by_cases h2 : s.th.d src tgt ≤ (w : WithTop ℤ)
      · rw [if_pos (l3.mpr h2), if_pos h2]; rfl
      · rw [if_neg (fun hh => h2 (l3.mp hh)), if_neg h2]; rfl
  · rw [if_neg hc, if_neg hc]; rfl

end

/-! ### Histories of the machine program -/

/-- One call of the machine program: as `Call`, with machine comparisons. -/
inductive MCall : DL64 × List (List (Dist ℤ × Bool)) → DL64 × List (List (Dist ℤ × Bool)) → Prop
  | newVar {t A} : MCall (t, A) (t.newVar.1, A)
  | register {t A dd nw} : dd.src < t.nv → dd.tgt < t.nv → chk (-dd.w) = some nw → ¬ t.d dd.tgt dd.src < nw → ¬ t.d dd.src dd.tgt ≤ dd.w →
      t.vd dd.b = none → MCall (t, A) (t.register dd, A)
  | lit {t t' a A val p dd sg} : t.vd p.var = some dd → val ⟨dd.b, true⟩ = some sg → (t.propagate val p).Ends t' →
      MCall (t, a :: A) (t', ((dd, sg) :: a) :: A)
  | refused {t t' A val p cl} : t.propagate val p = .confl t' cl → MCall (t, A) (t', A)
  | push {t A} : MCall (t, A) (t.push, [] :: A)
  | pop {t t' a A} : A ≠ [] → t.pop = .ok t' → MCall (t, a :: A) (t', A)

/-- The machine states reachable with moderate magnitudes: at most `n` time points with `n (K + 1) < inf()`, and no constraint larger than `K`. -/
inductive MHist (K : ℤ) : DL64 × List (List (Dist ℤ × Bool)) → Prop
  | init {size : Nat} : 1 ≤ size → Small K 1 (fun _ => none) → MHist K (DL64.init size, [[]])
  | call {x y} : MHist K x → MCall x y → Small K y.1.nv y.1.vd → MHist K y

theorem _root_.Semitone.TAct.enc_ends : ∀ {a : TAct (DL ℤ)} {m : DL64}, a.enc.Ends m → ∃ t, m = t.enc ∧ a.Ends t
  | .ok t, _, h => by
    cases h
    exact ⟨t, rfl, .ok⟩
  | .confl _ _, _, h => by cases h
  | .fail _, _, h => by cases h
  | .record cl k, m, h => by
    generalize he : TAct.enc (.record cl k) = b at h
    cases h with
    | ok => cases he
    | @record cl' k' v t hk =>
      injection he with h1 h2
      subst h2
      obtain ⟨t, h1, h2⟩ := TAct.enc_ends hk
      exact ⟨t, h1, .record h2⟩

theorem _root_.Semitone.TAct.enc_confl {a : TAct (DL ℤ)} {m : DL64} {cl : List Lit} (h : a.enc = .confl m cl) : ∃ t, m = t.enc ∧ a = .confl t cl := by
  cases a with
  | ok => cases h
  | fail => cases h
  | record => cases h
  | confl t c =>
    injection h with h1 h2
    exact ⟨t, h1.symm, by rw [h2]⟩

section
variable {A : List (List (Dist ℤ × Bool))} {K : ℤ}

/-- C37: the machine program, within the stated magnitudes, is only ever in states that represent states of the exact model, after the same calls. -/
theorem C37_simulates {m : DL64} (h : MHist K (m, A)) : ∃ t, m = t.enc ∧ Hist (t, A) ∧ Small K t.nv t.vd := by
  generalize hx : (m, A) = x at h
  induction h generalizing m A with
  | @init size h1 h2 =>
    cases hx
    exact ⟨init size, (enc_init size).symm, .init h1, h2⟩
  | @call x y _ hc hs ih =>
    subst hx
    obtain ⟨x1, x2⟩ := x
    obtain ⟨t, rfl, hh, hsm⟩ := ih rfl
    have wrap : ∀ t', m = t'.enc → Call (t, x2) (t', A) → ∃ t, m = t.enc ∧ Hist (t, A) ∧ Small K t.nv t.vd := by
      rintro t' rfl hc'
      exact ⟨t', rfl, hh.call hc', hs⟩
    cases hc with
    | newVar => exact wrap _ enc_newVar.symm .newVar
    | @register _ _ dd nw h1 h2 h3 h4 h5 h6 =>
      have hreg := hs.reg dd.b dd (by show upd _ _ _ _ = _; simp [upd])
      have hk := hh.kw hsm
      have hp := hsm.pos
      have hw : |dd.w| < inf64 := by omega
      rw [chk_of (by rw [abs_neg]; omega)] at h3
      injection h3 with h3
      subst h3
      refine wrap _ (enc_register dd).symm (.register h1 h2 ?_ ?_ h6)
      · intro hlt
        exact h4 ((enc_lt (hh.sm hsm _ _) (sm_coe (by rw [abs_neg]; exact hw))).mpr hlt)
      · intro hle
        exact h5 ((enc_le (hh.sm hsm _ _) (sm_coe hw)).mpr hle)
    | @lit _ _ a B val p dd sg h1 h2 h3 =>
      rw [enc_propagate hh hsm] at h3
      obtain ⟨t', e, h4⟩ := TAct.enc_ends h3
      exact wrap _ e (.lit h1 h2 h4)
    | refused h3 =>
      rw [enc_propagate hh hsm] at h3
      obtain ⟨t', e, h4⟩ := TAct.enc_confl h3
      exact wrap _ e (.refused h4)
    | push => exact wrap _ enc_push.symm .push
    | @pop _ _ a B h1 h2 =>
      rw [enc_pop] at h2
      cases hp : t.pop with
      | error e => rw [hp] at h2; cases h2
      | ok t' =>
        rw [hp] at h2
        injection h2 with h2
        exact wrap _ h2.symm (.pop h1 hp)

/-- Propagating a literal leaves the magnitudes as they are. -/
theorem MHist.lit {m m' : DL64} {a : List (Dist ℤ × Bool)} {val : Lit → Option Bool} {p : Lit} {dd : Dist ℤ} {sg : Bool} (h : MHist K (m, a :: A))
    (hv : m.vd p.var = some dd) (hs : val ⟨dd.b, true⟩ = some sg) (he : (m.propagate val p).Ends m') : MHist K (m', ((dd, sg) :: a) :: A) := by
  refine .call h (.lit hv hs he) ?_
  obtain ⟨t, rfl, hh, hsm⟩ := C37_simulates h
  rw [enc_propagate hh hsm] at he
  obtain ⟨t', rfl, h4⟩ := TAct.enc_ends he
  obtain ⟨a1, a2, a3, a4⟩ := hh.good.2.vd _ _ hv
  have hf := ends_frame hh.good.1 a2 a3 a4 (propagate_ends hv hs h4)
  show Small K t'.nv t'.vd
  rw [hf.1, hf.2.1]
  exact hsm

/-- C37: in every state the machine program reaches with moderate magnitudes, no operation overflows, every answer is the one of the exact model, and
no finite distance is confused with `inf()`. -/
theorem C37_no_overflow {m : DL64} (h : MHist K (m, A)) : ∃ t, m = t.enc ∧ Hist (t, A) ∧
    (∀ val p, (m.propagate val p).Safe ∧ m.propagate val p = (t.propagate val p).enc) ∧
    (∀ val, m.checkOk val = t.checkOk val) ∧ m.pop = t.pop.map enc ∧ m.push = t.push.enc ∧ m.newVar.1 = t.newVar.1.enc ∧
    (∀ v, m.lb v = some (encB (t.lb v)) ∧ m.ub v = Semitone.enc (t.ub v) ∧ m.bounds v = some (encB (t.bounds v).1, Semitone.enc (t.bounds v).2)) ∧
    (∀ i j, m.distance i j = some (encB (t.distance i j).1, Semitone.enc (t.distance i j).2) ∧ (m.d i j = inf64 ↔ t.d i j = ⊤) ∧
      (∀ x : ℤ, t.d i j = (x : WithTop ℤ) → m.d i j = x ∧ |x| < inf64)) := by
  obtain ⟨t, rfl, hh, hs⟩ := C37_simulates h
  have q : ∀ i j, chk (-t.enc.d i j) = some (encB (negTop (t.d i j))) := fun i j => neg_enc (hh.sm hs i j)
  refine ⟨t, rfl, hh, fun val p => ?_, enc_checkOk hh hs, enc_pop, enc_push.symm, enc_newVar.symm, fun v => ⟨q v 0, rfl, ?_⟩, fun i j => ⟨?_, ?_, fun x hx => ?_⟩⟩
  · rw [enc_propagate hh hs]
    exact ⟨TAct.enc_safe _, rfl⟩
  · unfold DL64.bounds
    rw [q]
    rfl
  · unfold DL64.distance
    rw [q]
    rfl
  · have hsm := hh.sm hs i j
    show Semitone.enc (t.d i j) = inf64 ↔ _
    cases hd : t.d i j with
    | top => simp [enc_top]
    | coe x =>
      rw [hd] at hsm
      have := abs_lt.mp (hsm x rfl)
      rw [enc_coe]
      simp only [WithTop.coe_ne_top, iff_false]
      omega
  · exact ⟨by show Semitone.enc (t.d i j) = x; rw [hx, enc_coe], hh.sm hs i j x hx⟩

/-- C37: `new_distance` with a moderate distance answers as the exact model does. -/
theorem C37_new_distance {s : Sat DL64} (h : MHist K (s.th, A)) {w : ℤ} (hw : |w| ≤ K) (src tgt : Nat) :
    ∃ s0 : Sat (DL ℤ), s = s0.withTh s0.th.enc ∧ Hist (s0.th, A) ∧
      DL64.newDistance s src tgt w = some ((newDistance s0 src tgt w).map (fun r => (r.1.withTh r.1.th.enc, r.2))) := by
  obtain ⟨t, e, hh, hs⟩ := C37_simulates h
  have e1 : s = (s.withTh t).withTh (s.withTh t).th.enc := by
    show s = s.withTh t.enc
    rw [← e]
    rfl
  refine ⟨s.withTh t, e1, hh, ?_⟩
  have := enc_newDistance (s := s.withTh t) (A := A) hh hs hw src tgt
  rwa [← e1] at this

end

/-- The bound is needed: a constraint as large as `inf()` is taken for one that always holds. -/
theorem C37_witness_large : ∃ m : DL64, MHist 0 (m, [[]]) ∧
    (DL64.newDistance (Sat.init m) 0 1 inf64).map (fun r => r.toOption.map (·.2)) = some (some trueLit) ∧ m.d 0 1 = inf64 := by
  refine ⟨(DL64.init 16).newVar.1, ?_, ?_, ?_⟩
  · refine .call (.init (by decide) ⟨le_refl _, (fun v dd h => by cases h), by decide⟩) .newVar ⟨le_refl _, (fun v dd h => by cases h), by decide⟩
  · decide +kernel
  · decide +kernel

/-! ### A concrete history -/

/-- The time points 1 and 2, the constraints `x1 - x0 ≤ -1000000` and `x2 - x1 ≤ 5`. -/
def ex0 : DL64 := (DL64.init 16).newVar.1.newVar.1
def ex1 : DL64 := (ex0.register ⟨1, 0, 1, -1000000⟩).register ⟨2, 1, 2, 5⟩
def exVal : Lit → Option Bool := fun l => some l.sign
def _root_.Semitone.MAct.get : MAct → Option DL64
  | .ok t => some t
  | _ => none
def ex2 : DL64 := ((ex1.propagate exVal ⟨1, true⟩).get).getD ex1
def ex3 : DL64 := ((ex2.propagate exVal ⟨2, true⟩).get).getD ex1

theorem _root_.Semitone.MAct.get_ends {a : MAct} {m : DL64} (h : a.get.isSome) : a.Ends (a.get.getD m) := by
  cases a with
  | ok t => exact .ok
  | confl => cases h
  | record => cases h
  | fail => cases h
  | overflow => cases h

theorem ex1_hist : MHist 1000000 (ex1, [[]]) := by
  have hs : ∀ t : DL64, t.nv ≤ 3 → (∀ w, t.vd w = none ∨ t.vd w = some ⟨1, 0, 1, -1000000⟩ ∨ t.vd w = some ⟨2, 1, 2, 5⟩) → Small 1000000 t.nv t.vd := by
    intro t h1 h2
    refine ⟨by decide, fun w dd hw => ?_, ?_⟩
    · rcases h2 w with h | h | h <;> rw [h] at hw
      · cases hw
      · injection hw with hw; subst hw; decide
      · injection hw with hw; subst hw; decide
    · rw [inf64_val]
      have : (t.nv : ℤ) ≤ 3 := by exact_mod_cast h1
      nlinarith
  have vd0 : ∀ w, ex0.vd w = none := fun w => rfl
  have h0 : MHist 1000000 (ex0, [[]]) := .call (.call (.init (by decide) (hs (DL64.init 16) (by decide) (fun _ => Or.inl rfl))) .newVar
    (hs (DL64.init 16).newVar.1 (by decide) (fun _ => Or.inl rfl))) .newVar (hs ex0 (by decide) (fun _ => Or.inl rfl))
  refine .call (.call h0 (.register (by decide +kernel) (by decide +kernel) (nw := 1000000) (by decide +kernel) (by decide +kernel) (by decide +kernel) rfl)
    (hs _ (by decide) (fun w => ?_)))
    (.register (by decide +kernel) (by decide +kernel) (nw := -5) (by decide +kernel) (by decide +kernel) (by decide +kernel) rfl) (hs ex1 (by decide) (fun w => ?_))
  · show (upd ex0.vd 1 (some ⟨1, 0, 1, -1000000⟩)) w = none ∨ (upd ex0.vd 1 (some ⟨1, 0, 1, -1000000⟩)) w = _ ∨ (upd ex0.vd 1 (some ⟨1, 0, 1, -1000000⟩)) w = _
    by_cases h1 : w = 1
    · subst h1; exact Or.inr (Or.inl rfl)
    · left; simp [upd, h1, vd0]
  · show (upd (upd ex0.vd 1 (some ⟨1, 0, 1, -1000000⟩)) 2 (some ⟨2, 1, 2, 5⟩)) w = none ∨ (upd (upd ex0.vd 1 (some ⟨1, 0, 1, -1000000⟩)) 2 (some ⟨2, 1, 2, 5⟩)) w = _ ∨
      (upd (upd ex0.vd 1 (some ⟨1, 0, 1, -1000000⟩)) 2 (some ⟨2, 1, 2, 5⟩)) w = _
    by_cases h2 : w = 2
    · subst h2; exact Or.inr (Or.inr rfl)
    · by_cases h1 : w = 1
      · subst h1; exact Or.inr (Or.inl rfl)
      · left; simp [upd, h1, h2, vd0]

/-- The hypotheses of C37 are met by a history in which distances become negative and are propagated. -/
theorem C37_example : MHist 1000000 (ex3, [[(⟨2, 1, 2, 5⟩, true), (⟨1, 0, 1, -1000000⟩, true)]]) ∧ ex3.nv = 3 ∧ ex3.d 0 2 = -999995 ∧ ex3.d 2 0 = inf64 := by
  have v1 : ex1.vd 1 = some ⟨1, 0, 1, -1000000⟩ := by decide +kernel
  have v2 : ex2.vd 2 = some ⟨2, 1, 2, 5⟩ := by decide +kernel
  have h2 : MHist 1000000 (ex2, [[(⟨1, 0, 1, -1000000⟩, true)]]) :=
    ex1_hist.lit (val := exVal) (p := ⟨1, true⟩) v1 rfl (MAct.get_ends (by decide +kernel))
  have h3 : MHist 1000000 (ex3, [[(⟨2, 1, 2, 5⟩, true), (⟨1, 0, 1, -1000000⟩, true)]]) :=
    h2.lit (val := exVal) (p := ⟨2, true⟩) v2 rfl (MAct.get_ends (by decide +kernel))
  exact ⟨h3, by decide +kernel, by decide +kernel, by decide +kernel⟩

end DL
end Semitone
