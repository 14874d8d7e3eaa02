import Verif.LRA.Reach
import Verif.Sat.LiveOps

/-!
# The linear-arithmetic theory keeps the core going

What the core needs in order not to fail (`Sat/Live.lean`): the clauses the theory gives it have the right shape, and when `check` finds nothing wrong there is a
rational solution.
-/
namespace Semitone
namespace LRA
open Lin
variable {E : LEnv} {t t' : LRA} {A A' : Nat → Lit → Prop} {Fs : List (List BF)} {P P' : Lit → Prop} {n nv : Nat} {b : Nat → List Nat}

/-! ### Bounds and reasons -/

/-- A lower bound `r + iε` has `i ≥ 0`: for rationals it says `x >= r` or `x > r`. -/
def EpsLo (b : WithBot IQ) : Prop := ∀ w : IQ, b = (w : WithBot IQ) → 0 ≤ (ofLex w).2
/-- An upper bound `r + iε` has `i ≤ 0`. -/
def EpsHi (b : WithTop IQ) : Prop := ∀ w : IQ, b = (w : WithTop IQ) → (ofLex w).2 ≤ 0
/-- The same for an asserted bound. -/
def BF.Eps : BF → Prop
  | .lo _ v => 0 ≤ (ofLex v).2
  | .hi _ v => (ofLex v).2 ≤ 0

/-- A lower bound of `v` has a reason that is true at root level (`R`), or is the literal of an assertion on this lower bound. -/
def LoOk (t : LRA) (R : Lit → Prop) (v : Nat) (b : WithBot IQ) (r : Lit) : Prop := EpsLo b ∧ (R r ∨ ∃ a w, t.vas r.var = some a ∧ a.bf r.sign = .lo v w)
/-- The same for upper bounds. -/
def HiOk (t : LRA) (R : Lit → Prop) (v : Nat) (b : WithTop IQ) (r : Lit) : Prop := EpsHi b ∧ (R r ∨ ∃ a w, t.vas r.var = some a ∧ a.bf r.sign = .hi v w)

/-- All the bounds, also those saved for `pop`. -/
structure RsAll (t : LRA) (R : Lit → Prop) : Prop where
  lo : ∀ v, LoOk t R v (t.lo v) (t.loR v)
  hi : ∀ v, HiOk t R v (t.hi v) (t.hiR v)
  llo : ∀ L ∈ t.layers, ∀ v x, L.lo v = some x → LoOk t R v x.1 x.2
  lhi : ∀ L ∈ t.layers, ∀ v x, L.hi v = some x → HiOk t R v x.1 x.2

theorem LoOk.mono {R R' : Lit → Prop} {v : Nat} {c : WithBot IQ} {r : Lit} (h : LoOk t R v c r) (hv : ∀ x a, t.vas x = some a → t'.vas x = some a) (hR : ∀ q, R q → R' q) :
    LoOk t' R' v c r := ⟨h.1, h.2.imp (hR r) (fun ⟨a, w, h1, h2⟩ => ⟨a, w, hv _ _ h1, h2⟩)⟩
theorem HiOk.mono {R R' : Lit → Prop} {v : Nat} {c : WithTop IQ} {r : Lit} (h : HiOk t R v c r) (hv : ∀ x a, t.vas x = some a → t'.vas x = some a) (hR : ∀ q, R q → R' q) :
    HiOk t' R' v c r := ⟨h.1, h.2.imp (hR r) (fun ⟨a, w, h1, h2⟩ => ⟨a, w, hv _ _ h1, h2⟩)⟩

theorem RsAll.congr {R R' : Lit → Prop} (h : RsAll t R) (hbd : t'.bd = t.bd) (hl : t'.layers = t.layers) (hv : ∀ x a, t.vas x = some a → t'.vas x = some a) (hR : ∀ q, R q → R' q) :
    RsAll t' R' := by
  unfold bd at hbd
  injection hbd with h1 h2 h3 h4
  refine ⟨fun v => ?_, fun v => ?_, fun L hL v x hx => ?_, fun L hL v x hx => ?_⟩
  · rw [h1, h2]; exact (h.lo v).mono hv hR
  · rw [h3, h4]; exact (h.hi v).mono hv hR
  · exact (h.llo L (by rw [← hl]; exact hL) v x hx).mono hv hR
  · exact (h.lhi L (by rw [← hl]; exact hL) v x hx).mono hv hR

theorem RsAll.setLo {R : Lit → Prop} (h : RsAll t R) {x : Nat} {v : IQ} {p : Lit} (hp : LoOk t R x (v : WithBot IQ) p) : RsAll (t.setLo x v p) R := by
  refine ⟨fun w => ?_, h.hi, fun L hL w y hy => ?_, fun L hL w y hy => ?_⟩
  · show LoOk t R w (upd t.lo x (v : WithBot IQ) w) (upd t.loR x p w)
    by_cases e : w = x
    · subst e; simp only [upd_self]; exact hp
    · simp only [upd_ne _ _ e]; exact h.lo w
  · show LoOk t R w y.1 y.2
    have hL : L ∈ (match t.layers with
      | [] => []
      | L :: Ls => (if (L.lo x).isNone then { L with lo := upd L.lo x (some (t.lo x, t.loR x)) } else L) :: Ls) := hL
    split at hL
    · cases hL
    · next L0 Ls e =>
      rcases List.mem_cons.mp hL with rfl | hL
      · split at hy
        · simp only at hy
          by_cases e' : w = x
          · subst e'; rw [upd_self] at hy; injection hy with hy; subst hy; exact h.lo w
          · rw [upd_ne _ _ e'] at hy; exact h.llo L0 (by rw [e]; simp) w y hy
        · exact h.llo L0 (by rw [e]; simp) w y hy
      · exact h.llo L (by rw [e]; simp [hL]) w y hy
  · show HiOk t R w y.1 y.2
    have hL : L ∈ (match t.layers with
      | [] => []
      | L :: Ls => (if (L.lo x).isNone then { L with lo := upd L.lo x (some (t.lo x, t.loR x)) } else L) :: Ls) := hL
    split at hL
    · cases hL
    · next L0 Ls e =>
      rcases List.mem_cons.mp hL with rfl | hL
      · split at hy
        · exact h.lhi L0 (by rw [e]; simp) w y hy
        · exact h.lhi L0 (by rw [e]; simp) w y hy
      · exact h.lhi L (by rw [e]; simp [hL]) w y hy

theorem RsAll.setHi {R : Lit → Prop} (h : RsAll t R) {x : Nat} {v : IQ} {p : Lit} (hp : HiOk t R x (v : WithTop IQ) p) : RsAll (t.setHi x v p) R := by
  refine ⟨h.lo, fun w => ?_, fun L hL w y hy => ?_, fun L hL w y hy => ?_⟩
  · show HiOk t R w (upd t.hi x (v : WithTop IQ) w) (upd t.hiR x p w)
    by_cases e : w = x
    · subst e; simp only [upd_self]; exact hp
    · simp only [upd_ne _ _ e]; exact h.hi w
  · show LoOk t R w y.1 y.2
    have hL : L ∈ (match t.layers with
      | [] => []
      | L :: Ls => (if (L.hi x).isNone then { L with hi := upd L.hi x (some (t.hi x, t.hiR x)) } else L) :: Ls) := hL
    split at hL
    · cases hL
    · next L0 Ls e =>
      rcases List.mem_cons.mp hL with rfl | hL
      · split at hy
        · exact h.llo L0 (by rw [e]; simp) w y hy
        · exact h.llo L0 (by rw [e]; simp) w y hy
      · exact h.llo L (by rw [e]; simp [hL]) w y hy
  · show HiOk t R w y.1 y.2
    have hL : L ∈ (match t.layers with
      | [] => []
      | L :: Ls => (if (L.hi x).isNone then { L with hi := upd L.hi x (some (t.hi x, t.hiR x)) } else L) :: Ls) := hL
    split at hL
    · cases hL
    · next L0 Ls e =>
      rcases List.mem_cons.mp hL with rfl | hL
      · split at hy
        · simp only at hy
          by_cases e' : w = x
          · subst e'; rw [upd_self] at hy; injection hy with hy; subst hy; exact h.hi w
          · rw [upd_ne _ _ e'] at hy; exact h.lhi L0 (by rw [e]; simp) w y hy
        · exact h.lhi L0 (by rw [e]; simp) w y hy
      · exact h.lhi L (by rw [e]; simp [hL]) w y hy

theorem RsAll.pop {R : Lit → Prop} (h : RsAll t R) (hp : t.pop = .ok t') : RsAll t' R := by
  obtain ⟨L, Ls, hl, rfl⟩ := pop_cases hp
  refine ⟨fun v => ?_, fun v => ?_, fun M hM v x hx => ?_, fun M hM v x hx => ?_⟩
  · show LoOk t R v ((t.bd.restore L).lo v) ((t.bd.restore L).loR v)
    simp only [Bd.restore, bd]
    split
    · next x hx => exact h.llo L (by rw [hl]; simp) v x hx
    · next hx => exact h.lo v
  · show HiOk t R v ((t.bd.restore L).hi v) ((t.bd.restore L).hiR v)
    simp only [Bd.restore, bd]
    split
    · next x hx => exact h.lhi L (by rw [hl]; simp) v x hx
    · next hx => exact h.hi v
  · exact h.llo M (by rw [hl]; exact List.mem_cons_of_mem _ hM) v x hx
  · exact h.lhi M (by rw [hl]; exact List.mem_cons_of_mem _ hM) v x hx

theorem RsAll.push {R : Lit → Prop} (h : RsAll t R) : RsAll t.push R := by
  refine ⟨h.lo, h.hi, fun M hM v x hx => ?_, fun M hM v x hx => ?_⟩
  · rcases List.mem_cons.mp hM with rfl | hM
    · cases hx
    · exact h.llo M hM v x hx
  · rcases List.mem_cons.mp hM with rfl | hM
    · cases hx
    · exact h.lhi M hM v x hx

/-- The bounds that the literals of an assertion assert have the right infinitesimal parts. -/
theorem _root_.Semitone.Asrt.Ok.eps {a : Asrt} (h : a.Ok) (s : Bool) : (a.bf s).Eps := by
  obtain ⟨le, b, y, v⟩ := a
  unfold Asrt.Ok at h
  unfold Asrt.bf
  cases le <;> cases s <;> simp only [BF.Eps, IQ.snd_add, IQ.snd_sub] at h ⊢
  · have : (ofLex IQ.eps).2 = 1 := rfl
    rw [this]
    rcases h with h | h
    · rw [h]; norm_num
    · rw [h]; norm_num
  · rcases h with h | h
    · rw [h]
    · rw [h]; norm_num
  · have : (ofLex IQ.eps).2 = 1 := rfl
    rw [this]
    rcases h with h | h
    · rw [h]; norm_num
    · rw [h]; norm_num
  · rcases h with h | h
    · rw [h]
    · rw [h]; norm_num

/-! ### The clauses -/

/-- For each term of a row with a non-zero coefficient, the negated reason of the bound that limits the sum from below (`s`) or from above. -/
inductive Picks (t : LRA) (s : Bool) : List (Nat × ℚ) → List Lit → Prop
  | nil : Picks t s [] []
  | pos {v c ts L} : 0 < c → Picks t s ts L → Picks t s ((v, c) :: ts) ((if s then t.loR v else t.hiR v).neg :: L)
  | neg {v c ts L} : c < 0 → Picks t s ts L → Picks t s ((v, c) :: ts) ((if s then t.hiR v else t.loR v).neg :: L)
  | zero {v c ts L} : c = 0 → Picks t s ts L → Picks t s ((v, c) :: ts) L

theorem Picks.mem_pos {s : Bool} {ts : List (Nat × ℚ)} {L : List Lit} (h : Picks t s ts L) {v : Nat} {c : ℚ} (hm : (v, c) ∈ ts) (hc : 0 < c) :
    (if s then t.loR v else t.hiR v).neg ∈ L := by
  induction h with
  | nil => cases hm
  | pos h0 _ ih =>
    rcases List.mem_cons.mp hm with e | hm
    · cases e; simp
    · exact List.mem_cons_of_mem _ (ih hm)
  | neg h0 _ ih =>
    rcases List.mem_cons.mp hm with e | hm
    · cases e; exact absurd hc (not_lt.mpr h0.le)
    · exact List.mem_cons_of_mem _ (ih hm)
  | zero h0 _ ih =>
    rcases List.mem_cons.mp hm with e | hm
    · cases e; rw [h0] at hc; exact absurd hc (lt_irrefl _)
    · exact ih hm

theorem Picks.mem_neg {s : Bool} {ts : List (Nat × ℚ)} {L : List Lit} (h : Picks t s ts L) {v : Nat} {c : ℚ} (hm : (v, c) ∈ ts) (hc : c < 0) :
    (if s then t.hiR v else t.loR v).neg ∈ L := by
  induction h with
  | nil => cases hm
  | pos h0 _ ih =>
    rcases List.mem_cons.mp hm with e | hm
    · cases e; exact absurd hc (not_lt.mpr h0.le)
    · exact List.mem_cons_of_mem _ (ih hm)
  | neg h0 _ ih =>
    rcases List.mem_cons.mp hm with e | hm
    · cases e; simp
    · exact List.mem_cons_of_mem _ (ih hm)
  | zero h0 _ ih =>
    rcases List.mem_cons.mp hm with e | hm
    · cases e; rw [h0] at hc; exact absurd hc (lt_irrefl _)
    · exact ih hm

theorem Picks.sub {s : Bool} {ts : List (Nat × ℚ)} {L : List Lit} (h : Picks t s ts L) : ∀ q ∈ L, ∃ v ∈ keys ts, q = (t.loR v).neg ∨ q = (t.hiR v).neg := by
  induction h with
  | nil => intro q hq; cases hq
  | @pos v c ts L h0 _ ih =>
    intro q hq
    rcases List.mem_cons.mp hq with rfl | hq
    · refine ⟨v, by simp [keys], ?_⟩
      cases s
      · exact Or.inr rfl
      · exact Or.inl rfl
    · obtain ⟨w, hw, h⟩ := ih q hq
      exact ⟨w, List.mem_cons_of_mem _ hw, h⟩
  | @neg v c ts L h0 _ ih =>
    intro q hq
    rcases List.mem_cons.mp hq with rfl | hq
    · refine ⟨v, by simp [keys], ?_⟩
      cases s
      · exact Or.inl rfl
      · exact Or.inr rfl
    · obtain ⟨w, hw, h⟩ := ih q hq
      exact ⟨w, List.mem_cons_of_mem _ hw, h⟩
  | zero h0 _ ih =>
    intro q hq
    obtain ⟨w, hw, h⟩ := ih q hq
    exact ⟨w, List.mem_cons_of_mem _ hw, h⟩

theorem Picks.length {s : Bool} {ts : List (Nat × ℚ)} {L : List Lit} (h : Picks t s ts L) (hz : ∀ x ∈ ts, x.2 ≠ 0) : L.length = ts.length := by
  induction h with
  | nil => rfl
  | pos h0 _ ih => simp [ih (fun x hx => hz x (List.mem_cons_of_mem _ hx))]
  | neg h0 _ ih => simp [ih (fun x hx => hz x (List.mem_cons_of_mem _ hx))]
  | @zero v c ts L h0 _ ih => exact absurd h0 (hz (v, c) List.mem_cons_self)

/-- The reason of a bound of one variable is the reason of a bound of another variable only at root level. -/
theorem RsAll.apart {R : Lit → Prop} (h : RsAll t R) {v w : Nat} {q : Lit} (hvw : v ≠ w) (hv : q = t.loR v ∨ q = t.hiR v) (hw : q = t.loR w ∨ q = t.hiR w) : R q := by
  have hv' : R q ∨ ∃ a u, t.vas q.var = some a ∧ (a.bf q.sign = .lo v u ∨ a.bf q.sign = .hi v u) := by
    rcases hv with rfl | rfl
    · exact (h.lo v).2.imp_right (fun ⟨a, u, h1, h2⟩ => ⟨a, u, h1, Or.inl h2⟩)
    · exact (h.hi v).2.imp_right (fun ⟨a, u, h1, h2⟩ => ⟨a, u, h1, Or.inr h2⟩)
  have hw' : R q ∨ ∃ a u, t.vas q.var = some a ∧ (a.bf q.sign = .lo w u ∨ a.bf q.sign = .hi w u) := by
    rcases hw with rfl | rfl
    · exact (h.lo w).2.imp_right (fun ⟨a, u, h1, h2⟩ => ⟨a, u, h1, Or.inl h2⟩)
    · exact (h.hi w).2.imp_right (fun ⟨a, u, h1, h2⟩ => ⟨a, u, h1, Or.inr h2⟩)
  rcases hv' with h1 | ⟨a, u, h1, h2⟩
  · exact h1
  rcases hw' with h3 | ⟨a', u', h3, h4⟩
  · exact h3
  rw [h1] at h3
  injection h3 with h3
  subst h3
  exfalso
  rcases h2 with h2 | h2 <;> rcases h4 with h4 | h4 <;> rw [h2] at h4 <;> injection h4 <;> contradiction

theorem Picks.apart {R : Lit → Prop} (hR : RsAll t R) {s : Bool} {ts : List (Nat × ℚ)} {L : List Lit} (h : Picks t s ts L) (hn : (keys ts).Nodup) :
    L.Pairwise (fun a b => a = b → R a.neg) := by
  have key : ∀ (v : Nat) (ts : List (Nat × ℚ)) (L : List Lit) (r : Lit), Picks t s ts L → v ∉ keys ts → (r = t.loR v ∨ r = t.hiR v) → ∀ q ∈ L, r.neg = q → R r.neg.neg := by
    intro v ts L r hp hv hr q hq e
    obtain ⟨w, hw, h⟩ := hp.sub q hq
    rw [Lit.neg_neg]
    refine hR.apart (v := v) (w := w) (fun e => hv (e ▸ hw)) hr ?_
    rw [← e] at h
    rcases h with h | h
    · left; have := congrArg Lit.neg h; rwa [Lit.neg_neg, Lit.neg_neg] at this
    · right; have := congrArg Lit.neg h; rwa [Lit.neg_neg, Lit.neg_neg] at this
  induction h with
  | nil => exact List.Pairwise.nil
  | @pos v c ts L h0 hp ih =>
    simp only [keys, List.map_cons, List.nodup_cons] at hn
    refine List.Pairwise.cons (key v ts L _ hp hn.1 ?_) (ih hn.2)
    cases s
    · exact Or.inr rfl
    · exact Or.inl rfl
  | @neg v c ts L h0 hp ih =>
    simp only [keys, List.map_cons, List.nodup_cons] at hn
    refine List.Pairwise.cons (key v ts L _ hp hn.1 ?_) (ih hn.2)
    cases s
    · exact Or.inl rfl
    · exact Or.inr rfl
  | zero h0 _ ih =>
    simp only [keys, List.map_cons, List.nodup_cons] at hn
    exact ih hn.2

theorem rowLo_picks : ∀ (ts : List (Nat × ℚ)) (c : IQ) (L : List Lit), t.rowLo ts = some (c, L) → Picks t true ts L
  | [], c, L, h => by
    unfold rowLo at h
    injection h with h; injection h with h1 h2
    subst h2; exact .nil
  | (v, d) :: ts, c, L, h => by
    unfold rowLo at h
    split at h
    · cases h
    · next b' L' h' =>
      have ih := rowLo_picks ts b' L' h'
      split at h
      · next hc =>
        split at h
        · cases h
        · injection h with h; injection h with h1 h2
          subst h2; exact .pos hc ih
      · next hc =>
        split at h
        · next hc' =>
          split at h
          · cases h
          · injection h with h; injection h with h1 h2
            subst h2; exact .neg hc' ih
        · next hc' =>
          injection h with h; injection h with h1 h2
          subst h2
          exact .zero (le_antisymm (not_lt.mp hc) (not_lt.mp hc')) ih

theorem rowHi_picks : ∀ (ts : List (Nat × ℚ)) (c : WithTop IQ) (L : List Lit), t.rowHi ts = some (c, L) → Picks t false ts L
  | [], c, L, h => by
    unfold rowHi at h
    injection h with h; injection h with h1 h2
    subst h2; exact .nil
  | (v, d) :: ts, c, L, h => by
    unfold rowHi at h
    split at h
    · cases h
    · next b' L' h' =>
      have ih := rowHi_picks ts b' L' h'
      split at h
      · next hc =>
        split at h
        · cases h
        · injection h with h; injection h with h1 h2
          subst h2; exact .pos hc ih
      · next hc =>
        split at h
        · next hc' =>
          split at h
          · cases h
          · injection h with h; injection h with h1 h2
            subst h2; exact .neg hc' ih
        · next hc' =>
          injection h with h; injection h with h1 h2
          subst h2
          exact .zero (le_antisymm (not_lt.mp hc) (not_lt.mp hc')) ih

theorem rowHiU_picks (x : Nat) : ∀ (ts : List (Nat × ℚ)) (c : WithTop IQ) (L : List Lit), t.rowHiU x ts = some (c, L) → Picks t false ts L
  | [], c, L, h => by
    unfold rowHiU at h
    injection h with h; injection h with h1 h2
    subst h2; exact .nil
  | (v, d) :: ts, c, L, h => by
    unfold rowHiU at h
    split at h
    · cases h
    · next b' L' h' =>
      have ih := rowHiU_picks x ts b' L' h'
      split at h
      · next hc =>
        split at h
        · cases h
        · injection h with h; injection h with h1 h2
          subst h2; exact .pos hc ih
      · next hc =>
        split at h
        · next hc' =>
          split at h
          · cases h
          · split at h
            · injection h with h; injection h with h1 h2
              subst h2; exact .neg hc' ih
            · injection h with h; injection h with h1 h2
              subst h2; exact .neg hc' ih
        · next hc' =>
          injection h with h; injection h with h1 h2
          subst h2
          exact .zero (le_antisymm (not_lt.mp hc) (not_lt.mp hc')) ih

theorem rowConfl_picks (up : Bool) : ∀ (ts : List (Nat × ℚ)) (k : ℚ), Picks t (!up) ts (t.rowConfl up ⟨ts, k⟩)
  | [], _ => .nil
  | (v, c) :: ts, k => by
    have ih := rowConfl_picks up ts k
    unfold rowConfl at ih ⊢
    simp only at ih ⊢
    rw [List.filterMap_cons]
    by_cases h1 : 0 < c
    · simp only [h1, if_true]
      have := Picks.pos (t := t) (s := !up) (v := v) h1 ih
      cases up <;> exact this
    · by_cases h2 : c < 0
      · simp only [h1, h2, if_true, if_false]
        have := Picks.neg (t := t) (s := !up) (v := v) h2 ih
        cases up <;> exact this
      · simp only [h1, h2, if_false]
        exact .zero (le_antisymm (not_lt.mp h1) (not_lt.mp h2)) ih

/-- The shape of what the theory records or reports, told that `p` is true. -/
structure JobLive (t : LRA) (nv : Nat) (p : Lit) (R : Lit → Prop) (j : Lit × List Lit) : Prop where
  var : j.1.var < nv
  mem : p.neg ∈ j.2
  rs : ∀ q ∈ j.2, NegReason t q
  apart : j.2.Pairwise (fun a b => a = b → R a.neg)

theorem decLo_var {a : Asrt} {c : IQ} {q : Lit} (h : decLo a c = some q) : q.var = a.b := by
  unfold decLo at h
  split at h <;> split at h <;> cases h <;> rfl
theorem decHi_var {a : Asrt} {c : WithTop IQ} {q : Lit} (h : decHi a c = some q) : q.var = a.b := by
  unfold decHi at h
  split at h <;> split at h <;> cases h <;> rfl

theorem jobsLo_live {p : Lit} {R : Lit → Prop} {as : List Asrt} {c : IQ} {L : List Lit} (has : ∀ a ∈ as, a.b < nv) (h1 : p.neg ∈ L) (h2 : ∀ q ∈ L, NegReason t q)
    (h3 : L.Pairwise (fun a b => a = b → R a.neg)) : ∀ j ∈ as.filterMap (fun a => (decLo a c).map (fun q => (q, L))), JobLive t nv p R j := by
  intro j hj
  obtain ⟨a, ha, h⟩ := List.mem_filterMap.mp hj
  obtain ⟨q, hq, rfl⟩ := Option.map_eq_some_iff.mp h
  exact ⟨by rw [decLo_var hq]; exact has a ha, h1, h2, h3⟩
theorem jobsHi_live {p : Lit} {R : Lit → Prop} {as : List Asrt} {c : WithTop IQ} {L : List Lit} (has : ∀ a ∈ as, a.b < nv) (h1 : p.neg ∈ L) (h2 : ∀ q ∈ L, NegReason t q)
    (h3 : L.Pairwise (fun a b => a = b → R a.neg)) : ∀ j ∈ as.filterMap (fun a => (decHi a c).map (fun q => (q, L))), JobLive t nv p R j := by
  intro j hj
  obtain ⟨a, ha, h⟩ := List.mem_filterMap.mp hj
  obtain ⟨q, hq, rfl⟩ := Option.map_eq_some_iff.mp h
  exact ⟨by rw [decHi_var hq]; exact has a ha, h1, h2, h3⟩

theorem Picks.neg_reason {s : Bool} {ts : List (Nat × ℚ)} {L : List Lit} (h : Picks t s ts L) : ∀ q ∈ L, NegReason t q := fun q hq => by
  obtain ⟨v, _, h⟩ := h.sub q hq
  exact ⟨v, h⟩

theorem rowJobsLb_live {R : Lit → Prop} (hs : Shape t.n t.row) (hR : RsAll t R) (haw : ∀ x, ∀ a ∈ t.aw x, a.b < nv) {x r : Nat} {J : List (Lit × List Lit)}
    (hJ : t.rowJobsLb x r = .ok J) : ∀ j ∈ J, JobLive t nv (t.loR x) R j := by
  unfold rowJobsLb at hJ
  split at hJ
  · cases hJ
  · next l hl =>
    have hcn := hs.canon r l hl
    have hnd : (keys l.vars).Nodup := hcn.1.imp (fun h => Nat.ne_of_lt h)
    split at hJ
    · cases hJ
    · next c hc =>
      have hmem : (x, c) ∈ l.vars := lookup_some_mem hc
      split at hJ
      · next hc0 =>
        split at hJ
        · cases hJ; exact fun _ h => by cases h
        · next b L hL =>
          injection hJ with hJ; subst hJ
          have hp := rowLo_picks _ _ _ hL
          unfold jobsLo
          split
          · exact jobsLo_live (haw r) (hp.mem_pos hmem hc0) hp.neg_reason (hp.apart hR hnd)
          · exact fun _ h => by cases h
      · next hc0 =>
        have hc1 : c < 0 := lt_of_le_of_ne (not_lt.mp hc0) (hcn.2 _ hmem)
        split at hJ
        · cases hJ; exact fun _ h => by cases h
        · next b L hL =>
          injection hJ with hJ; subst hJ
          have hp := rowHi_picks _ _ _ hL
          unfold jobsHi
          split
          · exact jobsHi_live (haw r) (hp.mem_neg hmem hc1) hp.neg_reason (hp.apart hR hnd)
          · exact fun _ h => by cases h

theorem rowJobsUb_live {R : Lit → Prop} (hs : Shape t.n t.row) (hR : RsAll t R) (haw : ∀ x, ∀ a ∈ t.aw x, a.b < nv) {x r : Nat} {J : List (Lit × List Lit)}
    (hJ : t.rowJobsUb x r = .ok J) : ∀ j ∈ J, JobLive t nv (t.hiR x) R j := by
  unfold rowJobsUb at hJ
  split at hJ
  · cases hJ
  · next l hl =>
    have hcn := hs.canon r l hl
    have hnd : (keys l.vars).Nodup := hcn.1.imp (fun h => Nat.ne_of_lt h)
    split at hJ
    · cases hJ
    · next c hc =>
      have hmem : (x, c) ∈ l.vars := lookup_some_mem hc
      split at hJ
      · next hc0 =>
        split at hJ
        · cases hJ; exact fun _ h => by cases h
        · next b L hL =>
          injection hJ with hJ; subst hJ
          have hp := rowHiU_picks _ _ _ _ hL
          unfold jobsHi
          split
          · exact jobsHi_live (haw r) (hp.mem_pos hmem hc0) hp.neg_reason (hp.apart hR hnd)
          · exact fun _ h => by cases h
      · next hc0 =>
        have hc1 : c < 0 := lt_of_le_of_ne (not_lt.mp hc0) (hcn.2 _ hmem)
        split at hJ
        · cases hJ; exact fun _ h => by cases h
        · next b L hL =>
          injection hJ with hJ; subst hJ
          have hp := rowLo_picks _ _ _ hL
          unfold jobsLo
          split
          · exact jobsLo_live (haw r) (hp.mem_neg hmem hc1) hp.neg_reason (hp.apart hR hnd)
          · exact fun _ h => by cases h

/-! ### Recording -/

/-- What may happen while the theory is at work: more literals become true, and they have yet to be told. -/
structure Adv (n : Nat) (A : Nat → Lit → Prop) (P : Lit → Prop) (A' : Nat → Lit → Prop) (P' : Lit → Prop) : Prop where
  up : ∀ i q, i ≤ n → A i q → A' i q
  low : ∀ i q, i < n → A' i q → A i q
  new : ∀ q, A' n q → A n q ∨ P' q
  pen : ∀ q, P q → P' q

theorem Adv.refl : Adv n A P A P := ⟨fun _ _ _ h => h, fun _ _ _ h => h, fun _ h => Or.inl h, fun _ h => h⟩

theorem emit_live {Q : LRA → (Nat → Lit → Prop) → (Lit → Prop) → Prop} {R : LRA → (Nat → Lit → Prop) → Prop} {p : Lit} (hg : Good t A Fs) (hlen : t.layers.length = n)
    (hQ : ∀ A' P', Adv n A P A' P' → Q t A' P') (hR : ∀ A' P', Adv n A P A' P' → R t A') : ∀ (js : List (Lit × List Lit)) (A' : Nat → Lit → Prop) (P' : Lit → Prop) (val : Lit → Option Bool),
    (∀ j ∈ js, JobLive t nv p (A 0) j) → Adv n A P A' P' → Coh val → (∀ q, A' n q ↔ val q = some true) → ActLive (fun _ => False) Q R n nv p A' P' val (emit t js val)
  | [], A', P', _, _, ha, _, _ => .ok (hQ A' P' ha)
  | (q, L) :: js, A', P', val, hj, ha, hc, hv => by
    have h := hj _ List.mem_cons_self
    have hfalse : ∀ q ∈ L, val q = some false := fun q hq =>
      hg.neg_false hc (fun q hq => (hv q).mp (ha.up _ q (Nat.le_refl n) (by rw [← hlen]; exact hq))) (h.rs q hq)
    unfold emit
    split
    · next hq =>
      refine .confl (hR A' P' ha) (List.mem_cons_of_mem _ h.mem) ?_
      have : L ≠ [] := fun e => by have := h.mem; rw [e] at this; cases this
      cases L with
      | nil => exact absurd rfl this
      | cons x L => simp
    · next hq =>
      refine .record hq h.var hfalse h.mem (h.apart.imp (fun hab e => ha.up 0 _ (Nat.zero_le n) (hab e))) (fun A2 P2 v h1 h2 h3 _ h4 h5 h6 h7 => ?_)
      refine emit_live hg hlen hQ hR js A2 P2 v (fun j hj' => hj j (List.mem_cons_of_mem _ hj')) ⟨fun i q hi hq => h1 i q hi (ha.up i q hi hq), fun i q hi hq => ha.low i q hi (h2 i q hi hq),
        fun q hq => ?_, fun q hq => h4 q (ha.pen q hq)⟩ h7 h6
      rcases h3 q hq with h | h
      · exact (ha.new q h).imp_right (h4 q)
      · right; rw [h]; exact h5
    · exact emit_live hg hlen hQ hR js A' P' val (fun j hj' => hj j (List.mem_cons_of_mem _ hj')) ha hc hv

theorem assertLower_live {F : List BF} {Gs : List (List BF)} {Q : LRA → (Nat → Lit → Prop) → (Lit → Prop) → Prop} {R : LRA → (Nat → Lit → Prop) → Prop} {val : Lit → Option Bool} {x : Nat} {v : IQ} {p : Lit}
    (hg : Good t A (F :: Gs)) (hlen : t.layers.length = n) (hrs : RsAll t (A 0)) (haw : ∀ y a, t.vas y = some a → y < nv) (hx : x < t.n) (hc : Coh val)
    (hv : ∀ q, A n q ↔ val q = some true) (hp : val p = some true) (hj : ∀ α X, Mod t α X → α.sat p → v ≤ X x) (hlo : LoOk t (A 0) x (v : WithBot IQ) p)
    (hQ : ∀ t', Same t t' → RsAll t' (A 0) → Good t' A ((.lo x v :: F) :: Gs) → ∀ A' P', Adv n A P A' P' → Q t' A' P')
    (hR : ∀ t', Same t t' → RsAll t' (A 0) → Good t' A (F :: Gs) → ∀ A' P', Adv n A P A' P' → R t' A') : ActLive (fun _ => False) Q R n nv p A P val (t.assertLower E val x v p) := by
  have hpA : A t.layers.length p := by rw [hlen]; exact (hv p).mpr hp
  rcases assertLower_cases E hg (val := val) hx hpA (by rw [hp]; simp) hj with ⟨e, h1⟩ | ⟨e, h1⟩ | ⟨t1, J, hg1, hs, h1, ⟨h2, hbd, hla⟩, hJ, e⟩
  · rw [e]; exact .ok (hQ t (Same.refl t) hrs (hg.enforced_add h1) A P Adv.refl)
  · rw [e]; exact .confl (hR t (Same.refl t) hrs hg A P Adv.refl) (by simp) (by simp)
  · rw [e]
    have hrs1 : RsAll t1 (A 0) := (hrs.setLo hlo).congr hbd hla (by rw [hs.vas]; exact fun _ _ h => h) (fun _ h => h)
    have haw1 : ∀ y, ∀ a ∈ t1.aw y, a.b < nv := fun y a ha => haw _ _ (by rw [← hs.vas]; exact (hg1.tab.aw y a ha).1)
    refine emit_live hg1 (hs.lay.trans hlen) (hQ t1 hs hrs1 hg1) (hR t1 hs hrs1 hg1.forget) _ A P val (fun j hj' => ?_) Adv.refl hc hv
    rcases List.mem_append.mp hj' with hj' | hj'
    · refine jobsLo_live (haw1 x) ?_ ?_ ?_ j hj'
      · rw [h2]; simp
      · intro q hq
        exact ⟨x, Or.inl (List.mem_singleton.mp hq)⟩
      · exact List.pairwise_singleton _ _
    · obtain ⟨J', hJ1, hJ2⟩ := rowsJobs_ok (f := t1.rowJobsLb x) (E.ord (t1.tw x)) (fun r hr => rowJobsLb_ok hg1.tab.wat ((E.perm _).mem_iff.mp hr))
      rw [hJ] at hJ1
      injection hJ1 with hJ1
      subst hJ1
      obtain ⟨r, hr, K, hK1, hK2⟩ := hJ2 j hj'
      have := rowJobsLb_live hg1.tab.shape hrs1 haw1 hK1 j hK2
      rwa [h2] at this

theorem assertUpper_live {F : List BF} {Gs : List (List BF)} {Q : LRA → (Nat → Lit → Prop) → (Lit → Prop) → Prop} {R : LRA → (Nat → Lit → Prop) → Prop} {val : Lit → Option Bool} {x : Nat} {v : IQ} {p : Lit}
    (hg : Good t A (F :: Gs)) (hlen : t.layers.length = n) (hrs : RsAll t (A 0)) (haw : ∀ y a, t.vas y = some a → y < nv) (hx : x < t.n) (hc : Coh val)
    (hv : ∀ q, A n q ↔ val q = some true) (hp : val p = some true) (hj : ∀ α X, Mod t α X → α.sat p → X x ≤ v) (hlo : HiOk t (A 0) x (v : WithTop IQ) p)
    (hQ : ∀ t', Same t t' → RsAll t' (A 0) → Good t' A ((.hi x v :: F) :: Gs) → ∀ A' P', Adv n A P A' P' → Q t' A' P')
    (hR : ∀ t', Same t t' → RsAll t' (A 0) → Good t' A (F :: Gs) → ∀ A' P', Adv n A P A' P' → R t' A') : ActLive (fun _ => False) Q R n nv p A P val (t.assertUpper E val x v p) := by
  have hpA : A t.layers.length p := by rw [hlen]; exact (hv p).mpr hp
  rcases assertUpper_cases E hg (val := val) hx hpA (by rw [hp]; simp) hj with ⟨e, h1⟩ | ⟨e, h1⟩ | ⟨t1, J, hg1, hs, h1, ⟨h2, hbd, hla⟩, hJ, e⟩
  · rw [e]; exact .ok (hQ t (Same.refl t) hrs (hg.enforced_add h1) A P Adv.refl)
  · rw [e]; exact .confl (hR t (Same.refl t) hrs hg A P Adv.refl) (by simp) (by simp)
  · rw [e]
    have hrs1 : RsAll t1 (A 0) := (hrs.setHi hlo).congr hbd hla (by rw [hs.vas]; exact fun _ _ h => h) (fun _ h => h)
    have haw1 : ∀ y, ∀ a ∈ t1.aw y, a.b < nv := fun y a ha => haw _ _ (by rw [← hs.vas]; exact (hg1.tab.aw y a ha).1)
    refine emit_live hg1 (hs.lay.trans hlen) (hQ t1 hs hrs1 hg1) (hR t1 hs hrs1 hg1.forget) _ A P val (fun j hj' => ?_) Adv.refl hc hv
    rcases List.mem_append.mp hj' with hj' | hj'
    · refine jobsHi_live (haw1 x) ?_ ?_ ?_ j hj'
      · rw [h2]; simp
      · intro q hq
        exact ⟨x, Or.inr (List.mem_singleton.mp hq)⟩
      · exact List.pairwise_singleton _ _
    · obtain ⟨J', hJ1, hJ2⟩ := rowsJobs_ok (f := t1.rowJobsUb x) (E.ord (t1.tw x)) (fun r hr => rowJobsUb_ok hg1.tab.wat ((E.perm _).mem_iff.mp hr))
      rw [hJ] at hJ1
      injection hJ1 with hJ1
      subst hJ1
      obtain ⟨r, hr, K, hK1, hK2⟩ := hJ2 j hj'
      have := rowJobsUb_live hg1.tab.shape hrs1 haw1 hK1 j hK2
      rwa [h2] at this

end LRA
end Semitone
