import Verif.LRA.Upd
import Verif.LRA.Spec

/-!
# The invariant of the linear-arithmetic theory
-/
namespace Semitone
namespace LRA
open Lin

/-- The tableau and the registered assertions. -/
structure Tab (t : LRA) : Prop where
  shape : Shape t.n t.row
  wat : Wat t.row t.tw
  rows : Rows t.row t.vals
  equiv : ∀ X, Rows t.row X ↔ Defs t.defs X
  regs : ∀ b a, t.vas b = some a → a.b = b ∧ a.x < t.n
  aw : ∀ x, ∀ a ∈ t.aw x, t.vas a.b = some a ∧ a.x = x

/-- `v` is within the bounds. -/
def InB (lo : WithBot IQ) (hi : WithTop IQ) (v : IQ) : Prop := lo ≤ (v : WithBot IQ) ∧ (v : WithTop IQ) ≤ hi

/-- The bounds and their reasons. -/
structure Bd where
  lo : Nat → WithBot IQ
  loR : Nat → Lit
  hi : Nat → WithTop IQ
  hiR : Nat → Lit

/-- The current bounds. -/
def bd (t : LRA) : Bd := ⟨t.lo, t.loR, t.hi, t.hiR⟩

/-- The bounds restored by `pop`. -/
def Bd.restore (b : Bd) (L : LLayer) : Bd :=
  ⟨fun v => match L.lo v with
        | some x => x.1
        | none => b.lo v,
   fun v => match L.lo v with
        | some x => x.2
        | none => b.loR v,
   fun v => match L.hi v with
        | some x => x.1
        | none => b.hi v,
   fun v => match L.hi v with
        | some x => x.2
        | none => b.hiR v⟩

/-- The bounds `c` are weaker than `b`. -/
def Bd.wk (c b : Bd) : Prop := ∀ v, c.lo v ≤ b.lo v ∧ b.hi v ≤ c.hi v

/-- The bounds have true reasons, follow from them, and are consistent. -/
structure BOk (t : LRA) (P : Lit → Prop) (b : Bd) : Prop where
  rlo : ∀ v, P (b.loR v)
  rhi : ∀ v, P (b.hiR v)
  jlo : ∀ v α X, Mod t α X → α.sat (b.loR v) → b.lo v ≤ ((X v : IQ) : WithBot IQ)
  jhi : ∀ v α X, Mod t α X → α.sat (b.hiR v) → ((X v : IQ) : WithTop IQ) ≤ b.hi v
  le : ∀ v, ∃ w : IQ, InB (b.lo v) (b.hi v) w
  out : ∀ v, t.n ≤ v → b.lo v = ⊥ ∧ b.hi v = ⊤ ∧ b.loR v = TRUE_lit ∧ b.hiR v = TRUE_lit

/-- The asserted bound is enforced by the bounds. -/
def BF.ok (f : BF) (b : Bd) : Prop :=
  match f with
  | .lo x v => (v : WithBot IQ) ≤ b.lo x
  | .hi x v => b.hi x ≤ (v : WithTop IQ)

/-- The bounds of every level; `A i` are the literals true at level `i`, `Fs` the bounds asserted at each level, newest first. -/
inductive Lev (t : LRA) (A : Nat → Lit → Prop) : Bd → List LLayer → List (List BF) → Prop
  | base {b F} : BOk t (A 0) b → (∀ f ∈ F, f.ok b) → Lev t A b [] [F]
  | level {b L Ls F Fs} : BOk t (A (Ls.length + 1)) b → (∀ f ∈ F, f.ok b) → (b.restore L).wk b → (∀ v, t.n ≤ v → L.lo v = none ∧ L.hi v = none) →
      Lev t A (b.restore L) Ls Fs → Lev t A b (L :: Ls) (F :: Fs)

/-- The invariant of the theory. -/
structure Good (t : LRA) (A : Nat → Lit → Prop) (Fs : List (List BF)) : Prop where
  tab : Tab t
  inb : ∀ v, v < t.n → t.row v = none → InB (t.lo v) (t.hi v) (t.vals v)
  lev : Lev t A t.bd t.layers Fs

variable {t t' : LRA} {A A' : Nat → Lit → Prop} {Fs : List (List BF)}

theorem Lev.bok {b : Bd} {Ls : List LLayer} (h : Lev t A b Ls Fs) : BOk t (A Ls.length) b := by
  cases h with
  | base h _ => exact h
  | level h _ _ _ _ => exact h

theorem Lev.length {b : Bd} {Ls : List LLayer} (h : Lev t A b Ls Fs) : Fs.length = Ls.length + 1 := by
  induction h with
  | base _ _ => rfl
  | level _ _ _ _ _ ih => simp [ih]

theorem BF.ok_wk {f : BF} {b c : Bd} (h : f.ok c) (hw : c.wk b) : f.ok b := by
  cases f with
  | lo x v => exact le_trans h (hw x).1
  | hi x v => exact le_trans (hw x).2 h

/-- All the asserted bounds are enforced. -/
theorem Lev.enforced {b : Bd} {Ls : List LLayer} (h : Lev t A b Ls Fs) : ∀ f ∈ Fs.flatten, f.ok b := by
  induction h with
  | base _ h => simpa using h
  | level _ h hw _ _ ih =>
    intro f hf
    rw [List.flatten_cons, List.mem_append] at hf
    rcases hf with hf | hf
    · exact h f hf
    · exact BF.ok_wk (ih f hf) hw

theorem BF.ok_holds {f : BF} {b : Bd} {X : Nat → IQ} (h : f.ok b) (hX : ∀ v, InB (b.lo v) (b.hi v) (X v)) : f.holds X := by
  cases f with
  | lo x v => exact WithBot.coe_le_coe.mp (le_trans h (hX x).1)
  | hi x v => exact WithTop.coe_le_coe.mp (le_trans (hX x).2 h)

/-- The meaning may only become stronger. -/
theorem BOk.congr {P P' : Lit → Prop} {b : Bd} (h : BOk t P b) (hM : ∀ α X, Mod t' α X → Mod t α X) (hn : t.n ≤ t'.n) (hP : ∀ q, P q → P' q) : BOk t' P' b :=
  ⟨fun v => hP _ (h.rlo v), fun v => hP _ (h.rhi v), fun v α X hm => h.jlo v α X (hM α X hm), fun v α X hm => h.jhi v α X (hM α X hm), h.le,
    fun v hv => h.out v (hn.trans hv)⟩

theorem Lev.congr {b : Bd} {Ls : List LLayer} (h : Lev t A b Ls Fs) (hM : ∀ α X, Mod t' α X → Mod t α X) (hn : t.n ≤ t'.n)
    (hA : ∀ i, i ≤ Ls.length → ∀ q, A i q → A' i q) : Lev t' A' b Ls Fs := by
  induction h with
  | base h1 h2 => exact .base (h1.congr hM hn (hA 0 (Nat.zero_le _))) h2
  | level h1 h2 h3 h4 _ ih =>
    exact .level (h1.congr hM hn (hA _ (Nat.le_refl _))) h2 h3 (fun v hv => h4 v (hn.trans hv)) (ih (fun i hi => hA i (Nat.le_succ_of_le hi)))

theorem mod_congr (h1 : t'.vas = t.vas) (h2 : t'.defs = t.defs) (h3 : t'.facts = t.facts) (α : Asg) (X : Nat → IQ) : Mod t' α X ↔ Mod t α X :=
  ⟨fun h => ⟨h.zero, h1 ▸ h.asrt, h2 ▸ h.defs, h3 ▸ h.fact⟩, fun h => ⟨h.zero, h1 ▸ h.asrt, h2 ▸ h.defs, h3 ▸ h.fact⟩⟩

theorem Good.mono (h : Good t A Fs) (hA : ∀ i, i ≤ t.layers.length → ∀ q, A i q → A' i q) : Good t A' Fs :=
  ⟨h.tab, h.inb, h.lev.congr (fun _ _ h => h) (Nat.le_refl _) hA⟩

theorem Good.bok (h : Good t A Fs) : BOk t (A t.layers.length) t.bd := h.lev.bok

theorem InB.wk {lo lo' : WithBot IQ} {hi hi' : WithTop IQ} {v : IQ} (h : InB lo hi v) (h1 : lo' ≤ lo) (h2 : hi ≤ hi') : InB lo' hi' v :=
  ⟨h1.trans h.1, h.2.trans h2⟩

/-! ### push and pop -/

theorem restore_push (b : Bd) : b.restore ⟨fun _ => none, fun _ => none⟩ = b := rfl

theorem Good.push (h : Good t A Fs) (hA : ∀ q, A t.layers.length q → A (t.layers.length + 1) q) : Good t.push A ([] :: Fs) := by
  refine ⟨⟨h.tab.shape, h.tab.wat, h.tab.rows, h.tab.equiv, h.tab.regs, h.tab.aw⟩, h.inb, ?_⟩
  have hM : ∀ α X, Mod t.push α X → Mod t α X := fun α X => (mod_congr (t := t) (t' := t.push) rfl rfl rfl α X).mp
  refine .level (h.bok.congr hM (Nat.le_refl _) hA) (fun _ h => by cases h) (fun v => ⟨le_refl _, le_refl _⟩) (fun _ _ => ⟨rfl, rfl⟩) ?_
  rw [restore_push]
  exact h.lev.congr hM (Nat.le_refl _) (fun _ _ _ h => h)

theorem pop_cases (hp : t.pop = .ok t') : ∃ L Ls, t.layers = L :: Ls ∧ t' = { t with lo := (t.bd.restore L).lo, loR := (t.bd.restore L).loR, hi := (t.bd.restore L).hi, hiR := (t.bd.restore L).hiR, layers := Ls } := by
  unfold LRA.pop at hp
  split at hp
  · cases hp
  · next L Ls hl =>
    injection hp with hp
    exact ⟨L, Ls, hl, hp.symm⟩

theorem Good.pop {F : List BF} (h : Good t A (F :: Fs)) (hp : t.pop = .ok t') : Good t' A Fs := by
  obtain ⟨L, Ls, hl, rfl⟩ := pop_cases hp
  have hlev := h.lev
  rw [hl] at hlev
  cases hlev with
  | level h1 h2 h3 h4 h5 =>
    refine ⟨⟨h.tab.shape, h.tab.wat, h.tab.rows, h.tab.equiv, h.tab.regs, h.tab.aw⟩, fun v hv hr => ?_, ?_⟩
    · exact (h.inb v hv hr).wk (h3 v).1 (h3 v).2
    · refine Lev.congr (A := A) (A' := A) h5 (fun α X => ?_) (Nat.le_refl _) (fun _ _ _ h => h)
      refine (mod_congr ?_ ?_ ?_ α X).mp <;> rfl

theorem Good.pop_ok {F G : List BF} (h : Good t A (F :: G :: Fs)) : ∃ t', t.pop = .ok t' := by
  have hl := h.lev.length
  unfold LRA.pop
  split
  · next e => rw [e] at hl; simp at hl
  · exact ⟨_, rfl⟩

/-! ### Storing a bound -/

theorem setLo_bd (t : LRA) (x : Nat) (v : IQ) (p : Lit) : (t.setLo x v p).bd = ⟨upd t.lo x (v : WithBot IQ), upd t.loR x p, t.hi, t.hiR⟩ := rfl
theorem setHi_bd (t : LRA) (x : Nat) (v : IQ) (p : Lit) : (t.setHi x v p).bd = ⟨t.lo, t.loR, upd t.hi x (v : WithTop IQ), upd t.hiR x p⟩ := rfl

/-- Changing the current bounds without changing what `pop` restores. -/
theorem Lev.set {b b' : Bd} {L L' : LLayer} {Ls : List LLayer} {F F' : List BF} (h : Lev t A b (L :: Ls) (F :: Fs)) (hb : BOk t (A (Ls.length + 1)) b') (hw : b.wk b')
    (hr : b'.restore L' = b.restore L) (hF : ∀ f ∈ F', f.ok b') (hL : ∀ v, t.n ≤ v → L'.lo v = none ∧ L'.hi v = none) : Lev t A b' (L' :: Ls) (F' :: Fs) := by
  cases h with
  | level h1 h2 h3 h4 h5 =>
    refine .level hb hF (fun v => ?_) hL (by rw [hr]; exact h5)
    rw [hr]
    exact ⟨(h3 v).1.trans (hw v).1, (hw v).2.trans (h3 v).2⟩

theorem setLo_lev {F : List BF} (h : Lev t A t.bd t.layers (F :: Fs)) {x : Nat} {v : IQ} {p : Lit} (hx : x < t.n) (hlt : t.lo x ≤ (v : WithBot IQ))
    (hle : (v : WithTop IQ) ≤ t.hi x) (hp : A t.layers.length p) (hj : ∀ α X, Mod t α X → α.sat p → v ≤ X x) :
    Lev t A (t.setLo x v p).bd (t.setLo x v p).layers ((.lo x v :: F) :: Fs) := by
  have hb := h.bok
  have hw : t.bd.wk (t.setLo x v p).bd := by
    intro w
    rw [setLo_bd]
    by_cases e : w = x
    · subst e; simp only [upd_self]; exact ⟨hlt, le_refl _⟩
    · simp only [upd_ne _ _ e]; exact ⟨le_refl _, le_refl _⟩
  have hbok : BOk t (A t.layers.length) (t.setLo x v p).bd := by
    rw [setLo_bd]
    refine ⟨fun w => ?_, hb.rhi, fun w α X hm hs => ?_, hb.jhi, fun w => ?_, fun w hw => ?_⟩
    · by_cases e : w = x
      · subst e; simp only [upd_self]; exact hp
      · simp only [upd_ne _ _ e]; exact hb.rlo w
    · by_cases e : w = x
      · subst e; simp only [upd_self] at hs ⊢; exact WithBot.coe_le_coe.mpr (hj α X hm hs)
      · simp only [upd_ne _ _ e] at hs ⊢; exact hb.jlo w α X hm hs
    · by_cases e : w = x
      · subst e; simp only [upd_self]; exact ⟨v, le_refl _, hle⟩
      · simp only [upd_ne _ _ e]; exact hb.le w
    · have e : w ≠ x := fun e => by rw [e] at hw; exact absurd hx (Nat.not_lt.mpr hw)
      simp only [upd_ne _ _ e]; exact hb.out w hw
  have hF : ∀ f ∈ BF.lo x v :: F, f.ok (t.setLo x v p).bd := by
    intro f hf
    rcases List.mem_cons.mp hf with rfl | hf
    · simp [BF.ok, setLo_bd]
    · exact BF.ok_wk (h.enforced f (by simp [hf])) hw
  cases hl : t.layers with
  | nil =>
    rw [hl] at h
    have hl' : (t.setLo x v p).layers = [] := by simp [setLo, hl]
    rw [hl']
    rw [hl] at hbok
    cases h with
    | base h1 h2 => exact .base hbok hF
  | cons L Ls =>
    rw [hl] at h hbok
    have hl' : (t.setLo x v p).layers = (if (L.lo x).isNone then { L with lo := upd L.lo x (some (t.lo x, t.loR x)) } else L) :: Ls := by simp [setLo, hl]
    rw [hl']
    refine h.set hbok hw ?_ hF ?_
    · rw [setLo_bd]
      split
      · next e =>
        rw [Option.isNone_iff_eq_none] at e
        unfold Bd.restore
        congr 1
        · funext w
          by_cases hw : w = x
          · subst hw; simp [e, bd]
          · simp [upd_ne _ _ hw, bd]
        · funext w
          by_cases hw : w = x
          · subst hw; simp [e, bd]
          · simp [upd_ne _ _ hw, bd]
      · next e =>
        obtain ⟨y, hy⟩ : ∃ y, L.lo x = some y := by
          cases h' : L.lo x with
          | none => rw [h'] at e; simp at e
          | some y => exact ⟨y, rfl⟩
        unfold Bd.restore
        congr 1
        · funext w
          by_cases hw : w = x
          · subst hw; simp [hy]
          · simp [upd_ne _ _ hw, bd]
        · funext w
          by_cases hw : w = x
          · subst hw; simp [hy]
          · simp [upd_ne _ _ hw, bd]
    · cases h with
      | level _ _ _ h4 _ =>
        intro w hw'
        have e : w ≠ x := fun e => by rw [e] at hw'; exact absurd hx (Nat.not_lt.mpr hw')
        split
        · simp only [upd_ne _ _ e]; exact h4 w hw'
        · exact h4 w hw'

theorem setHi_lev {F : List BF} (h : Lev t A t.bd t.layers (F :: Fs)) {x : Nat} {v : IQ} {p : Lit} (hx : x < t.n) (hlt : (v : WithTop IQ) ≤ t.hi x)
    (hle : t.lo x ≤ (v : WithBot IQ)) (hp : A t.layers.length p) (hj : ∀ α X, Mod t α X → α.sat p → X x ≤ v) :
    Lev t A (t.setHi x v p).bd (t.setHi x v p).layers ((.hi x v :: F) :: Fs) := by
  have hb := h.bok
  have hw : t.bd.wk (t.setHi x v p).bd := by
    intro w
    rw [setHi_bd]
    by_cases e : w = x
    · subst e; simp only [upd_self]; exact ⟨le_refl _, hlt⟩
    · simp only [upd_ne _ _ e]; exact ⟨le_refl _, le_refl _⟩
  have hbok : BOk t (A t.layers.length) (t.setHi x v p).bd := by
    rw [setHi_bd]
    refine ⟨hb.rlo, fun w => ?_, hb.jlo, fun w α X hm hs => ?_, fun w => ?_, fun w hw => ?_⟩
    · by_cases e : w = x
      · subst e; simp only [upd_self]; exact hp
      · simp only [upd_ne _ _ e]; exact hb.rhi w
    · by_cases e : w = x
      · subst e; simp only [upd_self] at hs ⊢; exact WithTop.coe_le_coe.mpr (hj α X hm hs)
      · simp only [upd_ne _ _ e] at hs ⊢; exact hb.jhi w α X hm hs
    · by_cases e : w = x
      · subst e; simp only [upd_self]; exact ⟨v, hle, le_refl _⟩
      · simp only [upd_ne _ _ e]; exact hb.le w
    · have e : w ≠ x := fun e => by rw [e] at hw; exact absurd hx (Nat.not_lt.mpr hw)
      simp only [upd_ne _ _ e]; exact hb.out w hw
  have hF : ∀ f ∈ BF.hi x v :: F, f.ok (t.setHi x v p).bd := by
    intro f hf
    rcases List.mem_cons.mp hf with rfl | hf
    · simp [BF.ok, setHi_bd]
    · exact BF.ok_wk (h.enforced f (by simp [hf])) hw
  cases hl : t.layers with
  | nil =>
    rw [hl] at h
    have hl' : (t.setHi x v p).layers = [] := by simp [setHi, hl]
    rw [hl']
    rw [hl] at hbok
    cases h with
    | base h1 h2 => exact .base hbok hF
  | cons L Ls =>
    rw [hl] at h hbok
    have hl' : (t.setHi x v p).layers = (if (L.hi x).isNone then { L with hi := upd L.hi x (some (t.hi x, t.hiR x)) } else L) :: Ls := by simp [setHi, hl]
    rw [hl']
    refine h.set hbok hw ?_ hF ?_
    · rw [setHi_bd]
      split
      · next e =>
        rw [Option.isNone_iff_eq_none] at e
        unfold Bd.restore
        congr 1
        · funext w
          by_cases hw : w = x
          · subst hw; simp [e, bd]
          · simp [upd_ne _ _ hw, bd]
        · funext w
          by_cases hw : w = x
          · subst hw; simp [e, bd]
          · simp [upd_ne _ _ hw, bd]
      · next e =>
        obtain ⟨y, hy⟩ : ∃ y, L.hi x = some y := by
          cases h' : L.hi x with
          | none => rw [h'] at e; simp at e
          | some y => exact ⟨y, rfl⟩
        unfold Bd.restore
        congr 1
        · funext w
          by_cases hw : w = x
          · subst hw; simp [hy]
          · simp [upd_ne _ _ hw, bd]
        · funext w
          by_cases hw : w = x
          · subst hw; simp [hy]
          · simp [upd_ne _ _ hw, bd]
    · cases h with
      | level _ _ _ h4 _ =>
        intro w hw'
        have e : w ≠ x := fun e => by rw [e] at hw'; exact absurd hx (Nat.not_lt.mpr hw')
        split
        · simp only [upd_ne _ _ e]; exact h4 w hw'
        · exact h4 w hw'

end LRA
end Semitone
