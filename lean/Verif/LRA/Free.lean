import Verif.LRA.Witness
import Verif.LRA.Reach
import Verif.LRA.Demo

/-!
# Linear arithmetic: all histories, without restriction on `new_var(l)`

C43 for all of them; witnesses that C39, C40, C41, C44 and C48 are false for some of them.
-/
namespace Semitone
namespace LRA
open Lin

/-! ### The theory by itself -/

/-- Calls of the theory, without the restrictions of `LRA.Call`: `new_var(l)` is called on any expression over existing variables. -/
inductive FCall (E : LEnv) : LRA → LRA → Prop
  | newVar {t} : FCall E t t.newVar.1
  | newVarL {t t' l x} : l.Canon → t.newVarL (decide (t.layers = [])) l = .ok (t', x) → FCall E t t'
  | assertion {t a} : t.vas a.b = none → a.x < t.n → FCall E t (t.addAsrt a)
  | lit {t t' val p r} : Coh val → val p = some true → (t.propagate E val p).Final t' r → FCall E t t'
  | setLb {t t' val x v p r} : Coh val → val p = some true → (t.setLb E val x v p).Final t' r → FCall E t t'
  | setUb {t t' val x v p r} : Coh val → val p = some true → (t.setUb E val x v p).Final t' r → FCall E t t'
  | check {t t' r} : t.check E = .ok (t', r) → FCall E t t'
  | listen {t t' v l} : t.listen v l = .ok t' → FCall E t t'
  | push {t} : FCall E t t.push
  | pop {t t'} : t.pop = .ok t' → FCall E t t'

/-- The states that sequences of calls lead to. -/
inductive FHist (E : LEnv) : LRA → Prop
  | init : FHist E init
  | call {t t'} : FHist E t → FCall E t t' → FHist E t'

/-- Calls that never return below `n` levels. -/
inductive FWithin (E : LEnv) (n : Nat) : LRA → LRA → Prop
  | refl {t} : n ≤ t.layers.length → FWithin E n t t
  | call {t u v} : FWithin E n t u → FCall E u v → n ≤ v.layers.length → FWithin E n t v

variable {E : LEnv} {t t' : LRA}

/-- A variable that does not exist has no bounds, at any level. -/
structure Blank (t : LRA) : Prop where
  lo : ∀ v, t.n ≤ v → t.lo v = ⊥ ∧ t.loR v = TRUE_lit
  hi : ∀ v, t.n ≤ v → t.hi v = ⊤ ∧ t.hiR v = TRUE_lit
  lay : ∀ L ∈ t.layers, ∀ v, t.n ≤ v → L.lo v = none ∧ L.hi v = none

theorem Blank.init : Blank LRA.init := ⟨fun _ _ => ⟨rfl, rfl⟩, fun _ _ => ⟨rfl, rfl⟩, fun L hL => by cases hL⟩

/-- The bounds, their reasons, the layers and the number of variables are the same. -/
structure SameB (t t' : LRA) : Prop where
  n : t'.n = t.n
  lo : t'.lo = t.lo
  loR : t'.loR = t.loR
  hi : t'.hi = t.hi
  hiR : t'.hiR = t.hiR
  layers : t'.layers = t.layers
  vas : t'.vas = t.vas

theorem SameB.refl (t : LRA) : SameB t t := ⟨rfl, rfl, rfl, rfl, rfl, rfl, rfl⟩
theorem SameB.trans {t u v : LRA} (h : SameB t u) (h' : SameB u v) : SameB t v :=
  ⟨h'.n.trans h.n, h'.lo.trans h.lo, h'.loR.trans h.loR, h'.hi.trans h.hi, h'.hiR.trans h.hiR, h'.layers.trans h.layers, h'.vas.trans h.vas⟩

theorem SameB.stack (h : SameB t t') : t'.stack = t.stack := by
  unfold LRA.stack bd
  rw [h.lo, h.loR, h.hi, h.hiR, h.layers]

theorem SameB.blank (h : SameB t t') (b : Blank t) : Blank t' := by
  refine ⟨?_, ?_, ?_⟩
  · rw [h.n, h.lo, h.loR]; exact b.lo
  · rw [h.n, h.hi, h.hiR]; exact b.hi
  · rw [h.n, h.layers]; exact b.lay

theorem update_sameB {x : Nat} {v : IQ} (h : t.update E x v = .ok t') : SameB t t' := by
  unfold update at h
  split at h
  · cases h
  · split at h
    · cases h
    · cases h; exact ⟨rfl, rfl, rfl, rfl, rfl, rfl, rfl⟩

theorem pivot_sameB {xi xj : Nat} (h : t.pivot E xi xj = .ok t') : SameB t t' := by
  unfold pivot at h
  split at h
  · cases h
  · simp only at h
    split at h
    · cases h
    · split at h
      · cases h
      · cases h; exact ⟨rfl, rfl, rfl, rfl, rfl, rfl, rfl⟩

theorem pivotAndUpdate_sameB {xi xj : Nat} {v : IQ} (h : t.pivotAndUpdate E xi xj v = .ok t') : SameB t t' := by
  unfold pivotAndUpdate at h
  split at h
  · cases h
  · split at h
    · cases h
    · simp only at h
      split at h
      · cases h
      · have := pivot_sameB h
        exact ⟨this.n, this.lo, this.loR, this.hi, this.hiR, this.layers, this.vas⟩

theorem checkStep_sameB (h : t.checkStep E = .next t') : SameB t t' := by
  unfold checkStep at h
  split at h
  · cases h
  · split at h
    · cases h
    · split at h
      · split at h
        · cases h
        · split at h
          · split at h
            · cases h
            · next h1 => cases h; exact pivotAndUpdate_sameB h1
          · cases h
      · split at h
        · cases h
        · split at h
          · split at h
            · cases h
            · next h1 => cases h; exact pivotAndUpdate_sameB h1
          · cases h

theorem checkLoop_sameB : ∀ (f : Nat) {t t' : LRA} {r}, checkLoop E f t = .ok (t', r) → SameB t t'
  | 0, _, _, _, h => by cases h
  | f + 1, t, t', r, h => by
    unfold checkLoop at h
    split at h
    · cases h; exact .refl _
    · cases h; exact .refl _
    · cases h
    · next h1 => exact (checkStep_sameB h1).trans (checkLoop_sameB f h)

theorem setLo_blank {x : Nat} {v : IQ} {p : Lit} (hx : x < t.n) (h : Blank t) : Blank (t.setLo x v p) := by
  refine ⟨fun w hw => ?_, h.hi, fun L hL w hw => ?_⟩
  · have hw' : t.n ≤ w := hw
    have e : w ≠ x := by omega
    simp only [setLo, upd_ne _ _ e]
    exact h.lo w hw
  · have hw' : t.n ≤ w := hw
    have e : w ≠ x := by omega
    simp only [setLo] at hL
    cases hl : t.layers with
    | nil => rw [hl] at hL; cases hL
    | cons L0 Ls =>
      rw [hl] at hL
      rcases List.mem_cons.mp hL with rfl | hL
      · have := h.lay L0 (by rw [hl]; exact List.mem_cons_self) w hw
        split
        · simp only [upd_ne _ _ e]; exact this
        · exact this
      · exact h.lay L (by rw [hl]; exact List.mem_cons_of_mem _ hL) w hw

theorem setHi_blank {x : Nat} {v : IQ} {p : Lit} (hx : x < t.n) (h : Blank t) : Blank (t.setHi x v p) := by
  refine ⟨h.lo, fun w hw => ?_, fun L hL w hw => ?_⟩
  · have hw' : t.n ≤ w := hw
    have e : w ≠ x := by omega
    simp only [setHi, upd_ne _ _ e]
    exact h.hi w hw
  · have hw' : t.n ≤ w := hw
    have e : w ≠ x := by omega
    simp only [setHi] at hL
    cases hl : t.layers with
    | nil => rw [hl] at hL; cases hL
    | cons L0 Ls =>
      rw [hl] at hL
      rcases List.mem_cons.mp hL with rfl | hL
      · have := h.lay L0 (by rw [hl]; exact List.mem_cons_self) w hw
        split
        · simp only [upd_ne _ _ e]; exact this
        · exact this
      · exact h.lay L (by rw [hl]; exact List.mem_cons_of_mem _ hL) w hw

theorem assertLower_blank {val : Lit → Option Bool} {x : Nat} {v : IQ} {p : Lit} {r : Option (List Lit)} (b : Blank t) (h : (t.assertLower E val x v p).Final t' r) : Blank t' := by
  unfold assertLower at h
  split at h
  · cases h
  · split at h
    · cases h
    · next hx =>
      split at h
      · cases h; exact b
      · split at h
        · cases h; exact b
        · simp only at h
          split at h
          · cases h
          · next t1 h1 =>
            split at h
            · cases h
            · rw [emit_final _ _ h]
              have b1 := setLo_blank (v := v) (p := p) (not_not.mp hx) b
              split at h1
              · exact (update_sameB h1).blank b1
              · cases h1; exact b1

theorem assertUpper_blank {val : Lit → Option Bool} {x : Nat} {v : IQ} {p : Lit} {r : Option (List Lit)} (b : Blank t) (h : (t.assertUpper E val x v p).Final t' r) : Blank t' := by
  unfold assertUpper at h
  split at h
  · cases h
  · split at h
    · cases h
    · next hx =>
      split at h
      · cases h; exact b
      · split at h
        · cases h; exact b
        · simp only at h
          split at h
          · cases h
          · next t1 h1 =>
            split at h
            · cases h
            · rw [emit_final _ _ h]
              have b1 := setHi_blank (v := v) (p := p) (not_not.mp hx) b
              split at h1
              · exact (update_sameB h1).blank b1
              · cases h1; exact b1

theorem propagate_blank {val : Lit → Option Bool} {p : Lit} {r : Option (List Lit)} (b : Blank t) (h : (t.propagate E val p).Final t' r) : Blank t' := by
  unfold propagate at h
  split at h
  · cases h
  · split at h
    · split at h
      · exact assertUpper_blank b h
      · exact assertLower_blank b h
    · split at h
      · exact assertLower_blank b h
      · exact assertUpper_blank b h
    · cases h; exact b

/-- What `new_var(l)` does to the bounds. -/
theorem newVarL_bd {root : Bool} {l : Lin} {x : Nat} (h : t.newVarL root l = .ok (t', x)) :
    t' = t ∨ (root = true ∧ t'.n = t.n + 1 ∧ t'.layers = t.layers ∧ ∀ v, v ≠ t.n → t'.lo v = t.lo v ∧ t'.loR v = t.loR v ∧ t'.hi v = t.hi v ∧ t'.hiR v = t.hiR v) := by
  unfold newVarL at h
  split at h
  · cases h
  · split at h
    · cases h; exact Or.inl rfl
    · split at h
      · cases h
      · next hr =>
        split at h
        · cases h
        · injection h with h; injection h with e1 e2
          subst e1
          right
          refine ⟨by simpa using hr, rfl, rfl, fun v hv => ?_⟩
          simp only [newRow, newVar, upd_ne _ _ hv, and_self]

/-- Every call changes the newest level only, opens one or closes one. -/
theorem FCall.stack (hc : FCall E t t') (b : Blank t) : Blank t' ∧
    ((t'.stack.tail = t.stack.tail ∧ t'.layers.length = t.layers.length) ∨ t'.stack.tail = t.stack ∨ t'.stack = t.stack.tail) := by
  have len : ∀ {u : LRA}, u.stack.tail = t.stack.tail → u.layers.length = t.layers.length := by
    intro u h
    have := congrArg List.length h
    simp only [List.length_tail, LRA.stack, stackOf_length] at this
    omega
  cases hc with
  | newVar =>
    have e : t.newVar.1.bd = t.bd := by
      unfold bd LRA.newVar
      have h1 := b.lo t.n (Nat.le_refl _)
      have h2 := b.hi t.n (Nat.le_refl _)
      congr 1
      · funext v; by_cases hv : v = t.n
        · subst hv; simp [h1.1]
        · simp [upd_ne _ _ hv]
      · funext v; by_cases hv : v = t.n
        · subst hv; simp [h1.2]
        · simp [upd_ne _ _ hv]
      · funext v; by_cases hv : v = t.n
        · subst hv; simp [h2.1]
        · simp [upd_ne _ _ hv]
      · funext v; by_cases hv : v = t.n
        · subst hv; simp [h2.2]
        · simp [upd_ne _ _ hv]
    have elo : t.newVar.1.lo = t.lo := congrArg Bd.lo e
    have eloR : t.newVar.1.loR = t.loR := congrArg Bd.loR e
    have ehi : t.newVar.1.hi = t.hi := congrArg Bd.hi e
    have ehiR : t.newVar.1.hiR = t.hiR := congrArg Bd.hiR e
    refine ⟨⟨fun v hv => ?_, fun v hv => ?_, fun L hL v hv => ?_⟩, Or.inl ⟨?_, rfl⟩⟩
    · have hv : t.n + 1 ≤ v := hv
      rw [elo, eloR]; exact b.lo v (by omega)
    · have hv : t.n + 1 ≤ v := hv
      rw [ehi, ehiR]; exact b.hi v (by omega)
    · have hv : t.n + 1 ≤ v := hv
      exact b.lay L hL v (by omega)
    · unfold LRA.stack; rw [e]; rfl
  | newVarL _ hn =>
    rcases newVarL_bd hn with rfl | ⟨hr, h1, h2, h3⟩
    · exact ⟨b, Or.inl ⟨rfl, rfl⟩⟩
    · have hl : t.layers = [] := of_decide_eq_true hr
      refine ⟨⟨fun v hv => ?_, fun v hv => ?_, fun L hL => ?_⟩, Or.inl ⟨?_, by rw [h2]⟩⟩
      · rw [h1] at hv
        obtain ⟨e1, e2, e3, e4⟩ := h3 v (by omega)
        rw [e1, e2]; exact b.lo v (by omega)
      · rw [h1] at hv
        obtain ⟨e1, e2, e3, e4⟩ := h3 v (by omega)
        rw [e3, e4]; exact b.hi v (by omega)
      · rw [h2, hl] at hL; cases hL
      · unfold LRA.stack; rw [h2, hl]; rfl
  | assertion _ _ => exact ⟨⟨b.lo, b.hi, b.lay⟩, Or.inl ⟨rfl, rfl⟩⟩
  | lit _ _ hf => exact ⟨propagate_blank b hf, Or.inl ⟨propagate_tail hf, len (propagate_tail hf)⟩⟩
  | setLb _ _ hf => exact ⟨assertLower_blank (t := { t with facts := _ :: t.facts }) ⟨b.lo, b.hi, b.lay⟩ hf, Or.inl ⟨setLb_tail hf, len (setLb_tail hf)⟩⟩
  | setUb _ _ hf => exact ⟨assertUpper_blank (t := { t with facts := _ :: t.facts }) ⟨b.lo, b.hi, b.lay⟩ hf, Or.inl ⟨setUb_tail hf, len (setUb_tail hf)⟩⟩
  | check hk =>
    have h := checkLoop_sameB _ hk
    exact ⟨h.blank b, Or.inl ⟨by rw [h.stack], by rw [h.layers]⟩⟩
  | listen hl =>
    obtain ⟨f, e⟩ := listen_eq hl
    subst e
    exact ⟨⟨b.lo, b.hi, b.lay⟩, Or.inl ⟨rfl, rfl⟩⟩
  | push =>
    refine ⟨⟨b.lo, b.hi, fun L hL v hv => ?_⟩, Or.inr (Or.inl rfl)⟩
    rcases List.mem_cons.mp hL with rfl | hL
    · exact ⟨rfl, rfl⟩
    · exact b.lay L hL v hv
  | pop hp =>
    refine ⟨?_, Or.inr (Or.inr (pop_stack hp))⟩
    obtain ⟨L, Ls, hl, e⟩ := pop_cases hp
    subst e
    have hL := fun v hv => b.lay L (by rw [hl]; exact List.mem_cons_self) v hv
    refine ⟨fun v hv => ?_, fun v hv => ?_, fun L' hL' => b.lay L' (by rw [hl]; exact List.mem_cons_of_mem _ hL')⟩
    · simp only [Bd.restore, (hL v hv).1]; exact b.lo v hv
    · simp only [Bd.restore, (hL v hv).2]; exact b.hi v hv

theorem FHist.blank (h : FHist E t) : Blank t := by
  induction h with
  | init => exact .init
  | call _ hc ih => exact (hc.stack ih).1

/-- Calls above a level keep what is below. -/
theorem FWithin.stack {n : Nat} (h : FWithin E n t t') (b : Blank t) {S : List Bd} (hS : S.length = n) (hx : S <:+ t.stack) : Blank t' ∧ S <:+ t'.stack ∧ n ≤ t'.layers.length := by
  induction h with
  | refl hn => exact ⟨b, hx, hn⟩
  | @call y z hw hc hn ih =>
    obtain ⟨i1, i2, i3⟩ := ih
    obtain ⟨bz, hz⟩ := hc.stack i1
    refine ⟨bz, ?_, hn⟩
    have key : ∀ (S T : List Bd), S <:+ T → S.length < T.length → S <:+ T.tail := by
      rintro S T ⟨R, rfl⟩ hlt
      cases R with
      | nil => simp at hlt
      | cons a R => exact ⟨R, rfl⟩
    have hly : y.stack.length = y.layers.length + 1 := stackOf_length _ _
    rcases hz with ⟨h, _⟩ | h | h
    · have h1 := key S _ i2 (by omega)
      rw [← h] at h1
      exact h1.trans (List.tail_suffix _)
    · rw [← h] at i2
      exact i2.trans (List.tail_suffix _)
    · rw [h]
      exact key S _ i2 (by omega)

/-- C43, the bounds: in every history (definitions over basic variables and known terms included), after `push`, any calls that stay above the level opened, and the matching `pop`,
all the bounds and their reasons are exactly those from before `push`, and so are those of every lower level. -/
theorem C43_bounds_restored (h : FHist E t) {u : LRA} (hw : FWithin E (t.layers.length + 1) t.push u) (hl : u.layers.length = t.layers.length + 1) (hp : u.pop = .ok t') :
    t'.lo = t.lo ∧ t'.loR = t.loR ∧ t'.hi = t.hi ∧ t'.hiR = t.hiR ∧ t'.stack = t.stack := by
  have hlen : t.stack.length = t.layers.length + 1 := stackOf_length _ _
  obtain ⟨_, h2, _⟩ := hw.stack ((FCall.push (E := E)).stack h.blank).1 (S := t.stack) hlen (by rw [← push_stack t]; exact List.tail_suffix _)
  have hs : t'.stack = t.stack := by
    rw [pop_stack hp]
    obtain ⟨R, hR⟩ := h2
    have hlu : u.stack.length = u.layers.length + 1 := stackOf_length _ _
    have : R.length = 1 := by
      have := congrArg List.length hR
      rw [List.length_append] at this
      omega
    obtain ⟨r, rfl⟩ := List.length_eq_one_iff.mp this
    rw [← hR]
    rfl
  have hbd : t'.bd = t.bd := by
    have := hs
    unfold LRA.stack at this
    rw [stackOf_ne, stackOf_ne t.bd] at this
    injection this
  exact ⟨congrArg Bd.lo hbd, congrArg Bd.loR hbd, congrArg Bd.hi hbd, congrArg Bd.hiR hbd, hs⟩

/-! ### Concrete histories of the theory -/

/-- The calls of the concrete histories; bounds are set with the literal `TRUE_lit`. -/
inductive FT where
  | var
  | defn (l : Lin)
  | lb (x : Nat) (v : IQ)
  | ub (x : Nat) (v : IQ)
  | check
  | push
  | pop

/-- Executes a call. -/
def FT.run (t : LRA) : FT → Option LRA
  | .var => some t.newVar.1
  | .defn l => if canonB l then (t.newVarL (decide (t.layers = [])) l).toOption.map (·.1) else none
  | .lb x v => (t.setLb stdL val0 x v TRUE_lit).state?
  | .ub x v => (t.setUb stdL val0 x v TRUE_lit).state?
  | .check => (t.check stdL).toOption.map (·.1)
  | .push => some t.push
  | .pop => t.pop.toOption

theorem state?_final {T : Type} {a : TAct T} {t : T} (h : a.state? = some t) : ∃ r, a.Final t r := by
  cases a with
  | ok u => cases h; exact ⟨_, .ok⟩
  | confl u cl => cases h; exact ⟨_, .confl⟩
  | record cl k => cases h
  | fail e => cases h

theorem toOption_ok {ε α : Type} {x : Except ε α} {a : α} (h : x.toOption = some a) : x = .ok a := by
  cases x with
  | ok b => cases h; rfl
  | error e => cases h

theorem FT.call {a : FT} (h : a.run t = some t') : FCall stdL t t' := by
  cases a with
  | var => cases h; exact .newVar
  | defn l =>
    simp only [FT.run] at h
    split at h
    · next hc =>
      obtain ⟨⟨u, x⟩, h1, h2⟩ := Option.map_eq_some_iff.mp h
      subst h2
      exact .newVarL (canonB_canon hc) (toOption_ok h1)
    · cases h
  | lb x v => obtain ⟨r, hr⟩ := state?_final h; exact .setLb val0_coh rfl hr
  | ub x v => obtain ⟨r, hr⟩ := state?_final h; exact .setUb val0_coh rfl hr
  | check =>
    obtain ⟨⟨u, x⟩, h1, h2⟩ := Option.map_eq_some_iff.mp h
    subst h2
    exact .check (toOption_ok h1)
  | push => cases h; exact .push
  | pop => exact .pop (toOption_ok h)

/-- Executes a list of calls. -/
def fruns : List FT → LRA → Option LRA
  | [], t => some t
  | a :: as, t => (a.run t).bind (fruns as)

theorem fruns_hist : ∀ (as : List FT) {t t' : LRA}, FHist stdL t → fruns as t = some t' → FHist stdL t'
  | [], _, _, h, hr => by cases hr; exact h
  | a :: as, t, t', h, hr => by
    obtain ⟨u, h1, h2⟩ := Option.bind_eq_some_iff.mp hr
    exact fruns_hist as (.call h (FT.call h1)) h2

theorem assertLower_vas {val : Lit → Option Bool} {x : Nat} {v : IQ} {p : Lit} {r : Option (List Lit)} (h : (t.assertLower E val x v p).Final t' r) : t'.vas = t.vas := by
  unfold assertLower at h
  split at h
  · cases h
  · split at h
    · cases h
    · split at h
      · cases h; rfl
      · split at h
        · cases h; rfl
        · simp only at h
          split at h
          · cases h
          · next t1 h1 =>
            split at h
            · cases h
            · rw [emit_final _ _ h]
              split at h1
              · exact (update_sameB h1).vas
              · cases h1; rfl

theorem assertUpper_vas {val : Lit → Option Bool} {x : Nat} {v : IQ} {p : Lit} {r : Option (List Lit)} (h : (t.assertUpper E val x v p).Final t' r) : t'.vas = t.vas := by
  unfold assertUpper at h
  split at h
  · cases h
  · split at h
    · cases h
    · split at h
      · cases h; rfl
      · split at h
        · cases h; rfl
        · simp only at h
          split at h
          · cases h
          · next t1 h1 =>
            split at h
            · cases h
            · rw [emit_final _ _ h]
              split at h1
              · exact (update_sameB h1).vas
              · cases h1; rfl

theorem newVarL_vas {root : Bool} {l : Lin} {x : Nat} (h : t.newVarL root l = .ok (t', x)) : t'.vas = t.vas := by
  unfold newVarL at h
  split at h
  · cases h
  · split at h
    · cases h; rfl
    · split at h
      · cases h
      · split at h
        · cases h
        · injection h with h; injection h with e1 e2
          subst e1
          rfl

theorem FT.vas {a : FT} (h : a.run t = some t') : t'.vas = t.vas := by
  cases a with
  | var => cases h; rfl
  | defn l =>
    simp only [FT.run] at h
    split at h
    · obtain ⟨⟨u, x⟩, h1, h2⟩ := Option.map_eq_some_iff.mp h
      subst h2
      exact newVarL_vas (toOption_ok h1)
    · cases h
  | lb x v => obtain ⟨r, hr⟩ := state?_final h; exact assertLower_vas (t := { t with facts := _ :: t.facts }) hr
  | ub x v => obtain ⟨r, hr⟩ := state?_final h; exact assertUpper_vas (t := { t with facts := _ :: t.facts }) hr
  | check =>
    obtain ⟨⟨u, x⟩, h1, h2⟩ := Option.map_eq_some_iff.mp h
    subst h2
    exact (checkLoop_sameB _ (toOption_ok h1)).vas
  | push => cases h; rfl
  | pop =>
    obtain ⟨L, Ls, hl, e⟩ := pop_cases (toOption_ok h)
    subst e; rfl

theorem fruns_vas : ∀ (as : List FT) {t t' : LRA}, fruns as t = some t' → t'.vas = t.vas
  | [], _, _, hr => by cases hr; rfl
  | a :: as, t, t', hr => by
    obtain ⟨u, h1, h2⟩ := Option.bind_eq_some_iff.mp hr
    exact (fruns_vas as h2).trans (FT.vas h1)

/-- The state after a list of calls on a new theory. -/
def after (as : List FT) : LRA := (fruns as LRA.init).getD LRA.init

theorem after_hist {as : List FT} (h : (fruns as LRA.init).isSome = true) : FHist stdL (after as) := by
  obtain ⟨u, hu⟩ := Option.isSome_iff_exists.mp h
  unfold after
  rw [hu]
  exact fruns_hist as .init hu

theorem after_vas (as : List FT) (b : Nat) : (after as).vas b = none := by
  unfold after
  cases h : fruns as LRA.init with
  | none => rfl
  | some u => rw [Option.getD_some, fruns_vas as h]; rfl

instance (f : Fact) (α : Asg) (X : Nat → IQ) : Decidable (f.holds α X) := by
  cases f <;> (simp only [Fact.holds, Asg.sat]; infer_instance)

/-- `x3 = new_var(x0 + x1)`, `x4 = new_var(x2 + x3)`, where `x3` is basic, and `set_lb(x0, 1)`. -/
def hist39 : List FT := [.var, .var, .var, .defn l01, .defn l23, .lb 0 (IQ.ofQ 1)]

/-- C39 is false of the code when an expression given to `new_var` has a basic variable: `check` succeeds, but `value(x4) = 0` and `value(x2 + x3) = 1`. -/
theorem C39_witness : FHist stdL (after hist39) ∧ (4, l23) ∈ (after hist39).defs ∧ ∃ t', (after hist39).check stdL = .ok (t', none) ∧ t'.vals 4 ≠ t'.valL l23 := by
  refine ⟨after_hist (by decide +kernel), by decide +kernel, ?_⟩
  have h : ((after hist39).check stdL).toOption.map (fun r => (decide (r.2 = none), decide (r.1.vals 4 ≠ r.1.valL l23))) = some (true, true) := by decide +kernel
  obtain ⟨⟨t', r⟩, h1, h2⟩ := Option.map_eq_some_iff.mp h
  injection h2 with h2 h3
  have h2 : r = none := of_decide_eq_true h2
  subst h2
  exact ⟨t', toOption_ok h1, of_decide_eq_true h3⟩

/-- The same with `x3 <= 1`, `x2 <= 0` and `x4 >= 1`. -/
def hist40 : List FT := [.var, .var, .var, .defn l01, .ub 3 (IQ.ofQ 1), .defn l23, .lb 0 (IQ.ofQ 1), .ub 2 (IQ.ofQ 0), .lb 4 (IQ.ofQ 1)]

/-- C40 is false of the code when an expression given to `new_var` has a basic variable: `check` fails, although `x0 = 1`, `x1 = 0`, `x2 = 0`, `x3 = 1`, `x4 = 1` satisfies
everything (the value of `x4` is out of date). -/
theorem C40_witness : FHist stdL (after hist40) ∧ (∃ t' cl, (after hist40).check stdL = .ok (t', some cl) ∧ ¬ Lemma (after hist40) cl) := by
  refine ⟨after_hist (by decide +kernel), ?_⟩
  have h : ((after hist40).check stdL).toOption.map (fun r => r.2) = some (some [FALSE_lit, FALSE_lit, FALSE_lit]) := by decide +kernel
  obtain ⟨⟨t', r⟩, h1, h2⟩ := Option.map_eq_some_iff.mp h
  simp only at h2
  subst h2
  refine ⟨t', _, toOption_ok h1, fun hL => ?_⟩
  have := hL (fun _ => false) (fun v => if v = 1 ∨ v = 2 then IQ.ofQ 0 else IQ.ofQ 1) ⟨rfl, fun b a hb => ?_, fun d hd => ?_, fun f hf => ?_⟩
  · obtain ⟨q, hq, hs⟩ := this
    simp only [List.mem_cons, List.not_mem_nil, or_false, or_self] at hq
    subst hq
    cases hs
  · rw [after_vas] at hb
    cases hb
  · have hd' : (after hist40).defs = [(4, l23), (3, l01)] := by decide +kernel
    rw [hd'] at hd
    simp only [List.mem_cons, List.not_mem_nil, or_false] at hd
    rcases hd with rfl | rfl
    · decide +kernel
    · decide +kernel
  · revert f
    decide +kernel

/-- The definitions of `hist39`, with `x2 <= 0` and `x4 >= 1`. -/
def hist41 : List FT := [.var, .var, .var, .defn l01, .defn l23, .ub 2 (IQ.ofQ 0), .lb 4 (IQ.ofQ 1)]

/-- C41 is false of the code when an expression given to `new_var` has a basic variable: `check` chooses the basic variable `x3` for the pivot, and an assertion fails. -/
theorem C41_witness : FHist stdL (after hist41) ∧ ((after hist41).check stdL).map (·.2) = .error .assert :=
  ⟨after_hist (by decide +kernel), by decide +kernel⟩

/-- The definitions of `hist39`. -/
def hist43 : List FT := [.var, .var, .var, .defn l01, .defn l23]

/-- C43: the bounds are restored (`C43_bounds_restored`), but "still consistent with the tableau" is false of the code when an expression given to `new_var` has a basic variable:
the definitions hold before `push`, `set_lb(x0, 1)`, `pop`, and not after. -/
theorem C43_witness : FHist stdL (after hist43) ∧ (∀ d ∈ (after hist43).defs, (after hist43).vals d.1 = (after hist43).valL d.2) ∧
    FHist stdL (after (hist43 ++ [.push, .lb 0 (IQ.ofQ 1), .pop])) ∧ (4, l23) ∈ (after hist43).defs ∧
    (after (hist43 ++ [.push, .lb 0 (IQ.ofQ 1), .pop])).vals 4 ≠ (after (hist43 ++ [.push, .lb 0 (IQ.ofQ 1), .pop])).valL l23 :=
  ⟨after_hist (by decide +kernel), by decide +kernel, after_hist (by decide +kernel), by decide +kernel, by decide +kernel⟩

/-- The hypotheses of `C43_bounds_restored` are met there, with a bound that changes in between. -/
example : ∃ u t', FHist stdL (after hist43) ∧ FWithin stdL ((after hist43).layers.length + 1) (after hist43).push u ∧ u.layers.length = (after hist43).layers.length + 1 ∧
    u.pop = .ok t' ∧ u.lo 0 = ((IQ.ofQ 1 : IQ) : WithBot IQ) ∧ (after hist43).lo 0 = ⊥ ∧ t'.lo 0 = ⊥ := by
  have h : ((FT.lb 0 (IQ.ofQ 1)).run (after hist43).push).map (fun u => (decide (u.layers.length = (after hist43).layers.length + 1), decide (u.lo 0 = ((IQ.ofQ 1 : IQ) : WithBot IQ)),
      (u.pop.toOption.map (fun t => decide (t.lo 0 = ⊥))))) = some (true, true, some true) := by decide +kernel
  obtain ⟨u, h1, h2⟩ := Option.map_eq_some_iff.mp h
  injection h2 with h2 h3
  injection h3 with h3 h4
  obtain ⟨t', h5, h6⟩ := Option.map_eq_some_iff.mp h4
  have h2 := of_decide_eq_true h2
  exact ⟨u, t', after_hist (by decide +kernel), .call (.refl (Nat.le_refl _)) (FT.call h1) (Nat.le_of_eq h2.symm), h2, toOption_ok h5, of_decide_eq_true h3, by decide +kernel,
    of_decide_eq_true h6⟩

/-! ### The theory in the core -/

/-- Calls of the core and the theory: those of `AReach` in executable form, and `new_var(l)` on any expression over existing variables. -/
inductive FA where
  | act (a : DAct)
  | defn (l : Lin)

/-- Executes a call. -/
def FA.run (s : Sat LRA × List Fact) : FA → Option ((Sat LRA × List Fact) × Sat.Out)
  | .act a => a.run stdEnv stdL s
  | .defn l =>
    if canonB l then
      match s.1.th.newVarL s.1.root l with
      | .ok (t, y) => some (({ s.1 with th := t }, s.2), .var y)
      | .error _ => none
    else none

/-- Executes a list of calls; the last answer comes first. -/
def faruns : List FA → Sat LRA × List Fact → List Sat.Out → Option ((Sat LRA × List Fact) × List Sat.Out)
  | [], s, os => some (s, os)
  | a :: as, s, os => (a.run s).bind (fun r => faruns as r.1 (r.2 :: os))

/-- The state, the imposed bounds and the answers after a list of calls on a new core. -/
def made (as : List FA) : (Sat LRA × List Fact) × List Sat.Out := (faruns as (Sat.init LRA.init, []) []).getD ((Sat.init LRA.init, []), [])

/-- `x` -/
def linX (v : Nat) : Lin := ⟨[(v, 1)], 0⟩
/-- A constant. -/
def linK (q : ℚ) : Lin := ⟨[], q⟩

/-- A propositional variable `b1`, `x1 = new_var(x0 + 10)`, the constraint literal `b2` of `x0 >= 10`, the clauses `!b2 | b1` and `!b2 | !b1` (so that `x0 < 10`), `set_lb(x1, 15)`,
propagation (it pivots: `x0 = x1 - 10`), `set_lb(x1, 16)`. -/
def hist48 : List FA := [.act (.op .newVar), .act .var, .defn ⟨[(0, 1)], 10⟩, .act (.rel .geq (linX 0) (linK 10)), .act (.op (.newClause [⟨2, false⟩, ⟨1, true⟩])),
  .act (.op (.newClause [⟨2, false⟩, ⟨1, false⟩])), .act (.lb 1 (IQ.ofQ 15)), .act (.op .propagate), .act (.lb 1 (IQ.ofQ 16))]

/-- All the calls are executed; `propagate()` answers true at that point. -/
theorem hist48_runs : (faruns hist48 (Sat.init LRA.init, []) []).isSome = true ∧
    (made hist48).2 = [.bool true, .bool true, .bool true, .bool true, .bool true, .lit ⟨2, true⟩, .var 1, .var 0, .var 1] := by decide +kernel

open Lean Elab Tactic Meta in
/-- Closes `a = b` with the term `Eq.refl a`; the elaborator does not compare `a` and `b`, the kernel does. -/
elab "kernel_rfl" : tactic => do
  let g ← getMainGoal
  let some (α, a, _) := (← instantiateMVars (← g.getType)).eq? | throwError "not an equation"
  g.assign (mkApp2 (mkConst ``Eq.refl [← getLevel α]) α a)

/-- The literals of constraints of `hist48`: `b2` only. (Two closed programs are compared by the kernel.) -/
theorem hist48_vas : ∀ b, (made hist48).1.1.th.vas b = if b = 2 then (made hist48).1.1.th.vas 2 else none := by
  intro b
  kernel_rfl

/-- C48 is false of the code when `new_var(l)` is called with a known term: after `hist48`, `propagate()` answers false, although `x0 = 7`, `x1 = 17` satisfies everything that was imposed. -/
theorem C48_witness : (∃ s', (made hist48).1.1.propagate stdEnv (ops stdL) = .ok (s', false)) ∧ ∃ α x, Model (made hist48).1.1 (made hist48).1.2 α x := by
  constructor
  · have h : ((made hist48).1.1.propagate stdEnv (ops stdL)).toOption.map (·.2) = some false := by decide +kernel
    obtain ⟨⟨s', r⟩, h1, h2⟩ := Option.map_eq_some_iff.mp h
    simp only at h2
    subst h2
    exact ⟨s', toOption_ok h1⟩
  · refine ⟨fun _ => false, fun v => if v = 0 then 7 else 17, rfl, fun C hC => ?_, fun b a hb => ?_, fun d hd => ?_, fun f hf => ?_, trivial⟩
    · have h : (made hist48).1.1.posted = [[⟨2, false⟩, ⟨1, false⟩], [⟨2, false⟩, ⟨1, true⟩]] := by decide +kernel
      rw [h] at hC
      simp only [List.mem_cons, List.not_mem_nil, or_false] at hC
      rcases hC with rfl | rfl <;> exact ⟨⟨2, false⟩, List.mem_cons_self, rfl⟩
    · rw [hist48_vas b] at hb
      split at hb
      · have h : (made hist48).1.1.th.vas 2 = some ⟨false, 2, 0, IQ.ofQ 10⟩ := by decide +kernel
        rw [h] at hb
        injection hb with hb
        subst hb
        simp only [Bool.false_eq_true, false_iff]
        show ¬ (IQ.ofQ 10 ≤ IQ.ofQ (7 : ℚ))
        decide +kernel
      · cases hb
    · revert d
      decide +kernel
    · have h : (made hist48).1.2 = [.lo TRUE_lit 1 (IQ.ofQ 16), .lo TRUE_lit 1 (IQ.ofQ 15)] := by kernel_rfl
      rw [h] at hf
      simp only [List.mem_cons, List.not_mem_nil, or_false] at hf
      rcases hf with rfl | rfl <;> decide +kernel

/-- `x1 = new_var(x0 + 10)`, the constraint literal `b1` of `x0 >= 10`, `set_lb(x1, 15)`, propagation (it pivots: `x0 = x1 - 10`), `set_lb(x1, 16)`, propagation. -/
def hist44 : List FA := [.act .var, .defn ⟨[(0, 1)], 10⟩, .act (.rel .geq (linX 0) (linK 10)), .act (.lb 1 (IQ.ofQ 15)), .act (.op .propagate), .act (.lb 1 (IQ.ofQ 16)),
  .act (.op .propagate), .act (.op .propagate)]

theorem hist44_runs : (faruns hist44 (Sat.init LRA.init, []) []).isSome = true ∧
    (made hist44).2 = [.bool true, .bool true, .bool true, .bool true, .bool true, .lit ⟨1, true⟩, .var 1, .var 0] := by decide +kernel

theorem hist44_vas : ∀ b, (made hist44).1.1.th.vas b = if b = 1 then (made hist44).1.1.th.vas 1 else none := by
  intro b
  kernel_rfl

/-- C44 is false of the code when `new_var(l)` is called with a known term: after `hist44` the literal of `x0 <= 8` is the false literal, although `x0 = 7`, `x1 = 17` satisfies everything
that was imposed. -/
theorem C44_witness : (made hist44).1.1.root = true ∧ (∃ s', newRel .leq (made hist44).1.1 (linX 0) (linK 8) = .ok (s', FALSE_lit)) ∧
    ∃ α x, Model (made hist44).1.1 (made hist44).1.2 α x ∧ ¬ α.sat FALSE_lit ∧ (linX 0).eval 1 x ≤ (linK 8).eval 1 x := by
  refine ⟨by decide +kernel, ?_, fun _ => false, fun v => if v = 0 then 7 else 17, ⟨rfl, fun C hC => ?_, fun b a hb => ?_, fun d hd => ?_, fun f hf => ?_, trivial⟩, (by simp [Asg.sat, FALSE_lit]), by decide +kernel⟩
  · have h : (newRel .leq (made hist44).1.1 (linX 0) (linK 8)).toOption.map (·.2) = some FALSE_lit := by decide +kernel
    obtain ⟨⟨s', r⟩, h1, h2⟩ := Option.map_eq_some_iff.mp h
    simp only at h2
    subst h2
    exact ⟨s', toOption_ok h1⟩
  · have h : (made hist44).1.1.posted = [] := by decide +kernel
    rw [h] at hC
    cases hC
  · rw [hist44_vas b] at hb
    split at hb
    · have h : (made hist44).1.1.th.vas 1 = some ⟨false, 1, 0, IQ.ofQ 10⟩ := by decide +kernel
      rw [h] at hb
      injection hb with hb
      subst hb
      simp only [Bool.false_eq_true, false_iff]
      show ¬ (IQ.ofQ 10 ≤ IQ.ofQ (7 : ℚ))
      decide +kernel
    · cases hb
  · revert d
    decide +kernel
  · have h : (made hist44).1.2 = [.lo TRUE_lit 1 (IQ.ofQ 16), .lo TRUE_lit 1 (IQ.ofQ 15)] := by kernel_rfl
    rw [h] at hf
    simp only [List.mem_cons, List.not_mem_nil, or_false] at hf
    rcases hf with rfl | rfl <;> decide +kernel

end LRA
end Semitone
