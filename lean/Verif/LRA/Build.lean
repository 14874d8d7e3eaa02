import Verif.LRA.Bland

/-!
# Bounds of expressions; creation of variables and assertions
-/
namespace Semitone
namespace LRA
open Lin
variable {t t' : LRA} {A A' : Nat → Lit → Prop} {Fs : List (List BF)}

theorem termLo_le {X : Nat → IQ} {x : Nat × ℚ} (h : InB (t.lo x.1) (t.hi x.1) (X x.1)) : t.termLo x ≤ ((x.2 • X x.1 : IQ) : WithBot IQ) := by
  unfold termLo
  split
  · next hc =>
    split
    · exact bot_le
    · next a ha =>
      have ha : t.lo x.1 = ((a : IQ) : WithBot IQ) := ha
      have h1 := h.1
      rw [ha, WithBot.coe_le_coe] at h1
      exact WithBot.coe_le_coe.mpr (IQ.smul_le hc.le h1)
  · next hc =>
    split
    · exact bot_le
    · next a ha =>
      have ha : t.hi x.1 = ((a : IQ) : WithTop IQ) := ha
      have h1 := h.2
      rw [ha, WithTop.coe_le_coe] at h1
      exact WithBot.coe_le_coe.mpr (IQ.smul_le_neg (not_lt.mp hc) h1)

theorem le_termHi {X : Nat → IQ} {x : Nat × ℚ} (h : InB (t.lo x.1) (t.hi x.1) (X x.1)) : ((x.2 • X x.1 : IQ) : WithTop IQ) ≤ t.termHi x := by
  unfold termHi
  split
  · next hc =>
    split
    · exact le_top
    · next a ha =>
      have ha : t.hi x.1 = ((a : IQ) : WithTop IQ) := ha
      have h1 := h.2
      rw [ha, WithTop.coe_le_coe] at h1
      exact WithTop.coe_le_coe.mpr (IQ.smul_le hc.le h1)
  · next hc =>
    split
    · exact le_top
    · next a ha =>
      have ha : t.lo x.1 = ((a : IQ) : WithBot IQ) := ha
      have h1 := h.1
      rw [ha, WithBot.coe_le_coe] at h1
      exact WithTop.coe_le_coe.mpr (IQ.smul_le_neg (not_lt.mp hc) h1)

theorem foldLo_le {X : Nat → IQ} : ∀ (ts : List (Nat × ℚ)) (b : WithBot IQ) (y : IQ), (∀ v ∈ keys ts, InB (t.lo v) (t.hi v) (X v)) → b ≤ (y : WithBot IQ) →
    ts.foldl (fun b x => b + t.termLo x) b ≤ ((y + evalT X ts : IQ) : WithBot IQ)
  | [], b, y, _, h => by simpa using h
  | x :: ts, b, y, hX, h => by
    rw [List.foldl_cons, evalT_cons, ← add_assoc]
    refine foldLo_le ts _ (y + x.2 • X x.1) (fun v hv => hX v (List.mem_cons_of_mem _ hv)) ?_
    rw [WithBot.coe_add]
    exact add_le_add h (termLo_le (hX x.1 List.mem_cons_self))

theorem le_foldHi {X : Nat → IQ} : ∀ (ts : List (Nat × ℚ)) (b : WithTop IQ) (y : IQ), (∀ v ∈ keys ts, InB (t.lo v) (t.hi v) (X v)) → (y : WithTop IQ) ≤ b →
    ((y + evalT X ts : IQ) : WithTop IQ) ≤ ts.foldl (fun b x => b + t.termHi x) b
  | [], b, y, _, h => by simpa using h
  | x :: ts, b, y, hX, h => by
    rw [List.foldl_cons, evalT_cons, ← add_assoc]
    refine le_foldHi ts _ (y + x.2 • X x.1) (fun v hv => hX v (List.mem_cons_of_mem _ hv)) ?_
    rw [WithTop.coe_add]
    exact add_le_add h (le_termHi (hX x.1 List.mem_cons_self))

/-- The bounds of an expression enclose its value. -/
theorem inB_lin {X : Nat → IQ} {l : Lin} (hX : ∀ v ∈ keys l.vars, InB (t.lo v) (t.hi v) (X v)) : InB (t.lbL l) (t.ubL l) (l.eval IQ.one X) := by
  have e : l.eval IQ.one X = IQ.ofQ l.kt + evalT X l.vars := by unfold Lin.eval; rw [IQ.ofQ_eq, add_comm]
  rw [e]
  exact ⟨foldLo_le l.vars _ _ hX (le_refl _), le_foldHi l.vars _ _ hX (le_refl _)⟩

theorem leBT_of {a : WithBot IQ} {b : WithTop IQ} {x : IQ} (h1 : a ≤ (x : WithBot IQ)) (h2 : (x : WithTop IQ) ≤ b) : leBT a b = true := by
  unfold leBT
  split
  · rfl
  · rfl
  · next a b =>
    have h1 : ((a : IQ) : WithBot IQ) ≤ (x : WithBot IQ) := h1
    have h2 : (x : WithTop IQ) ≤ ((b : IQ) : WithTop IQ) := h2
    rw [WithBot.coe_le_coe] at h1
    rw [WithTop.coe_le_coe] at h2
    simpa using h1.trans h2

/-! ### Variables -/

theorem Good.aw_out (h : Good t A Fs) : t.aw t.n = [] := by
  rw [List.eq_nil_iff_forall_not_mem]
  intro a ha
  obtain ⟨h1, h2⟩ := h.tab.aw _ a ha
  exact absurd (h.tab.regs _ _ h1).2 (by rw [h2]; exact Nat.lt_irrefl _)

theorem Good.tw_out (h : Good t A Fs) : t.tw t.n = [] := by
  rw [List.eq_nil_iff_forall_not_mem]
  intro r hr
  obtain ⟨l, hl, hk⟩ := (h.tab.wat.mem _ r).mp hr
  exact absurd (h.tab.shape.vars r l hl _ hk).1 (Nat.lt_irrefl _)

theorem Good.row_out (h : Good t A Fs) {v : Nat} (hv : t.n ≤ v) : t.row v = none := by
  cases e : t.row v with
  | none => rfl
  | some l => exact absurd (h.tab.shape.lt v l e) (Nat.not_lt.mpr hv)

theorem upd_eq {α : Type} (f : Nat → α) {v : Nat} {a : α} (h : f v = a) : upd f v a = f := by
  funext w
  by_cases e : w = v
  · subst e; rw [upd_self, h]
  · rw [upd_ne _ _ e]

/-- `new_var()`: only the number of variables, the value of the new one and its expression change. -/
theorem newVar_eq (h : Good t A Fs) : t.newVar.1 = { t with n := t.n + 1, vals := upd t.vals t.n 0, exprs := (Lin.ofVar t.n 1, t.n) :: t.exprs } := by
  have ho := h.bok.out t.n (Nat.le_refl _)
  have h1 : upd t.lo t.n ⊥ = t.lo := upd_eq _ ho.1
  have h2 : upd t.hi t.n ⊤ = t.hi := upd_eq _ ho.2.1
  have h3 : upd t.loR t.n TRUE_lit = t.loR := upd_eq _ ho.2.2.1
  have h4 : upd t.hiR t.n TRUE_lit = t.hiR := upd_eq _ ho.2.2.2
  have h5 : upd t.aw t.n [] = t.aw := upd_eq _ h.aw_out
  have h6 : upd t.tw t.n [] = t.tw := upd_eq _ h.tw_out
  unfold newVar
  simp only [h1, h2, h3, h4, h5, h6]

theorem Shape.mono {n m : Nat} {row : Nat → Option Lin} (h : Shape n row) (hn : n ≤ m) : Shape m row :=
  ⟨fun v l hl => (h.lt v l hl).trans_le hn, h.canon, fun v l hl w hw => ⟨(h.vars v l hl w hw).1.trans_le hn, (h.vars v l hl w hw).2⟩⟩

theorem rows_out {n : Nat} {row : Nat → Option Lin} (h : Shape n row) {vals : Nat → IQ} (hr : Rows row vals) {v : Nat} (hv : n ≤ v) (a : IQ) : Rows row (upd vals v a) := by
  intro w l hl
  have hw := h.lt w l hl
  rw [upd_ne _ _ (Nat.ne_of_lt (hw.trans_le hv)), hr w l hl]
  unfold Lin.eval
  rw [evalT_upd_not _ _ _ (fun hk => absurd (h.vars w l hl v hk).1 (Nat.not_lt.mpr hv))]

theorem Good.newVar (h : Good t A Fs) : Good t.newVar.1 A Fs := by
  rw [newVar_eq h]
  refine ⟨⟨h.tab.shape.mono (Nat.le_succ _), h.tab.wat, rows_out h.tab.shape h.tab.rows (Nat.le_refl _) 0, h.tab.equiv, fun b a hb => ?_, h.tab.aw⟩, fun v hv hr => ?_, ?_⟩
  · exact ⟨(h.tab.regs b a hb).1, Nat.lt_succ_of_lt (h.tab.regs b a hb).2⟩
  · show InB (t.lo v) (t.hi v) (upd t.vals t.n 0 v)
    rcases Nat.lt_succ_iff_lt_or_eq.mp hv with hv | hv
    · rw [upd_ne _ _ (Nat.ne_of_lt hv)]; exact h.inb v hv hr
    · subst hv
      have ho := h.bok.out t.n (Nat.le_refl _)
      have h1 : t.lo t.n = ⊥ := ho.1
      have h2 : t.hi t.n = ⊤ := ho.2.1
      rw [h1, h2]
      exact ⟨bot_le, le_top⟩
  · refine Lev.congr (t := t) (A := A) (A' := A) h.lev (fun α X => ?_) (Nat.le_succ _) (fun _ _ _ h => h)
    refine (mod_congr ?_ ?_ ?_ α X).mp <;> rfl

/-- The new row of `new_var(l)`. -/
def defVar (t : LRA) (l : Lin) : LRA :=
  { t with
    n := t.n + 1
    lo := upd t.lo t.n (t.lbL l)
    hi := upd t.hi t.n (t.ubL l)
    vals := upd t.vals t.n (t.valL l)
    row := upd t.row t.n (some l)
    exprs := (l, t.n) :: (Lin.ofVar t.n 1, t.n) :: t.exprs
    tw := fun v => if v ∈ l.vars.map Prod.fst then ins t.n (t.tw v) else t.tw v
    defs := (t.n, l) :: t.defs
    facts := .lo TRUE_lit t.n (t.lbL l) :: .hi TRUE_lit t.n (t.ubL l) :: t.facts }

theorem upd_upd {α : Type} (f : Nat → α) (v : Nat) (a b : α) : upd (upd f v a) v b = upd f v b := by
  funext w
  by_cases e : w = v
  · subst e; simp
  · simp only [upd_ne _ _ e]

/-- What `new_var(l)` returns. -/
theorem newVarL_cases (h : Good t A Fs) {root : Bool} {l : Lin} {x : Nat} (hn : t.newVarL root l = .ok (t', x)) :
    (t' = t ∧ t.exprs.lookup l = some x) ∨
    (l.vars ≠ [] ∧ t.exprs.lookup l = none ∧ root = true ∧ (∀ y ∈ l.vars, y.1 < t.n) ∧ t' = t.defVar l ∧ x = t.n) := by
  unfold newVarL at hn
  split at hn
  · cases hn
  · next h0 =>
    split at hn
    · next y hy =>
      injection hn with hn; injection hn with h1 h2
      subst h1 h2
      exact Or.inl ⟨rfl, hy⟩
    · next hy =>
      split at hn
      · cases hn
      · next hr =>
        split at hn
        · cases hn
        · next hv =>
          injection hn with hn; injection hn with h1 h2
          subst h2
          refine Or.inr ⟨h0, hy, by simpa using hr, ?_, ?_, rfl⟩
          · intro y hy
            simp only [Bool.not_eq_false, List.all_eq_true, decide_eq_true_eq] at hv
            exact hv y hy
          · rw [← h1, newVar_eq h]
            unfold newRow defVar
            simp only [upd_upd]

theorem Good.defVar (h : Good t A Fs) (hroot : t.layers = []) (hT : A 0 TRUE_lit) {l : Lin} (hc : l.Canon) (hv : ∀ w ∈ keys l.vars, w < t.n ∧ t.row w = none) :
    Good (t.defVar l) A Fs := by
  have hrn : t.row t.n = none := h.row_out (Nat.le_refl _)
  have hnk : t.n ∉ keys l.vars := fun hk => absurd (hv _ hk).1 (Nat.lt_irrefl _)
  have hvals : l.eval IQ.one (upd t.vals t.n (t.valL l)) = l.eval IQ.one t.vals := by
    unfold Lin.eval; rw [evalT_upd_not _ _ _ hnk]
  have hMod : ∀ α X, Mod (t.defVar l) α X → Mod t α X := fun α X hm =>
    ⟨hm.zero, hm.asrt, fun d hd => hm.defs d (List.mem_cons_of_mem _ hd), fun f hf => hm.fact f (List.mem_cons_of_mem _ (List.mem_cons_of_mem _ hf))⟩
  refine ⟨⟨⟨?_, ?_, ?_⟩, newRow_wat (n := t.n) h.tab.wat hrn l, ?_, ?_, ?_, h.tab.aw⟩, ?_, ?_⟩
  · intro v l' hl
    show v < t.n + 1
    by_cases e : v = t.n
    · omega
    · have hl : upd t.row t.n (some l) v = some l' := hl
      rw [upd_ne _ _ e] at hl
      exact Nat.lt_succ_of_lt (h.tab.shape.lt v l' hl)
  · intro v l' hl
    have hl : upd t.row t.n (some l) v = some l' := hl
    by_cases e : v = t.n
    · subst e; rw [upd_self] at hl; cases hl; exact hc
    · rw [upd_ne _ _ e] at hl
      exact h.tab.shape.canon v l' hl
  · intro v l' hl w hw
    have hl : upd t.row t.n (some l) v = some l' := hl
    have key : w < t.n ∧ t.row w = none := by
      by_cases e : v = t.n
      · subst e; rw [upd_self] at hl; cases hl; exact hv w hw
      · rw [upd_ne _ _ e] at hl
        exact h.tab.shape.vars v l' hl w hw
    refine ⟨Nat.lt_succ_of_lt key.1, ?_⟩
    show upd t.row t.n (some l) w = none
    rw [upd_ne _ _ (Nat.ne_of_lt key.1)]
    exact key.2
  · intro v l' hl
    have hl : upd t.row t.n (some l) v = some l' := hl
    show upd t.vals t.n (t.valL l) v = l'.eval IQ.one (upd t.vals t.n (t.valL l))
    by_cases e : v = t.n
    · subst e
      rw [upd_self] at hl
      injection hl with hl
      subst hl
      rw [hvals, upd_self, valL_eq]
    · rw [upd_ne _ _ e] at hl
      exact rows_out h.tab.shape h.tab.rows (Nat.le_refl _) _ v l' hl
  · intro X
    have h1 : Rows (t.defVar l).row X ↔ X t.n = l.eval IQ.one X ∧ Rows t.row X := by
      constructor
      · intro hr
        refine ⟨hr t.n l (by simp [LRA.defVar]), fun v l' hl => hr v l' ?_⟩
        have : v ≠ t.n := fun e => by rw [e, hrn] at hl; cases hl
        show upd t.row t.n (some l) v = some l'
        rw [upd_ne _ _ this]; exact hl
      · rintro ⟨h1, h2⟩ v l' hl
        have hl : upd t.row t.n (some l) v = some l' := hl
        by_cases e : v = t.n
        · subst e; rw [upd_self] at hl; cases hl; exact h1
        · rw [upd_ne _ _ e] at hl; exact h2 v l' hl
    rw [h1, h.tab.equiv X]
    show _ ↔ ∀ d ∈ (t.n, l) :: t.defs, X d.1 = d.2.eval IQ.one X
    rw [List.forall_mem_cons]
    exact Iff.rfl
  · intro b a hb
    exact ⟨(h.tab.regs b a hb).1, Nat.lt_succ_of_lt (h.tab.regs b a hb).2⟩
  · intro v hvn hr
    have hr : upd t.row t.n (some l) v = none := hr
    have e : v ≠ t.n := fun e => by rw [e, upd_self] at hr; cases hr
    rw [upd_ne _ _ e] at hr
    have hvn : v < t.n + 1 := hvn
    show InB (upd t.lo t.n (t.lbL l) v) (upd t.hi t.n (t.ubL l) v) (upd t.vals t.n (t.valL l) v)
    rw [upd_ne _ _ e, upd_ne _ _ e, upd_ne _ _ e]
    exact h.inb v (by omega) hr
  · have hlev := h.lev
    have hb := h.bok
    have hl' : (t.defVar l).layers = [] := hroot
    rw [hl']
    rw [hroot] at hlev hb
    cases hlev with
    | base h1 h2 =>
      have hbd : (t.defVar l).bd = ⟨upd t.lo t.n (t.lbL l), t.loR, upd t.hi t.n (t.ubL l), t.hiR⟩ := rfl
      have hne : ∀ w, t.n + 1 ≤ w → w ≠ t.n := fun w hw e => by omega
      have ho := hb.out t.n (Nat.le_refl _)
      refine .base ?_ (fun f hf => ?_)
      · rw [hbd]
        refine ⟨hb.rlo, hb.rhi, fun v α X hm hs => ?_, fun v α X hm hs => ?_, fun v => ?_, fun v hv' => ?_⟩
        · by_cases e : v = t.n
          · subst e
            simp only [upd_self]
            have hs : α.sat (t.loR t.n) := hs
            have e1 : t.loR t.n = TRUE_lit := ho.2.2.1
            rw [e1] at hs
            exact hm.fact (.lo TRUE_lit t.n (t.lbL l)) List.mem_cons_self hs
          · simp only [upd_ne _ _ e]
            exact hb.jlo v α X (hMod α X hm) hs
        · by_cases e : v = t.n
          · subst e
            simp only [upd_self]
            have hs : α.sat (t.hiR t.n) := hs
            have e1 : t.hiR t.n = TRUE_lit := ho.2.2.2
            rw [e1] at hs
            exact hm.fact (.hi TRUE_lit t.n (t.ubL l)) (List.mem_cons_of_mem _ List.mem_cons_self) hs
          · simp only [upd_ne _ _ e]
            exact hb.jhi v α X (hMod α X hm) hs
        · by_cases e : v = t.n
          · subst e
            simp only [upd_self]
            choose X hX using hb.le
            exact ⟨l.eval IQ.one X, inB_lin (fun v _ => hX v)⟩
          · simp only [upd_ne _ _ e]
            exact hb.le v
        · have e := hne v hv'
          simp only [upd_ne _ _ e]
          exact hb.out v (Nat.le_of_succ_le hv')
      · have := h2 f hf
        rw [hbd]
        cases f with
        | lo x v =>
          have h3 : (v : WithBot IQ) ≤ t.lo x := this
          have : x ≠ t.n := fun e => by
            have e1 : t.lo t.n = ⊥ := ho.1
            rw [e, e1] at h3; simp at h3
          show (v : WithBot IQ) ≤ upd t.lo t.n (t.lbL l) x
          rw [upd_ne _ _ this]; exact h3
        | hi x v =>
          have h3 : t.hi x ≤ (v : WithTop IQ) := this
          have : x ≠ t.n := fun e => by
            have e1 : t.hi t.n = ⊤ := ho.2.1
            rw [e, e1] at h3; simp at h3
          show upd t.hi t.n (t.ubL l) x ≤ (v : WithTop IQ)
          rw [upd_ne _ _ this]; exact h3

/-! ### Assertions -/

theorem Good.addAsrt (h : Good t A Fs) {a : Asrt} (hf : t.vas a.b = none) (hx : a.x < t.n) : Good (t.addAsrt a) A Fs := by
  have hold : ∀ b a', t.vas b = some a' → upd t.vas a.b (some a) b = some a' := by
    intro b a' hb
    have : b ≠ a.b := fun e => by rw [e, hf] at hb; cases hb
    rw [upd_ne _ _ this]; exact hb
  refine ⟨⟨h.tab.shape, h.tab.wat, h.tab.rows, h.tab.equiv, fun b a' hb => ?_, fun x a' ha => ?_⟩, h.inb, ?_⟩
  · have hb : upd t.vas a.b (some a) b = some a' := hb
    by_cases e : b = a.b
    · subst e; rw [upd_self] at hb; cases hb; exact ⟨rfl, hx⟩
    · rw [upd_ne _ _ e] at hb; exact h.tab.regs b a' hb
  · have ha : a' ∈ upd t.aw a.x (t.aw a.x ++ [a]) x := ha
    show upd t.vas a.b (some a) a'.b = some a' ∧ a'.x = x
    by_cases e : x = a.x
    · subst e
      rw [upd_self, List.mem_append, List.mem_singleton] at ha
      rcases ha with ha | rfl
      · exact ⟨hold _ _ (h.tab.aw _ a' ha).1, (h.tab.aw _ a' ha).2⟩
      · exact ⟨upd_self _ _ _, rfl⟩
    · rw [upd_ne _ _ e] at ha
      exact ⟨hold _ _ (h.tab.aw _ a' ha).1, (h.tab.aw _ a' ha).2⟩
  · refine Lev.congr (t := t) (A := A) (A' := A) h.lev (fun α X hm => ?_) (Nat.le_refl _) (fun _ _ _ h => h)
    exact ⟨hm.zero, fun b a' hb => hm.asrt b a' (hold b a' hb), hm.defs, hm.fact⟩

theorem Good.init (hT : A 0 TRUE_lit) : Good init A [[]] := by
  refine ⟨⟨⟨?_, ?_, ?_⟩, ⟨?_, ?_⟩, ?_, ?_, ?_, ?_⟩, ?_, .base ⟨fun _ => hT, fun _ => hT, fun _ _ _ _ _ => bot_le, fun _ _ _ _ _ => le_top, fun _ => ⟨0, bot_le, le_top⟩,
    fun _ _ => ⟨rfl, rfl, rfl, rfl⟩⟩ (fun _ h => by cases h)⟩
  · intro v l h; cases h
  · intro v l h; cases h
  · intro v l h; cases h
  · intro v r
    constructor
    · intro h; cases h
    · rintro ⟨l, h, _⟩; cases h
  · intro v; exact List.nodup_nil
  · intro v l h; cases h
  · intro X
    exact ⟨fun _ d hd => (by cases hd), fun _ v l h => by cases h⟩
  · intro b a h; cases h
  · intro x a h; cases h
  · intro v hv; exact absurd hv (Nat.not_lt_zero v)

end LRA
end Semitone
