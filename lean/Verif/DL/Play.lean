import Verif.DL.Firm
import Verif.DL.PropsD

/-!
# C62 for every session

Sessions as in `DL/Session.lean`, without exclusions: the calls may tell the theory literals in unsafe situations, and the clauses recorded may be wrong; only the calls that fail end the session.
-/
namespace Semitone
namespace Sat
variable {T : Type} {O : TheoryOps T} {K : Firm O}

/-- With every variable assigned and nothing queued, the assignment satisfies every posted clause. -/
theorem Calm.sat {s : Sat T} (h : s.Calm K) (hq : s.propQ = []) (hall : ∀ v, v < s.nvars → s.assigns v ≠ none) :
    ∀ D ∈ s.posted, Asg.clause (fun v => s.assigns v = some true) D := by
  have one : ∀ {l : Lit}, s.value l = some true → Asg.sat (fun v => s.assigns v = some true) l := by
    intro l hv
    rw [value_true] at hv
    unfold Asg.sat
    simp only [hv]
    cases l.sign <;> rfl
  intro D hD
  rcases h.lk D hD with ⟨l, h1, h2⟩ | ⟨l, h1, h2⟩ | ⟨c, h1, h2⟩
  · exact ⟨l, h1, one h2.1⟩
  · by_cases hl : Asg.sat (fun v => s.assigns v = some true) l
    · exact ⟨l, h1, hl⟩
    · refine ⟨l.neg, h2, ?_⟩
      unfold Asg.sat at hl ⊢
      rw [Lit.neg_var, Lit.neg_sign]
      revert hl
      cases l.sign <;> simp
  · obtain ⟨l0, l1, r, e, a, b⟩ := h1.wat
    have r0 := h.tw.crng c l0 (by rw [e]; simp)
    have m0 : l0 ∈ D := h2 l0 (by rw [e]; simp)
    have m1 : l1 ∈ D := h2 l1 (by rw [e]; simp)
    match hv : s.value l0 with
    | some true => exact ⟨l0, m0, one hv⟩
    | some false =>
      rcases a hv with h3 | h3 | h3
      · rw [hq] at h3; cases h3
      · exact h3.elim
      · exact ⟨l1, m1, one h3.1⟩
    | none => exact absurd ((value_none _ _).1 hv) (hall _ r0)

/-- The theory is changed between two calls. -/
theorem Calm.theory {s : Sat T} (h : s.Calm K) {t : T} (ht : K.LI t s.nvars s.bounds s.dl s.tru (fun q => q ∈ s.propQ)) : ({ s with th := t } : Sat T).Calm K :=
  ⟨⟨h.tw.congr rfl rfl rfl rfl rfl rfl (fun _ h => h) h.tw.crng h.tw.wlt, ht,
    Lk.map (s := s) (s' := { s with th := t }) (P := fun s c => s.Wtd c) (P' := fun s c => s.Wtd c) rfl (fun _ hq => hq) (fun _ hc => ⟨hc.setTh t, fun _ => Iff.rfl⟩) h.lk⟩, h.qr⟩

/-- The theory changes and starts listening to some variables. -/
theorem Calm.bound {s : Sat T} (h : s.Calm K) {t : T} {b : Nat → List Nat} (ht : K.LI t s.nvars b s.dl s.tru (fun q => q ∈ s.propQ)) :
    ({ s with bounds := b, th := t } : Sat T).Calm K :=
  ⟨⟨h.tw.congr rfl rfl rfl rfl rfl rfl (fun _ h => h) h.tw.crng h.tw.wlt, ht,
    Lk.map (s := s) (s' := { s with bounds := b, th := t }) (P := fun s c => s.Wtd c) (P' := fun s c => s.Wtd c) rfl (fun _ hq => hq)
      (fun _ hc => ⟨⟨hc.lt, hc.nd, hc.cnt, hc.wat⟩, fun _ => Iff.rfl⟩) h.lk⟩, h.qr⟩

end Sat

namespace DL
variable {W : Type} [AddCommGroup W] [LinearOrder W] [IsOrderedAddMonoid W] [Dom W]
variable {E : Env} {s s' : Sat (DL W)}

/-- Sessions: the states of a core with a difference-logic theory that sequences of legal calls lead to, as long as no call fails. The calls of the core are legal as in C10 (`Sat.Legal`); the
constructors are called on existing time points. Compare `DSess`: no call is excluded. -/
inductive Play (E : Env) : Sat (DL W) → Prop
  | init {size : Nat} : 1 ≤ size → Play E (Sat.init (DL.init size))
  | step {s s' : Sat (DL W)} {op out} : Play E s → s.Legal op → MayCall op → s.step E ops op = .ok (s', out) → Play E s'
  | newPoint {s : Sat (DL W)} : Play E s → s.dead = false → Play E { s with th := s.th.newVar.1 }
  | newDistance {s s' : Sat (DL W)} {i j w p} : Play E s → s.dead = false → i < s.th.nv → j < s.th.nv → newDistance s i j w = .ok (s', p) → Play E s'
  | newRel {s s' : Sat (DL W)} {R l r p} : Play E s → s.dead = false → l.Canon → r.Canon → (∀ t ∈ l.vars, t.1 < s.th.nv) → (∀ t ∈ r.vars, t.1 < s.th.nv) →
      newRel E R s l r = .ok (s', p) → Play E s'
  | listen {s : Sat (DL W)} {v l t} : Play E s → s.dead = false → s.th.listen v l = .ok t → Play E { s with th := t }

/-- The sessions of `DL/Session.lean` are among these. -/
theorem DSess.play (h : DSess E s) : Play E s := by
  induction h with
  | init h => exact .init h
  | step _ hl hm _ hs ih => exact .step ih hl hm hs
  | newPoint _ hd ih => exact .newPoint ih hd
  | newDistance _ hd hi hj hn ih => exact .newDistance ih hd hi hj hn
  | newRel _ hd hl hr hlv hrv hn ih => exact .newRel ih hd hl hr hlv hrv hn
  | listen _ hd hn ih => exact .listen ih hd hn

/-- Levels below have larger distances. -/
theorem matAt_up {t : DL W} {As : List (List (Dist W × Bool))} (h : Good t As) : ∀ k i j, i < t.nv → j < t.nv → t.d i j ≤ matAt t.d t.layers k i j := by
  induction h with
  | @base t a _ hl =>
    intro k i j _ _
    rw [hl]
    cases k <;> exact le_refl _
  | @level t t' a A hc hlo hp hg ih =>
    intro k i j hi hj
    cases k with
    | zero => rw [matAt_zero]
    | succ k =>
      obtain ⟨L, Ls, hl, e⟩ := pop_cases hp
      have hn : t'.nv = t.nv := by rw [e]
      have h1 := core_mono hc hg.core hn (fun e he => by simp only [List.flatten_cons, List.mem_append]; exact Or.inr he) hi hj
      have h2 := ih k i j (by rw [hn]; exact hi) (by rw [hn]; exact hj)
      rw [hl]
      refine h1.trans (h2.trans (le_of_eq ?_))
      rw [e]
      rfl

theorem newDistance_nv {i j : Nat} {w : W} {p : Lit} (hn : newDistance s i j w = .ok (s', p)) : s'.th.nv = s.th.nv ∧ s'.dead = s.dead := by
  unfold newDistance at hn
  split at hn
  swap
  · cases hn
  split at hn
  · injection hn with hn; injection hn with e1 e2; exact e1 ▸ ⟨rfl, rfl⟩
  split at hn
  · injection hn with hn; injection hn with e1 e2; exact e1 ▸ ⟨rfl, rfl⟩
  simp only at hn
  injection hn with hn; injection hn with e1 e2
  subst e1
  exact ⟨rfl, rfl⟩

/-- `new_distance`. -/
theorem newDistance_calm {i j : Nat} {w : W} {p : Lit} (h : s.Calm firm) (hi : i < s.th.nv) (hj : j < s.th.nv) (hn : newDistance s i j w = .ok (s', p)) : s'.Calm firm := by
  unfold newDistance at hn
  split at hn
  swap
  · cases hn
  split at hn
  · injection hn with hn; injection hn with e1 e2; exact e1 ▸ h
  next h1 =>
  split at hn
  · injection hn with hn; injection hn with e1 e2; exact e1 ▸ h
  next h2 =>
  simp only at hn
  injection hn with hn; injection hn with e1 e2
  have hC1 : s.newVar.1.Calm firm := ⟨Sat.newVar_steady h.toSteady, h.qr⟩
  have hfi : FI s.th s.nvars s.bounds s.dl s.tru (fun q => q ∈ s.propQ) := h.li
  have hli := hfi.li
  have hf : s.th.vd s.nvars = none := by
    cases hx : s.th.vd s.nvars with
    | none => rfl
    | some dd => exact absurd (hli.rng _ _ hx) (Nat.lt_irrefl _)
  have hb0 : s.bounds s.nvars = [] := hli.free _ hf
  have hbd : s.newVar.1.bounds = s.bounds := rfl
  obtain ⟨As, hg, hlen, hreg, hAs⟩ := hfi.held
  have hA1 : s.newVar.1.tru = s.tru := by
    obtain ⟨a, b⟩ := Sat.newVar_assigns h.tw
    funext k q
    unfold Sat.tru Sat.value
    rw [a, b]
  have hne : i ≠ j := by
    rintro rfl
    rw [hg.core.closed.diag i hi] at h1 h2
    norm_cast at h1 h2
    grind
  have hvd' : ∀ v dd, (s.th.register ⟨s.nvars, i, j, w⟩).vd v = some dd → (v = s.nvars ∧ dd = ⟨s.nvars, i, j, w⟩) ∨ (v ≠ s.nvars ∧ s.th.vd v = some dd) := by
    intro v dd hv
    simp only [DL.register, upd] at hv
    split at hv
    · next e => injection hv with hv; exact .inl ⟨e, hv.symm⟩
    · next e => exact .inr ⟨e, hv⟩
  have hund : ∀ sg, ¬ Ent s.th.d ⟨s.nvars, i, j, w⟩ sg := by
    intro sg
    cases sg with
    | true => exact fun h => h2 (ent_true.mp h)
    | false => exact fun h => h1 (ent_false.mp h)
  have hA : ∀ k sg, ¬ s.tru k ⟨s.nvars, sg⟩ := fun k sg ha => by
    have := (Sat.value_true _ _).mp ha.1
    exact absurd (h.tw.rng _ (by rw [this]; simp)) (Nat.lt_irrefl s.nvars)
  have now : ∀ {d : Nat → Nat → WithTop W} {b : Nat → List Nat} {A P : Lit → Prop}, Now s.th.vd b d A P → (∀ a c, a < s.th.nv → c < s.th.nv → s.th.d a c ≤ d a c) → (∀ sg, ¬ A ⟨s.nvars, sg⟩) →
      Now (s.th.register ⟨s.nvars, i, j, w⟩).vd (upd b s.nvars [0]) d A P := by
    intro d b A P hN hd hA
    refine ⟨fun v dd hv => ?_, fun v dd sg hv ha => ?_, fun v dd hv ha sg => ?_⟩
    · rcases hvd' v dd hv with ⟨e, -⟩ | ⟨e, hv⟩
      · rw [e, upd_self]; exact .inl rfl
      · rw [upd_ne _ _ e]; exact hN.bound v dd hv
    · rcases hvd' v dd hv with ⟨e, -⟩ | ⟨e, hv⟩
      · rw [e] at ha; exact absurd ha (hA sg)
      · exact hN.told v dd sg hv ha
    · rcases hvd' v dd hv with ⟨e, e'⟩ | ⟨e, hv⟩
      · subst e'
        intro he
        refine hund sg (le_trans ?_ he)
        cases sg with
        | true => exact hd i j hi hj
        | false => exact hd j i hj hi
      · exact hN.und v dd hv ha sg
  subst e1
  refine hC1.bound ?_
  show FI (s.th.register ⟨s.nvars, i, j, w⟩) (s.nvars + 1) (upd s.newVar.1.bounds s.nvars (0 :: (s.newVar.1.bounds s.nvars).erase 0)) s.dl s.newVar.1.tru (fun q => q ∈ s.propQ)
  rw [hbd, hb0, hA1]
  show FI (s.th.register ⟨s.nvars, i, j, w⟩) (s.nvars + 1) (upd s.bounds s.nvars [0]) s.dl s.tru (fun q => q ∈ s.propQ)
  refine ⟨⟨hli.len, fun v dd hv => ?_, fun v dd hv => ?_, fun v hv => ?_, now hli.top (fun _ _ _ _ => le_refl _) (hA _), fun k hk => now (hli.low k hk) (fun a c ha hc => matAt_up hg _ a c ha hc) (hA _)⟩,
    regs_register hfi.regs hf hi hj hne, ⟨As, hg.congr ⟨rfl, rfl, rfl, rfl, rfl, forall2_refl _⟩, hlen, fun e he => ?_, hAs⟩, hfi.trees⟩
  · rcases hvd' v dd hv with ⟨e, -⟩ | ⟨-, hv⟩
    · rw [e]; exact Nat.lt_succ_self _
    · exact (hli.rng v dd hv).trans (Nat.lt_succ_self _)
  · simp only [DL.register, upd2]
    rcases hvd' v dd hv with ⟨-, e⟩ | ⟨-, hv⟩
    · subst e; simp
    · have := hli.dcs v dd hv
      split
      · next e => rw [← e.1, ← e.2]; exact List.mem_append_left _ this
      · exact this
  · simp only [DL.register, upd] at hv
    split at hv
    · cases hv
    · next e => rw [upd_ne _ _ e]; exact hli.free v hv
  · simp only [DL.register, upd]
    split
    · next e' => rw [← e', hreg e he] at hf; cases hf
    · exact hreg e he

/-- Creation of a time point. -/
theorem newPoint_calm (h : s.Calm firm) : ({ s with th := s.th.newVar.1 } : Sat (DL W)).Calm firm := by
  have hfi : FI s.th s.nvars s.bounds s.dl s.tru (fun q => q ∈ s.propQ) := h.li
  have hvd : s.th.newVar.1.vd = s.th.vd := by unfold newVar; simp only; split <;> rfl
  have hdc : s.th.newVar.1.dcs = s.th.dcs := by unfold newVar; simp only; split <;> rfl
  have hly : s.th.newVar.1.layers = s.th.layers := by unfold newVar; simp only; split <;> rfl
  obtain ⟨As, hg, hlen, hreg, hAs⟩ := hfi.held
  have hcore := hg.core
  have hd : s.th.newVar.1.d = s.th.d := by
    unfold newVar
    simp only
    split
    · funext i j
      show (if i < s.th.cap ∧ j < s.th.cap then s.th.d i j else d0 i j) = s.th.d i j
      split
      · rfl
      · next hh => exact (hcore.out i j (fun h' => hh ⟨h'.1.trans_le hcore.cap, h'.2.trans_le hcore.cap⟩)).symm
    · rfl
  have hnv := (newVar_frame hcore).1
  have hli := hfi.li
  refine h.theory ?_
  refine ⟨⟨by rw [hly]; exact hli.len, by rw [hvd]; exact hli.rng, by rw [hvd, hdc]; exact hli.dcs, by rw [hvd]; exact hli.free, by rw [hvd, hd]; exact hli.top,
      by rw [hvd, hd, hly]; exact hli.low⟩, ⟨fun v dd hv => ?_, by rw [hvd, hdc]; exact hfi.regs.dcs⟩, ⟨As, good_newVar hg, hlen, by rw [hvd]; exact hreg, hAs⟩, trees_newVar hfi.trees hcore.cap⟩
  rw [hvd] at hv
  obtain ⟨a, b, c, d⟩ := hfi.regs.vd v dd hv
  exact ⟨a, by omega, by omega, d⟩

theorem listen_calm (h : s.Calm firm) {v l : Nat} {t : DL W} (hn : s.th.listen v l = .ok t) : ({ s with th := t } : Sat (DL W)).Calm firm := by
  obtain ⟨f, rfl⟩ := listen_same hn
  have hfi : FI s.th s.nvars s.bounds s.dl s.tru (fun q => q ∈ s.propQ) := h.li
  have hli := hfi.li
  obtain ⟨As, hg, hlen, hreg, hAs⟩ := hfi.held
  exact h.theory ⟨⟨hli.len, hli.rng, hli.dcs, hli.free, hli.top, hli.low⟩, ⟨hfi.regs.vd, hfi.regs.dcs⟩, ⟨As, hg.congr ⟨rfl, rfl, rfl, rfl, rfl, forall2_refl _⟩, hlen, hreg, hAs⟩, hfi.trees⟩

/-- What `new_distance` and `new_conj` keep, the constructors keep. -/
theorem newRel_keeps {R : Rel} {l r : Lin} {p : Lit} {P : Sat (DL W) → Prop} (h0 : 0 < s.th.nv) (hP : P s)
    (hD : ∀ {u u' : Sat (DL W)} {i j : Nat} {w : W} {p : Lit}, P u → i < u.th.nv → j < u.th.nv → newDistance u i j w = .ok (u', p) → P u')
    (hC : ∀ {u u' : Sat (DL W)} {l1 l2 p : Lit}, P u → u.newConj E [l1, l2] = .ok (u', p) → P u')
    (hl : l.Canon) (hr : r.Canon)
    (hlv : ∀ t ∈ l.vars, t.1 < s.th.nv) (hrv : ∀ t ∈ r.vars, t.1 < s.th.nv) (hn : newRel E R s l r = .ok (s', p)) : P s' := by
  have hc : (l.sub r).Canon := (C26_canonical hl hr 0).2.2.1
  have hk := sub_keys hlv hrv
  have two : ∀ i j i' j' (w w' : W), i < s.th.nv → j < s.th.nv → i' < s.th.nv → j' < s.th.nv →
      (match newDistance s i j w with
        | .error e => .error e
        | .ok (s, l1) =>
          match newDistance s i' j' w' with
          | .error e => .error e
          | .ok (s, l2) => s.newConj E [l1, l2]) = Except.ok (s', p) → P s' := by
    intro i j i' j' w w' hi hj hi' hj' hn
    cases h1 : newDistance s i j w with
    | error e => rw [h1] at hn; cases hn
    | ok v1 =>
      obtain ⟨s1, l1⟩ := v1
      rw [h1] at hn
      simp only at hn
      have n1 := (newDistance_nv h1).1
      have R1 := hD hP hi hj h1
      cases h2 : newDistance s1 i' j' w' with
      | error e => rw [h2] at hn; cases hn
      | ok v2 =>
        obtain ⟨s2, l2⟩ := v2
        rw [h2] at hn
        simp only at hn
        exact hC (hD R1 (by rw [n1]; exact hi') (by rw [n1]; exact hj') h2) hn
  cases hf : form (W := W) (l.sub r) with
  | none => rw [newRel_invalid hf] at hn; cases hn
  | some f =>
    have ok := form_spec hc hf
    cases f with
    | const k =>
      cases R <;> simp only [newRel, newLt, newLeq, newEqD, newGeq, newGt, hf] at hn <;> injection hn with hn <;> injection hn with e1 e2 <;> exact e1 ▸ hP
    | diff ng a b k =>
      obtain ⟨_, ⟨ta, hta, rfl⟩, hbv⟩ := ok
      have ha : ta.1 < s.th.nv := hk _ hta
      have hbb : b < s.th.nv := by
        rcases hbv with rfl | ⟨t, ht, rfl⟩
        · exact h0
        · exact hk _ ht
      cases R with
      | lt => cases ng <;> simp only [newRel, newLt, hf] at hn <;> exact hD hP (by assumption) (by assumption) hn
      | leq => cases ng <;> simp only [newRel, newLeq, hf] at hn <;> exact hD hP (by assumption) (by assumption) hn
      | geq => cases ng <;> simp only [newRel, newGeq, hf] at hn <;> exact hD hP (by assumption) (by assumption) hn
      | gt =>
        cases ng with
        | true => simp only [newRel, newGt, hf] at hn; exact hD hP (by assumption) (by assumption) hn
        | false =>
          simp only [newRel, newGt, hf] at hn
          split at hn
          · exact two _ _ _ _ _ _ hbb ha ha hbb hn
          · exact hD hP (by assumption) (by assumption) hn
      | eq =>
        simp only [newRel, newEqD, hf] at hn
        split at hn
        · split at hn
          · exact two _ _ _ _ _ _ ha hbb hbb ha hn
          · injection hn with hn; injection hn with e1 e2; exact e1 ▸ hP
        · cases hn

/-- A conjunction needs the root level. -/
theorem newConj_calm {ls : List Lit} {p : Lit} (h : s.Calm firm) (hn : s.newConj E ls = .ok (s', p)) : s'.dead = true ∨ s'.Calm firm :=
  (Sat.newConj_adds hn).calm (Sat.newConj_pre hn).1 h

/-- Invariant of the sessions. -/
theorem Play.calm (h : Play E s) : s.dead = true ∨ s.Calm firm := by
  induction h with
  | @init size h =>
    refine .inr (Sat.init_calm ?_)
    have hv : ∀ v dd, (DL.init (W := W) size).vd v = some dd → False := by
      intro v dd hv
      have hv : (none : Option (Dist W)) = some dd := hv
      cases hv
    exact ⟨⟨rfl, fun v dd h => (hv v dd h).elim, fun v dd h => (hv v dd h).elim, fun v _ => rfl,
      ⟨fun v dd h => (hv v dd h).elim, fun v dd _ h => (hv v dd h).elim, fun v dd h => (hv v dd h).elim⟩, fun i hi => by omega⟩, regs_init size,
      ⟨[[]], .base (core_init h) rfl, rfl, (fun e he => by simp at he), (fun i hi e he => by simp at he)⟩, trees_init size⟩
  | @step s s' op out _ hl hm hs ih =>
    exact (Sat.step_calm (ih.resolve_left (by rw [hl.1]; simp)) hl (fun v i e => by rw [e] at hm; exact hm) hs).1
  | newPoint _ hd ih => exact .inr (newPoint_calm (ih.resolve_left (by rw [hd]; simp)))
  | newDistance _ hd hi hj hn ih => exact .inr (newDistance_calm (ih.resolve_left (by rw [hd]; simp)) hi hj hn)
  | @newRel s s' R l r p _ hd hl hr hlv hrv hn ih =>
    have hc := ih.resolve_left (by rw [hd]; simp)
    have hfi : FI s.th s.nvars s.bounds s.dl s.tru (fun q => q ∈ s.propQ) := hc.li
    obtain ⟨As, hg, -⟩ := hfi.held
    refine newRel_keeps (P := fun u => u.dead = true ∨ u.Calm firm) hg.core.one (.inr hc) (fun hu hi hj hn => ?_) (fun hu hn => ?_) hl hr hlv hrv hn
    · rcases hu with hu | hu
      · exact .inl (by rw [(newDistance_nv hn).2]; exact hu)
      · exact .inr (newDistance_calm hu hi hj hn)
    · rcases hu with hu | hu
      · exact .inl ((Sat.newConj_adds (K := firm) hn).dead hu)
      · exact newConj_calm hu hn
  | listen _ hd hn ih => exact .inr (listen_calm (ih.resolve_left (by rw [hd]; simp)) hn)

/-! ### Positions -/

theorem calm_fi (h : s.Calm firm) : FI s.th s.nvars s.bounds s.dl s.tru (fun q => q ∈ s.propQ) := h.li

/-- Positions within the distances satisfy the decided literals. -/
theorem pot_fits (h : s.Calm firm) (hq : s.propQ = []) {X : Nat → W} (hX : Pot s.th.nv s.th.d X) : Fits s X := by
  intro v dd sg hv hsg
  have hf := calm_fi h
  have ht := (h.tw.tru_iff ⟨v, sg⟩).mpr ((Sat.value_true s ⟨v, sg⟩).mpr hsg)
  rcases hf.li.top.told v dd sg hv ht with hp | he
  · have hp : (⟨v, sg⟩ : Lit) ∈ s.propQ := hp
    rw [hq] at hp; cases hp
  · have a := (hf.regs.vd v dd hv).2.1
    have b := (hf.regs.vd v dd hv).2.2.1
    have := ent_holds hX a b he
    unfold Holds at this
    cases sg <;> simpa using this

/-- The asserted constraints are decided literals. -/
theorem fits_dist (h : s.Calm firm) {X : Nat → W} (hX : Fits s X) {i j : Nat} (hi : i < s.th.nv) (hj : j < s.th.nv) : ((X j - X i : W) : WithTop W) ≤ s.th.d i j := by
  obtain ⟨As, hg, hlen, hreg, hAs⟩ := (calm_fi h).held
  refine hg.core.sound X (fun e he => ?_) i j hi hj
  have h1 := hX e.1.b e.1 e.2 (hreg e he) ((Sat.value_true s ⟨e.1.b, e.2⟩).mp (hAs s.dl (Nat.le_refl _) e (by simpa using he)).1)
  unfold Holds
  cases e2 : e.2 <;> rw [e2] at h1 <;> simpa using h1

theorem calm_closed (h : s.Calm firm) : Closed s.th.nv s.th.d := by
  obtain ⟨As, hg, -⟩ := (calm_fi h).held
  exact hg.core.closed

/-- Nothing is queued: the decided literals are consistent, the distances are exact, and the undecided constraints are open. -/
theorem positions (h : s.Calm firm) (hq : s.propQ = []) :
    (∃ X, Fits s X) ∧
    (∀ i j, i < s.th.nv → j < s.th.nv →
      (∀ X, Fits s X → ((X j - X i : W) : WithTop W) ≤ (s.th.distance i j).2) ∧
      (∀ a : W, (s.th.distance i j).2 = (a : WithTop W) → ∃ X, Fits s X ∧ X j - X i = a) ∧
      ((s.th.distance i j).2 = ⊤ → ∀ M : W, ∃ X, Fits s X ∧ M < X j - X i)) ∧
    (∀ v dd, s.th.vd v = some dd → s.assigns v = none →
      (∃ X, Fits s X ∧ X dd.tgt - X dd.src ≤ dd.w) ∧ ∃ X, Fits s X ∧ ¬ X dd.tgt - X dd.src ≤ dd.w) := by
  have hc := calm_closed h
  have hr := (calm_fi h).regs
  refine ⟨?_, fun i j hi hj => ⟨fun X hX => fits_dist h hX hi hj, fun a e => ?_, fun e M => ?_⟩, fun v dd hv hn => ?_⟩
  · obtain ⟨X, hX⟩ := base_pot hc
    exact ⟨X, pot_fits h hq hX⟩
  · obtain ⟨X, hX, e'⟩ := (far_pot hc hi hj).1 a e
    exact ⟨X, pot_fits h hq hX, e'⟩
  · obtain ⟨X, hX, e'⟩ := (far_pot hc hi hj).2 e M
    exact ⟨X, pot_fits h hq hX, e'⟩
  · have hund : ∀ sg, ¬ Ent s.th.d dd sg := (calm_fi h).li.top.und v dd hv (fun sg ht => by
      have := (Sat.value_true s ⟨v, sg⟩).mp ht.1
      rw [hn] at this; cases this)
    have key : ∀ sg, ∃ X, Fits s X ∧ ¬ Holds X (dd, sg) := by
      intro sg
      have a := (hr.vd v dd hv).2.1
      have b := (hr.vd v dd hv).2.2.1
      have hsn : es (dd, sg) < s.th.nv := by unfold es; split <;> assumption
      have htn : et (dd, sg) < s.th.nv := by unfold et; split <;> assumption
      obtain ⟨f1, f2⟩ := far_pot hc hsn htn
      have hu := hund sg
      unfold Ent at hu
      have : ∃ X, Pot s.th.nv s.th.d X ∧ ew (dd, sg) < X (et (dd, sg)) - X (es (dd, sg)) := by
        cases e : s.th.d (es (dd, sg)) (et (dd, sg)) with
        | top => exact f2 e _
        | coe x =>
          obtain ⟨X, hX, e'⟩ := f1 x e
          refine ⟨X, hX, ?_⟩
          rw [e']
          rw [e] at hu
          exact_mod_cast not_le.mp hu
      obtain ⟨X, hX, hlt⟩ := this
      refine ⟨X, pot_fits h hq hX, fun hh => ?_⟩
      rw [holds_iff] at hh
      exact absurd hh (not_le.mpr hlt)
    constructor
    · obtain ⟨X, hX, hh⟩ := key false
      refine ⟨X, hX, ?_⟩
      unfold Holds at hh
      simpa using hh
    · obtain ⟨X, hX, hh⟩ := key true
      refine ⟨X, hX, ?_⟩
      unfold Holds at hh
      simpa using hh

theorem solution (h : s.Calm firm) (hq : s.propQ = []) (hall : ∀ v, v < s.nvars → s.assigns v ≠ none) {X : Nat → W} (hX : Fits s X) :
    Model s (fun v => s.assigns v = some true) X := by
  refine ⟨by simp [h.tw.fv], h.sat hq hall, fun b a hb => ?_⟩
  obtain ⟨sg, hsg⟩ : ∃ sg, s.assigns b = some sg := Option.ne_none_iff_exists'.mp (hall b ((calm_fi h).li.rng b a hb))
  rw [← hX b a sg hb hsg]; simp only [hsg]
  cases sg <;> simp

theorem Play.quiet (h : Play E s) {op : Sat.Op} (hl : s.Legal op) (hop : Propagates op) (hs : s.step E ops op = .ok (s', .bool true)) : s'.Calm firm ∧ s'.propQ = [] := by
  have := (Sat.step_calm (h.calm.resolve_left (by rw [hl.1]; simp)) hl (fun v i e => by rw [e] at hop; exact hop) hs).2 (by cases op <;> exact hop) rfl
  exact ⟨this.1, this.2.1⟩

/-! ### C62 -/

/-- C62: in every session, when a call that propagates (`propagate`, `assume`, `next`, `simplify_db`) returns true, there are positions of the time points that satisfy what every decided constraint
literal says: the literals decided are consistent; the distances reported are exactly the bounds these positions have (each finite distance is attained, an infinite one means that there is
no bound); and a constraint literal is left undecided only when some of these positions satisfy its constraint and some do not. -/
theorem C62_positions (h : Play E s) {op : Sat.Op} (hl : s.Legal op) (hop : Propagates op) (hs : s.step E ops op = .ok (s', .bool true)) :
    (∃ X, Fits s' X) ∧
    (∀ i j, i < s'.th.nv → j < s'.th.nv →
      (∀ X, Fits s' X → ((X j - X i : W) : WithTop W) ≤ (s'.th.distance i j).2) ∧
      (∀ a : W, (s'.th.distance i j).2 = (a : WithTop W) → ∃ X, Fits s' X ∧ X j - X i = a) ∧
      ((s'.th.distance i j).2 = ⊤ → ∀ M : W, ∃ X, Fits s' X ∧ M < X j - X i)) ∧
    (∀ v dd, s'.th.vd v = some dd → s'.assigns v = none →
      (∃ X, Fits s' X ∧ X dd.tgt - X dd.src ≤ dd.w) ∧ ∃ X, Fits s' X ∧ ¬ X dd.tgt - X dd.src ≤ dd.w) := by
  obtain ⟨a, b⟩ := h.quiet hl hop hs
  exact positions a b

/-- C62: and every posted clause is satisfied or has two unassigned literals. -/
theorem C62_clauses (h : Play E s) {op : Sat.Op} (hl : s.Legal op) (hop : Propagates op) (hs : s.step E ops op = .ok (s', .bool true)) :
    ∀ D ∈ s'.posted, (∃ l ∈ D, s'.value l = some true) ∨ ∃ x ∈ D, ∃ y ∈ D, x ≠ y ∧ s'.value x = none ∧ s'.value y = none := by
  obtain ⟨a, b⟩ := h.quiet hl hop hs
  exact a.clauses b

/-- C62: with every variable of the core assigned, the assignment together with any positions that satisfy the decided literals (there are some) is a solution of the network. -/
theorem C62_solution (h : Play E s) {op : Sat.Op} (hl : s.Legal op) (hop : Propagates op) (hs : s.step E ops op = .ok (s', .bool true))
    (hall : ∀ v, v < s'.nvars → s'.assigns v ≠ none) : (∃ X, Fits s' X) ∧ ∀ X, Fits s' X → Model s' (fun v => s'.assigns v = some true) X := by
  obtain ⟨a, b⟩ := h.quiet hl hop hs
  exact ⟨(positions a b).1, fun X hX => solution a b hall hX⟩

end DL
end Semitone
