import Verif.DL.Live
import Verif.DL.Listen
import Verif.DL.Rel
import Verif.Sat.Guarded

/-!
# The core with a difference-logic theory: sessions

The calls a client may make, and what holds after them.
-/
namespace Semitone
namespace DL
variable {W : Type} [AddCommGroup W] [LinearOrder W] [IsOrderedAddMonoid W] [Dom W]

/-- `safeOps` is the theory with the unsafe propagations excluded. -/
theorem safe_guards : Guards (safeOps (W := W)) ops .excluded := by
  refine ⟨rfl, rfl, rfl, rfl, fun i t v p => ?_⟩
  show (if t.safe v p then t.propagate v p else .fail .excluded) = .fail .excluded ∨ (if t.safe v p then t.propagate v p else .fail .excluded) = t.propagate v p
  split
  · exact .inr rfl
  · exact .inl rfl

/-- The call is not one that a client makes: `bind` is called by the theory. -/
def MayCall : Sat.Op → Prop
  | .bind _ _ => False
  | _ => True

/-- During the call the theory is not told a literal in an unsafe situation (`DL.safe`): nowhere does the call reach a propagation that `safeOps` excludes. -/
def Avoids (E : Env) (s : Sat (DL W)) (op : Sat.Op) : Prop := s.step E safeOps op ≠ .error .excluded

/-- Sessions: the states of a core with a difference-logic theory that sequences of legal calls lead to. The calls of the core are legal as in C10 (`Sat.Legal`) and
reach no unsafe propagation; the constructors are called on existing time points. -/
inductive DSess (E : Env) : Sat (DL W) → Prop
  | init {size : Nat} : 1 ≤ size → DSess E (Sat.init (DL.init size))
  | step {s s' : Sat (DL W)} {op out} : DSess E s → s.Legal op → MayCall op → Avoids E s op → s.step E ops op = .ok (s', out) → DSess E s'
  | newPoint {s : Sat (DL W)} : DSess E s → s.dead = false → DSess E { s with th := s.th.newVar.1 }
  | newDistance {s s' : Sat (DL W)} {i j w p} : DSess E s → s.dead = false → i < s.th.nv → j < s.th.nv → newDistance s i j w = .ok (s', p) → DSess E s'
  | newRel {s s' : Sat (DL W)} {R l r p} : DSess E s → s.dead = false → l.Canon → r.Canon → (∀ t ∈ l.vars, t.1 < s.th.nv) → (∀ t ∈ r.vars, t.1 < s.th.nv) →
      newRel E R s l r = .ok (s', p) → DSess E s'
  | listen {s : Sat (DL W)} {v l t} : DSess E s → s.dead = false → s.th.listen v l = .ok t → DSess E { s with th := t }

/-- The state of the core cannot fail. -/
abbrev DLiveD (s : Sat (DL W)) (d : Bool) : Prop := s.LiveD (live s.th.vd) d

/-- When nothing has been imposed from outside. -/
abbrev DLive (s : Sat (DL W)) : Prop := DLiveD s false

/-- Levels below have larger distances. -/
theorem matAt_mono {t : DL W} {As : List (List (Dist W × Bool))} (h : GoodG t As) : ∀ k i j, i < t.nv → j < t.nv → t.d i j ≤ matAt t.d t.layers k i j := by
  induction h with
  | @base t a _ hl =>
    intro k i j _ _
    rw [hl]
    cases k <;> exact le_refl _
  | @level t t' a A hc hlo hp hg ih =>
    intro k i j hi hj
    cases k with
    | zero => rw [matAt_zero]
    | succ k =>
      obtain ⟨L, Ls, hl, e⟩ := pop_cases hp
      have hn : t'.nv = t.nv := by rw [e]
      have h1 := core_mono hc.core hg.coreG.core hn (fun e he => by simp only [List.flatten_cons, List.mem_append]; exact Or.inr he) hi hj
      have h2 := ih k i j (by rw [hn]; exact hi) (by rw [hn]; exact hj)
      rw [hl]
      refine h1.trans (h2.trans (le_of_eq ?_))
      rw [e]
      rfl

variable {Z : Asg → Prop} {d : Bool}

theorem SInv.hasTop {s : Sat (DL W)} (h : SInv Z s) {v : Nat} {sg : Bool} {i : Nat} (ha : s.tru i ⟨v, sg⟩) : v < s.nvars := by
  have := (Sat.value_true _ _).mp ha.1
  exact h.rinv.inv.wf.rng v (by rw [this]; simp)

/-- `new_distance` keeps the core going. -/
theorem newDistance_live {s s' : Sat (DL W)} {i j : Nat} {w : W} {p : Lit} (h : SInv Z s) (hL : DLiveD s d) (hi : i < s.th.nv) (hj : j < s.th.nv)
    (hn : newDistance s i j w = .ok (s', p)) : DLiveD s' d := by
  unfold newDistance at hn
  split at hn
  swap
  · cases hn
  split at hn
  · injection hn with hn; injection hn with e1 e2; exact e1 ▸ hL
  next h1 =>
  split at hn
  · injection hn with hn; injection hn with e1 e2; exact e1 ▸ hL
  next h2 =>
  simp only at hn
  injection hn with hn; injection hn with e1 e2
  have hw := h.rinv.inv.wf
  have hL1 := Sat.newVar_live h.rinv.inv hL
  rw [Sat.newVar_eq hw] at hL1 e1
  have hf : s.th.vd s.nvars = none := by
    cases hx : s.th.vd s.nvars with
    | none => rfl
    | some dd => exact absurd (h.fresh _ _ hx) (Nat.lt_irrefl _)
  obtain ⟨hr, As, hg, _⟩ := h.parts
  have hli := hL1.live.li
  subst e1
  have hvd' : ∀ v dd, (s.th.register ⟨s.nvars, i, j, w⟩).vd v = some dd → (v = s.nvars ∧ dd = ⟨s.nvars, i, j, w⟩) ∨ (v ≠ s.nvars ∧ s.th.vd v = some dd) := by
    intro v dd hv
    simp only [DL.register, upd] at hv
    split at hv
    · next e => injection hv with hv; exact .inl ⟨e, hv.symm⟩
    · next e => exact .inr ⟨e, hv⟩
  have hund : ∀ sg, ¬ Ent s.th.d ⟨s.nvars, i, j, w⟩ sg := by
    intro sg
    cases sg with
    | true => exact fun h => h2 (ent_true.mp h)
    | false => exact fun h => h1 (ent_false.mp h)
  have now : ∀ {d : Nat → Nat → WithTop W} {b : Nat → List Nat} {A P : Lit → Prop}, Now s.th.vd b d A P → (∀ a c, a < s.th.nv → c < s.th.nv → s.th.d a c ≤ d a c) → (∀ sg, ¬ A ⟨s.nvars, sg⟩) →
      Now (s.th.register ⟨s.nvars, i, j, w⟩).vd (upd b s.nvars [0]) d A P := by
    intro d b A P hN hd hA
    refine ⟨fun v dd hv => ?_, fun v dd sg hv ha => ?_, fun v dd hv ha sg => ?_⟩
    · rcases hvd' v dd hv with ⟨e, -⟩ | ⟨e, hv⟩
      · rw [e, upd_self]; exact .inl rfl
      · rw [upd_ne _ _ e]; exact hN.bound v dd hv
    · rcases hvd' v dd hv with ⟨e, -⟩ | ⟨e, hv⟩
      · rw [e] at ha; exact absurd ha (hA sg)
      · exact hN.told v dd sg hv ha
    · rcases hvd' v dd hv with ⟨e, e'⟩ | ⟨e, hv⟩
      · subst e'
        intro he
        refine hund sg (le_trans ?_ he)
        cases sg with
        | true => exact hd i j hi hj
        | false => exact hd j i hj hi
      · exact hN.und v dd hv ha sg
  have hA : ∀ k sg, ¬ s.tru k ⟨s.nvars, sg⟩ := fun k sg ha => absurd (h.hasTop ha) (Nat.lt_irrefl _)
  have hb0 : s.bounds s.nvars = [] := hli.free _ hf
  have hbe : (upd s.bounds s.nvars (0 :: (s.bounds s.nvars).erase 0)) = upd s.bounds s.nvars [0] := by rw [hb0]; rfl
  have cons : ∀ k, (∃ α, (dlContract s.th.vd).Th s.th α ∧ ∀ q, s.tru k q → α.sat q) → ∃ α, Th (s.th.register ⟨s.nvars, i, j, w⟩) α ∧ ∀ q, s.tru k q → α.sat q := by
    rintro k ⟨α, ⟨X, hX⟩, hq⟩
    refine ⟨upd α s.nvars (decide (X j - X i ≤ w)), ⟨X, fun v dd hv => ?_⟩, fun q ht => ?_⟩
    · rcases hvd' v dd hv with ⟨rfl, rfl⟩ | ⟨e, hv⟩
      · rw [upd_self]; simp
      · rw [upd_ne _ _ e]; exact hX v dd hv
    · have := hq q ht
      unfold Asg.sat at this ⊢
      rw [upd_ne _ _ (Nat.ne_of_lt (h.hasTop (v := q.var) (sg := q.sign) ht))]
      exact this
  refine ⟨⟨⟨hL1.live.fix.nd, hL1.live.fix.fx⟩, ?_, fun k hk => cons k (hL1.live.cons k hk)⟩, fun x hp => cons _ (hL1.con x hp)⟩
  show LI (s.th.register ⟨s.nvars, i, j, w⟩) (s.nvars + 1) (upd s.bounds s.nvars (0 :: (s.bounds s.nvars).erase 0)) s.dl s.tru (fun q => q ∈ s.propQ)
  rw [hbe]
  refine ⟨hli.len, fun v dd hv => ?_, fun v dd hv => ?_, fun v hv => ?_, now hli.top (fun _ _ _ _ => le_refl _) (hA _), fun k hk => now (hli.low k hk) (fun a c ha hc => matAt_mono hg _ a c ha hc) (hA _)⟩
  · rcases hvd' v dd hv with ⟨e, -⟩ | ⟨-, hv⟩
    · rw [e]; exact Nat.lt_succ_self _
    · exact hli.rng v dd hv
  · simp only [DL.register, upd2]
    rcases hvd' v dd hv with ⟨-, e⟩ | ⟨-, hv⟩
    · subst e; simp
    · have := hli.dcs v dd hv
      split
      · next e => rw [← e.1, ← e.2]; exact List.mem_append_left _ this
      · exact this
  · simp only [DL.register, upd] at hv
    split at hv
    · cases hv
    · next e => rw [upd_ne _ _ e]; exact hli.free v hv

/-- Creation of a time point. -/
theorem newPoint_live {s : Sat (DL W)} (h : SInv Z s) (hL : DLiveD s d) : DLiveD { s with th := s.th.newVar.1 } d := by
  have hvd : s.th.newVar.1.vd = s.th.vd := by unfold newVar; simp only; split <;> rfl
  have hdc : s.th.newVar.1.dcs = s.th.dcs := by unfold newVar; simp only; split <;> rfl
  have hly : s.th.newVar.1.layers = s.th.layers := by unfold newVar; simp only; split <;> rfl
  obtain ⟨_, As, hg, _⟩ := h.parts
  have hcore := hg.coreG.core
  have hd : s.th.newVar.1.d = s.th.d := by
    unfold newVar
    simp only
    split
    · funext i j
      show (if i < s.th.cap ∧ j < s.th.cap then s.th.d i j else d0 i j) = s.th.d i j
      split
      · rfl
      · next hh => exact (hcore.out i j (fun h' => hh ⟨h'.1.trans_le hcore.cap, h'.2.trans_le hcore.cap⟩)).symm
    · rfl
  have hth : ∀ α, Th s.th.newVar.1 α ↔ Th s.th α := fun α => by unfold Th; rw [hvd]
  have hli := hL.live.li
  refine ⟨⟨⟨hL.live.fix.nd, hL.live.fix.fx⟩, ?_, fun k hk => ?_⟩, fun x hp => ?_⟩
  · show LI s.th.newVar.1 s.nvars s.bounds s.dl s.tru (fun q => q ∈ s.propQ)
    refine ⟨by rw [hly]; exact hli.len, by rw [hvd]; exact hli.rng, by rw [hvd, hdc]; exact hli.dcs, by rw [hvd]; exact hli.free, by rw [hvd, hd]; exact hli.top,
      by rw [hvd, hd, hly]; exact hli.low⟩
  · obtain ⟨α, a, b⟩ := hL.live.cons k hk
    exact ⟨α, (hth α).mpr a, b⟩
  · obtain ⟨α, a, b⟩ := hL.con x hp
    exact ⟨α, (hth α).mpr a, b⟩

theorem listen_live {s : Sat (DL W)} (hL : DLiveD s d) {v l : Nat} {t : DL W} (hn : s.th.listen v l = .ok t) : DLiveD { s with th := t } d := by
  obtain ⟨f, rfl⟩ := listen_same hn
  have hli := hL.live.li
  exact ⟨⟨⟨hL.live.fix.nd, hL.live.fix.fx⟩, ⟨hli.len, hli.rng, hli.dcs, hli.free, hli.top, hli.low⟩, fun k hk => hL.live.cons k hk⟩, fun x hp => hL.con x hp⟩

/-- Conjunction of two literals. -/
theorem newConj_live {E : Env} {s s' : Sat (DL W)} {ls : List Lit} {p : Lit} (h : SInv Z s) (hL : DLiveD s d) (hn : s.newConj E ls = .ok (s', p)) : DLiveD s' d := by
  obtain ⟨hr, hv⟩ := Sat.newConj_pre hn
  obtain ⟨s1, r, a, b⟩ := Sat.newConj_spec (E := E) h.rinv.inv hr hv
  rw [hn] at a
  injection a with a; injection a with e1 e2
  subst e1 e2
  have := b.defd.live (Sat.newConj_quiet hn) h.rinv.inv.wf hr hL
  unfold DLiveD
  rw [b.defd.rstep.th]
  exact this

/-- The relational constructors. -/
theorem newRel_live {E : Env} {R : Rel} {s s' : Sat (DL W)} {l r : Lin} {p : Lit} (h : SInv Z s) (hL : DLiveD s d) (hl : l.Canon) (hr : r.Canon)
    (hlv : ∀ t ∈ l.vars, t.1 < s.th.nv) (hrv : ∀ t ∈ r.vars, t.1 < s.th.nv) (hn : newRel E R s l r = .ok (s', p)) : DLiveD s' d := by
  exact newRel_ind (P := fun u => DLiveD u d) h hL (fun hu hP hi hj hn => newDistance_live hu hP hi hj hn) (fun hu hP hn => newConj_live hu hP hn) hl hr hlv hrv hn

theorem init_live {size : Nat} : DLive (Sat.init (DL.init (W := W) size)) := by
  have h0 : (Sat.init (DL.init (W := W) size)).dl = 0 := rfl
  have hv : ∀ v dd, (Sat.init (DL.init (W := W) size)).th.vd v = some dd → False := by
    intro v dd hv
    have hv : (none : Option (Dist W)) = some dd := hv
    cases hv
  refine ⟨⟨Sat.init_fix _, ?_, fun i hi => by rw [h0] at hi; omega⟩, fun _ _ => ⟨fun _ => false, ⟨fun _ => 0, fun v dd h => (hv v dd h).elim⟩, fun q hq => ?_⟩⟩
  · refine ⟨rfl, fun v dd h => (hv v dd h).elim, fun v dd h => (hv v dd h).elim, fun v _ => ?_, ⟨fun v dd h => (hv v dd h).elim, fun v dd _ h => (hv v dd h).elim, fun v dd h => (hv v dd h).elim⟩,
      fun i hi => by rw [h0] at hi; omega⟩
    simp only [Sat.init, Sat.newVar]
  · have h1 := (Sat.value_true _ _).mp hq.1
    unfold Asg.sat
    by_cases e : q.var = 0
    · rw [e] at h1
      have : some false = some q.sign := h1
      injection this
    · exfalso
      simp [Sat.init, upd_ne _ _ e, Sat.newVar] at h1

/-- Invariant of the sessions. -/
structure DInv (E : Env) (s : Sat (DL W)) : Prop where
  reach : DReach E s
  live : s.dead = true ∨ DLive s

theorem DInv.alive {E : Env} {s : Sat (DL W)} (h : DInv E s) (hd : s.dead = false) : DLive s := h.live.resolve_left (by rw [hd]; simp)

theorem Avoids.eq {E : Env} {s : Sat (DL W)} {op : Sat.Op} (h : Avoids E s op) : s.step E safeOps op = s.step E ops op :=
  (Sat.guards_step (E := E) safe_guards s op).resolve_left h

/-- A legal call either is excluded or succeeds. -/
theorem DInv.total {E : Env} {s : Sat (DL W)} (h : DInv E s) {op : Sat.Op} (hl : s.Legal op) (hm : MayCall op) :
    s.step E safeOps op = .error .excluded ∨ ∃ s' out, s.step E safeOps op = .ok (s', out) := by
  rcases Sat.step_live (E := E) (op := op) h.reach.rinv.inv (h.alive hl.1) hl (by cases op <;> first | exact hm | rfl) with ⟨e, he, hs⟩ | ⟨s1, o1, h1, -⟩
  · have he : e = .excluded := he
    subst he
    exact .inl hs
  · exact .inr ⟨s1, o1, h1⟩

/-- A step keeps the invariant. -/
theorem DInv.step {E : Env} {s s' : Sat (DL W)} {op : Sat.Op} {out : Sat.Out} (h : DInv E s) (hl : s.Legal op) (hm : MayCall op) (hs : s.step E safeOps op = .ok (s', out)) : DInv E s' := by
  have ha := h.alive hl.1
  have hi := h.reach.sinv
  have hsf : op = .simplify → ∀ u, s.propagate E safeOps = .ok (u, true) → u.Fix u.okQ := by
    rintro rfl u hu
    rcases Sat.propagate_live (E := E) h.reach.rinv.inv ha.live with ⟨e, -, h1⟩ | ⟨u', b, h1, h2, -⟩
    · rw [hu] at h1; cases h1
    · rw [hu] at h1
      injection h1 with h1; injection h1 with e1 e2
      subst e1 e2
      exact (h2 rfl).1.live.fix
  refine ⟨.step h.reach hsf hs, ?_⟩
  rcases Sat.step_live (E := E) (op := op) h.reach.rinv.inv ha hl (by cases op <;> first | exact hm | rfl) with ⟨e, -, h1⟩ | ⟨s1, o1, h1, -, h3⟩
  · rw [hs] at h1; cases h1
  · rw [hs] at h1
    injection h1 with h1; injection h1 with e1 e2
    subst e1 e2
    refine h3.imp_right (fun h3 => ?_)
    have hv : s'.th.vd = s.th.vd := (Sat.step_rinv hi.rinv hsf hs).inv.ti.1.1
    unfold DLive DLiveD
    rw [hv]
    cases op <;> exact h3

theorem DSess.inv {E : Env} {s : Sat (DL W)} (h : DSess E s) : DInv E s := by
  induction h with
  | init h => exact ⟨.init h, .inr init_live⟩
  | step _ hl hm ha hs ih => exact ih.step hl hm (ha.eq.trans hs)
  | newPoint _ hd ih => exact ⟨.newPoint ih.reach, .inr (newPoint_live ih.reach.sinv (ih.alive hd))⟩
  | newDistance _ hd hi hj hn ih => exact ⟨.newDistance ih.reach hi hj hn, .inr (newDistance_live ih.reach.sinv (ih.alive hd) hi hj hn)⟩
  | newRel _ hd hl hr hlv hrv hn ih => exact ⟨newRel_reach ih.reach hl hr hlv hrv hn, .inr (newRel_live ih.reach.sinv (ih.alive hd) hl hr hlv hrv hn)⟩
  | listen _ hd hn ih => exact ⟨.listen ih.reach hn, .inr (listen_live (ih.alive hd) hn)⟩

end DL
end Semitone
