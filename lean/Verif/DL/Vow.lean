import Verif.Sat.VowOps
import Verif.Mix.Halt

/-!
# What the literals mean, in every session of the core with a difference-logic theory: C74

`Reify` and C33 say what the literals mean in every solution of the network, for the sessions in which the theory records only clauses that follow. Here no session is excluded; the literals mean what was asked in the solutions
the core ends with.
-/
namespace Semitone
namespace DL
variable {W : Type} [AddCommGroup W] [LinearOrder W] [IsOrderedAddMonoid W] [Dom W]
variable {E : Env} {s s' s'' : Sat (DL W)}

/-- One call of a session. -/
inductive Turn (E : Env) (s : Sat (DL W)) : Sat (DL W) → Prop
  | step {s' op out} : s.Legal op → MayCall op → s.step E ops op = .ok (s', out) → Turn E s s'
  | newPoint : s.dead = false → Turn E s { s with th := s.th.newVar.1 }
  | newDistance {s' i j w p} : s.dead = false → i < s.th.nv → j < s.th.nv → newDistance s i j w = .ok (s', p) → Turn E s s'
  | newRel {s' R l r p} : s.dead = false → l.Canon → r.Canon → (∀ t ∈ l.vars, t.1 < s.th.nv) → (∀ t ∈ r.vars, t.1 < s.th.nv) → newRel E R s l r = .ok (s', p) → Turn E s s'
  | listen {v l t} : s.dead = false → s.th.listen v l = .ok t → Turn E s { s with th := t }

/-- Any number of calls. -/
inductive Later (E : Env) (s : Sat (DL W)) : Sat (DL W) → Prop
  | refl : Later E s s
  | call {u u'} : Later E s u → Turn E u u' → Later E s u'

theorem Turn.dead (h : Turn E s s') : s.dead = false := by
  cases h with
  | step hl _ _ => exact hl.1
  | newPoint h => exact h
  | newDistance h _ _ _ => exact h
  | newRel h _ _ _ _ _ => exact h
  | listen h _ => exact h

/-- The sessions of C62 are the sequences of these calls. -/
theorem Play.call (h : Play E s) (hc : Turn E s s') : Play E s' := by
  cases hc with
  | step a b c => exact .step h a b c
  | newPoint a => exact .newPoint h a
  | newDistance a b c d => exact .newDistance h a b c d
  | newRel a b c d e f => exact .newRel h a b c d e f
  | listen a b => exact .listen h a b

theorem play_iff : Play E s ↔ ∃ size, 1 ≤ size ∧ Later E (Sat.init (DL.init size)) s := by
  constructor
  · intro h
    induction h with
    | init h => exact ⟨_, h, .refl⟩
    | step _ a b c ih => obtain ⟨z, hz, l⟩ := ih; exact ⟨z, hz, .call l (.step a b c)⟩
    | newPoint _ a ih => obtain ⟨z, hz, l⟩ := ih; exact ⟨z, hz, .call l (.newPoint a)⟩
    | newDistance _ a b c d ih => obtain ⟨z, hz, l⟩ := ih; exact ⟨z, hz, .call l (.newDistance a b c d)⟩
    | newRel _ a b c d e f ih => obtain ⟨z, hz, l⟩ := ih; exact ⟨z, hz, .call l (.newRel a b c d e f)⟩
    | listen _ a b ih => obtain ⟨z, hz, l⟩ := ih; exact ⟨z, hz, .call l (.listen a b)⟩
  · rintro ⟨z, hz, h⟩
    induction h with
    | refl => exact .init hz
    | call _ hc ih => exact ih.call hc

theorem Later.play (h : Play E s) (hl : Later E s s') : Play E s' := by
  induction hl with
  | refl => exact h
  | call _ hc ih => exact ih.call hc

/-! ### Nothing is forgotten -/

/-- Neither by the core nor by the theory. -/
structure Onw (s s' : Sat (DL W)) : Prop extends Sat.Onw s s' where
  vd : ∀ v dd, s.th.vd v = some dd → s'.th.vd v = some dd

theorem Onw.refl (s : Sat (DL W)) : Onw s s := ⟨.refl s, fun _ _ h => h⟩

theorem Onw.trans {s1 s2 s3 : Sat (DL W)} (h1 : Onw s1 s2) (h2 : Onw s2 s3) : Onw s1 s3 := ⟨h1.toOnw.trans h2.toOnw, fun v dd h => h2.vd v dd (h1.vd v dd h)⟩

/-- The assignments and positions to consider. -/
structure World (s : Sat (DL W)) (α : Asg) (X : Nat → W) : Prop where
  rt : s.Rt α
  vd : ∀ v dd, s.th.vd v = some dd → (α v = true ↔ X dd.tgt - X dd.src ≤ dd.w)

theorem Onw.world {α : Asg} {X : Nat → W} (h : Onw s s') (hw : World s' α X) : World s α X := ⟨h.rt hw.rt, fun v dd hv => hw.vd v dd (h.vd v dd hv)⟩

/-- Calm and faithful. -/
structure Faith (s : Sat (DL W)) : Prop where
  calm : s.Calm firm
  vow : s.Vow

theorem newDistance_onw {i j : Nat} {w : W} {p : Lit} (h : Faith s) (hi : i < s.th.nv) (hj : j < s.th.nv) (hn : newDistance s i j w = .ok (s', p)) : Faith s' ∧ Onw s s' ∧ s'.root = s.root := by
  have hk := newDistance_kept h.calm hi hj hn
  have hf : s.th.vd s.nvars = none := by
    cases hx : s.th.vd s.nvars with
    | none => rfl
    | some dd => exact absurd ((calm_fi h.calm).li.rng _ _ hx) (Nat.lt_irrefl _)
  unfold newDistance at hn
  split at hn
  swap
  · cases hn
  split at hn
  · injection hn with hn; injection hn with e1 e2; subst e1; exact ⟨h, .refl _, rfl⟩
  split at hn
  · injection hn with hn; injection hn with e1 e2; subst e1; exact ⟨h, .refl _, rfl⟩
  simp only at hn
  injection hn with hn; injection hn with e1 e2
  have g := Sat.newVar_grown h.calm.toSteady h.vow
  subst e1
  refine ⟨⟨hk.calm, Sat.Vow.onw g.vow ⟨Nat.le_refl _, fun _ h => h, fun _ h => h⟩ rfl⟩, ⟨⟨hk.mild.nv, fun D hD => hD, fun q hq => hk.mild.up 0 q hq⟩, fun v dd hv => ?_⟩, rfl⟩
  show (s.th.register ⟨s.nvars, i, j, w⟩).vd v = some dd
  simp only [DL.register, upd]
  split
  · next e => rw [e, hf] at hv; cases hv
  · exact hv

theorem newConj_onw {ls : List Lit} {p : Lit} (h : Faith s) (hn : s.newConj E ls = .ok (s', p)) :
    s'.dead = true ∨ (Faith s' ∧ Onw s s' ∧ s'.root = s.root ∧ ∀ α, s'.Rt α → (α.sat p ↔ α.all ls)) := by
  rcases Sat.newConj_vow h.calm.toSteady h.vow hn with hd | ⟨g, -, m⟩
  · exact .inl hd
  rcases newConj_calm h.calm hn with hd | hc
  · exact .inl hd
  rcases (Sat.newConj_adds (K := firm.with (keeps_vd s.th.vd)) hn).ok (Sat.newConj_pre hn).1 (h.calm.with (keeps_vd s.th.vd) rfl).toSteady with hd | ⟨hk, -⟩
  · exact .inl hd
  exact .inr ⟨⟨hc, g.vow⟩, ⟨g.toOnw, fun v dd hv => by rw [hk.li.2]; exact hv⟩, g.root, m⟩

theorem newRel_onw {R : Rel} {l r : Lin} {p : Lit} (h : Faith s) (hl : l.Canon) (hr : r.Canon) (hlv : ∀ t ∈ l.vars, t.1 < s.th.nv) (hrv : ∀ t ∈ r.vars, t.1 < s.th.nv)
    (hn : newRel E R s l r = .ok (s', p)) : s'.dead = true ∨ (Faith s' ∧ Onw s s') := by
  obtain ⟨As, hg, -⟩ := (calm_fi h.calm).held
  refine newRel_keeps (P := fun u => u.dead = true ∨ (Faith u ∧ Onw s u)) hg.core.one (.inr ⟨h, .refl s⟩) (fun hu hi hj hn => ?_) (fun hu hn => ?_) hl hr hlv hrv hn
  · rcases hu with hu | hu
    · exact .inl (by rw [(newDistance_nv hn).2]; exact hu)
    · have := newDistance_onw hu.1 hi hj hn
      exact .inr ⟨this.1, hu.2.trans this.2.1⟩
  · rcases hu with hu | hu
    · exact .inl ((Sat.newConj_adds (K := firm) hn).dead hu)
    · exact (newConj_onw hu.1 hn).imp_right (fun x => ⟨x.1, hu.2.trans x.2.1⟩)

theorem step_onw {op : Sat.Op} {out} (h : Faith s) (hl : s.Legal op) (hm : MayCall op) (hs : s.step E ops op = .ok (s', out)) : s'.dead = true ∨ (Faith s' ∧ Onw s s') := by
  have hb : ∀ v i, op ≠ .bind v i := fun v i e => by rw [e] at hm; exact hm
  rcases Sat.step_onw h.calm h.vow hl hb hs with hd | ⟨a, b, c⟩
  · exact .inl hd
  by_cases hd : s'.dead = true
  · exact .inl hd
  have k1 := (Sat.step_calm (h.calm.with (keeps_vd s.th.vd) rfl) hl hb hs).1.resolve_left hd
  exact .inr ⟨⟨a, c⟩, b, fun v dd hv => by rw [k1.without.2]; exact hv⟩

theorem Turn.onw (h : Faith s) (hc : Turn E s s') : s'.dead = true ∨ (Faith s' ∧ Onw s s') := by
  cases hc with
  | step a b c => exact step_onw h a b c
  | newPoint a =>
    have hvd : s.th.newVar.1.vd = s.th.vd := by unfold newVar; simp only; split <;> rfl
    have o : Sat.Onw s { s with th := s.th.newVar.1 } := ⟨Nat.le_refl _, fun _ h => h, fun _ h => h⟩
    exact .inr ⟨⟨newPoint_calm h.calm, h.vow.onw o rfl⟩, o, fun v dd hv => by (show s.th.newVar.1.vd v = _; rw [hvd]; exact hv)⟩
  | newDistance a b c d =>
    have := newDistance_onw h b c d
    exact .inr ⟨this.1, this.2.1⟩
  | newRel a b c d e f => exact newRel_onw h b c d e f
  | @listen v l t a b =>
    obtain ⟨f, rfl⟩ := listen_same b
    have o : Sat.Onw s { s with th := { s.th with lst := f } } := ⟨Nat.le_refl _, fun _ h => h, fun _ h => h⟩
    exact .inr ⟨⟨listen_calm h.calm b, h.vow.onw o rfl⟩, o, fun v dd hv => hv⟩

theorem Later.onw (h : Faith s) (hl : Later E s s') : s'.dead = true ∨ (Faith s' ∧ Onw s s') := by
  induction hl with
  | refl => exact .inr ⟨h, .refl _⟩
  | call _ hc ih =>
    obtain ⟨a, b⟩ := ih.resolve_left (by rw [hc.dead]; simp)
    exact (hc.onw a).imp_right (fun x => ⟨x.1, b.trans x.2⟩)

theorem Later.alive (hl : Later E s s') (h : s'.dead = false) : s.dead = false := by
  induction hl with
  | refl => exact h
  | call _ hc ih => exact ih hc.dead

theorem Play.faith (h : Play E s) : s.dead = true ∨ Faith s := by
  obtain ⟨z, hz, l⟩ := play_iff.1 h
  exact (l.onw ⟨init_calm hz, Sat.init_vow⟩).imp_right (·.1)

/-! ### What the constraint literals mean -/

/-- At root level the distances bound the positions. -/
theorem World.bound {α : Asg} {X : Nat → W} (h : s.Calm firm) (hr : s.root = true) (hw : World s α X) {i j : Nat} (hi : i < s.th.nv) (hj : j < s.th.nv) : ((X j - X i : W) : WithTop W) ≤ s.th.d i j := by
  refine fits_dist h (fun v dd sg hv hsg => ?_) hi hj
  have hs : α.sat ⟨v, sg⟩ := hw.rt.root_true h.tw hr ((Sat.value_true s ⟨v, sg⟩).2 hsg)
  rw [← hw.vd v dd hv]
  simp only [Asg.sat] at hs
  rw [hs]

theorem World.const {α : Asg} {X : Nat → W} (hw : World s α X) (P : Prop) [Decidable P] : α.sat (constLit (decide P)) ↔ P := by
  by_cases hP : P
  · simp only [hP, decide_true, constLit, if_true, iff_true]; simp [Asg.sat, trueLit, hw.rt.fls]
  · simp only [hP, decide_false, constLit, iff_false]; simp [Asg.sat, falseLit, hw.rt.fls]

theorem newDistance_means {i j : Nat} {w : W} {p : Lit} (h : Faith s) (hr : s.root = true) (hi : i < s.th.nv) (hj : j < s.th.nv) (hn : newDistance s i j w = .ok (s', p)) {α : Asg} {X : Nat → W} (hw : World s' α X) :
    α.sat p ↔ X j - X i ≤ w := by
  have o := (newDistance_onw h hi hj hn).2.1.world hw
  have b1 := o.bound h.calm hr hi hj
  have b2 := o.bound h.calm hr hj hi
  unfold newDistance at hn
  split at hn
  swap
  · cases hn
  split at hn
  · next h1 =>
    injection hn with hn; injection hn with e1 e2; subst e2
    refine ⟨fun hs => absurd hs (by simp [Asg.sat, falseLit, hw.rt.fls]), fun hle => ?_⟩
    have := b2.trans_lt h1
    norm_cast at this
    grind
  split at hn
  · next h2 =>
    injection hn with hn; injection hn with e1 e2; subst e2
    refine ⟨fun _ => ?_, fun _ => by simp [Asg.sat, trueLit, hw.rt.fls]⟩
    exact_mod_cast b1.trans h2
  · simp only at hn
    injection hn with hn; injection hn with e1 e2
    subst e1 e2
    have := hw.vd s.nvars ⟨s.nvars, i, j, w⟩ (by show (s.th.register ⟨s.nvars, i, j, w⟩).vd s.nvars = _; simp [DL.register, upd])
    simpa [Asg.sat, Sat.newVar] using this

theorem Shape.means {p : Lit} {Q : (Nat → W) → Prop} (h : Faith s) (hr : s.root = true) (hs : Shape E s s' p Q) : s'.dead = true ∨ ∀ α X, World s' α X → (α.sat p ↔ Q X) := by
  cases hs with
  | const => exact .inr (fun α X hw => hw.const _)
  | dist hi hj hn => exact .inr (fun α X hw => newDistance_means h hr hi hj hn hw)
  | @two s1 s2 s3 l1 l2 p i j w i' j' w' hi hj h1 hi' hj' h2 hn =>
    obtain ⟨f1, o1, r1⟩ := newDistance_onw h hi hj h1
    have n1 := (newDistance_nv h1).1
    have hi2 : i' < s1.th.nv := by rw [n1]; exact hi'
    have hj2 : j' < s1.th.nv := by rw [n1]; exact hj'
    obtain ⟨f2, o2, r2⟩ := newDistance_onw f1 hi2 hj2 h2
    refine (newConj_onw f2 hn).imp_right (fun ⟨f3, o3, r3, m⟩ α X hw => ?_)
    have w2 := o3.world hw
    show _ ↔ (X j - X i ≤ w ∧ X j' - X i' ≤ w')
    rw [m α hw.rt, ← newDistance_means h hr hi hj h1 (o2.world w2), ← newDistance_means f1 (by rw [r1]; exact hr) hi2 hj2 h2 w2]
    simp [Asg.all]
  | never ha hbb hneg =>
    refine .inr (fun α X hw => ⟨fun hs => absurd hs (by simp [Asg.sat, falseLit, hw.rt.fls]), fun hq => ?_⟩)
    exfalso
    apply hneg
    constructor
    · refine le_trans ?_ (hw.bound h.calm hr hbb ha)
      norm_cast
      grind
    · refine le_trans ?_ (hw.bound h.calm hr ha hbb)
      norm_cast
      grind

/-- The solutions the core ends with. -/
theorem final_world (h : s.Calm firm) (hq : s.propQ = []) (hall : ∀ v, v < s.nvars → s.assigns v ≠ none) {X : Nat → W} (hX : Fits s X) : World s (fun v => s.assigns v = some true) X :=
  ⟨h.rt hq hall, (solution h hq hall hX).2.2⟩

/-- The end of a session that started with `s`. -/
theorem Later.final (hF : Faith s) {u u' : Sat (DL W)} (hu : Later E s u) {op : Sat.Op} (hl : u.Legal op) (hop : Propagates op) (hs : u.step E ops op = .ok (u', .bool true)) : u'.Calm firm ∧ u'.propQ = [] ∧ Onw s u' := by
  obtain ⟨a, b⟩ := (hu.onw hF).resolve_left (by rw [hl.1]; simp)
  have hp : Sat.Propagating op := by cases op <;> exact hop
  obtain ⟨c1, c2, -, c4, -⟩ := Sat.quiet_onw a.calm a.vow hl hp hs
  have k := ((Sat.step_calm (a.calm.with (keeps_vd u.th.vd) rfl) hl (fun v i e => by rw [e] at hop; exact hop) hs).2 hp rfl).1
  exact ⟨c1, c2, b.trans ⟨c4, fun v dd hv => by rw [k.without.2]; exact hv⟩⟩

/-! ### C74 -/

/-- C74: in every session, let a call of the core (`new_clause`, `new_conj`, `new_disj`, `new_eq`, `new_at_most_one`, `new_exct_one`) return `out`. After any further calls, if a call that propagates returns true and every
variable is assigned, the values of the literals are as the call promised. -/
theorem C74_core (h : Play E s) {op : Sat.Op} {out : Sat.Out} (hl : s.Legal op) (hop : MayCall op) (hs : s.step E ops op = .ok (s', out)) {u u' : Sat (DL W)} (hu : Later E s' u) {op' : Sat.Op} (hl' : u.Legal op')
    (hop' : Propagates op') (hs' : u.step E ops op' = .ok (u', .bool true)) (hall : ∀ v, v < u'.nvars → u'.assigns v ≠ none) : s.Promise op out (fun v => u'.assigns v = some true) := by
  have ff := h.faith.resolve_left (by rw [hl.1]; simp)
  have alive : ¬ s'.dead = true := by rw [hu.alive hl'.1]; simp
  have m := (Sat.step_promise ff.calm ff.vow hl hs).resolve_left alive
  have f1 := ((step_onw ff hl hop hs).resolve_left alive).1
  obtain ⟨a, b, c⟩ := hu.final f1 hl' hop' hs'
  exact m _ (c.rt (a.rt b hall))

/-- C74: let `new_distance(i, j, w)` return `p`, at root level. After any further calls, if a call that propagates returns true and every variable is assigned, `p` is true exactly when `X j - X i <= w`, whatever the positions
`X` that satisfy the decided literals (there are some: C62). -/
theorem C74_distance (h : Play E s) (hd : s.dead = false) (hr : s.root = true) {i j : Nat} {w : W} {p : Lit} (hi : i < s.th.nv) (hj : j < s.th.nv) (hn : newDistance s i j w = .ok (s', p)) {u u' : Sat (DL W)}
    (hu : Later E s' u) {op : Sat.Op} (hl : u.Legal op) (hop : Propagates op) (hs : u.step E ops op = .ok (u', .bool true)) (hall : ∀ v, v < u'.nvars → u'.assigns v ≠ none) {X : Nat → W} (hX : Fits u' X) :
    Asg.sat (fun v => u'.assigns v = some true) p ↔ X j - X i ≤ w := by
  have ff := h.faith.resolve_left (by rw [hd]; simp)
  obtain ⟨a, b, c⟩ := hu.final (newDistance_onw ff hi hj hn).1 hl hop hs
  exact newDistance_means ff hr hi hj hn (c.world (final_world a b hall hX))

/-- C74: let `new_distance(i, j, min, max)` return `p`, at root level: at the end `p` is true exactly when `min <= X j - X i <= max`. -/
theorem C74_distance2 (h : Play E s) (hd : s.dead = false) (hr : s.root = true) {i j : Nat} {mn mx : W} {p : Lit} (hi : i < s.th.nv) (hj : j < s.th.nv) (hn : newDistance2 E s i j mn mx = .ok (s', p)) {u u' : Sat (DL W)}
    (hu : Later E s' u) {op : Sat.Op} (hl : u.Legal op) (hop : Propagates op) (hs : u.step E ops op = .ok (u', .bool true)) (hall : ∀ v, v < u'.nvars → u'.assigns v ≠ none) {X : Nat → W} (hX : Fits u' X) :
    Asg.sat (fun v => u'.assigns v = some true) p ↔ mn ≤ X j - X i ∧ X j - X i ≤ mx := by
  have ff := h.faith.resolve_left (by rw [hd]; simp)
  have alive : ¬ s'.dead = true := by rw [hu.alive hl.1]; simp
  unfold newDistance2 at hn
  cases h1 : newDistance s j i (-mn) with
  | error e => rw [h1] at hn; cases hn
  | ok v1 =>
    obtain ⟨s1, l1⟩ := v1
    rw [h1] at hn
    simp only at hn
    cases h2 : newDistance s1 i j mx with
    | error e => rw [h2] at hn; cases hn
    | ok v2 =>
      obtain ⟨s2, l2⟩ := v2
      rw [h2] at hn
      simp only at hn
      obtain ⟨f1, o1, r1⟩ := newDistance_onw ff hj hi h1
      have n1 := (newDistance_nv h1).1
      obtain ⟨f2, o2, r2⟩ := newDistance_onw f1 (by rw [n1]; exact hi) (by rw [n1]; exact hj) h2
      obtain ⟨f3, -⟩ := (newConj_onw f2 hn).resolve_left alive
      obtain ⟨a, b, c⟩ := hu.final f3 hl hop hs
      have m := ((Shape.two (E := E) hj hi h1 hi hj h2 hn).means ff hr).resolve_left alive _ X (c.world (final_world a b hall hX))
      rw [m]
      refine and_congr_left (fun _ => ?_)
      rw [← neg_sub, neg_le_neg_iff]

/-- C74: let `new_lt`, `new_leq`, `new_eq`, `new_geq`, `new_gt` return `p`, at root level (the case of `new_gt` in which the integer theory calls the wrong function, C33, is excluded). After any further calls, if a call that
propagates returns true and every variable is assigned, `p` is true exactly when the relation holds, whatever the positions `x` that satisfy the decided literals (the origin being at 0). -/
theorem C74_relation {V : Type} (I : Interp V W) (h : Play E s) (hd : s.dead = false) (hr : s.root = true) {R : Rel} {l r : Lin} {p : Lit} (hlc : l.Canon) (hrc : r.Canon) (hlv : ∀ t ∈ l.vars, t.1 < s.th.nv)
    (hrv : ∀ t ∈ r.vars, t.1 < s.th.nv) (hb : ¬ GtBug W R l r) (hn : newRel E R s l r = .ok (s', p)) {u u' : Sat (DL W)} (hu : Later E s' u) {op : Sat.Op} (hl : u.Legal op) (hop : Propagates op)
    (hs : u.step E ops op = .ok (u', .bool true)) (hall : ∀ v, v < u'.nvars → u'.assigns v ≠ none) {x : Nat → V} (hx : I.q (x 0) = 0) (hX : Fits u' (fun i => I.emb (x i))) :
    Asg.sat (fun v => u'.assigns v = some true) p ↔ R.holds (l.eval 1 (fun i => I.q (x i))) (r.eval 1 (fun i => I.q (x i))) := by
  have ff := h.faith.resolve_left (by rw [hd]; simp)
  have alive : ¬ s'.dead = true := by rw [hu.alive hl.1]; simp
  obtain ⟨As, hg, -⟩ := (calm_fi ff.calm).held
  obtain ⟨Q, sh, hQ⟩ := newRel_shape I (E := E) hg.core.one hlc hrc hlv hrv hb hn
  obtain ⟨f1, -⟩ := (newRel_onw ff hlc hrc hlv hrv hn).resolve_left alive
  obtain ⟨a, b, c⟩ := hu.final f1 hl hop hs
  rw [(sh.means ff hr).resolve_left alive _ _ (c.world (final_world a b hall hX)), hQ x hx]

end DL
end Semitone
