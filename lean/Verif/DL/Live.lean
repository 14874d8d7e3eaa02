import Verif.DL.Sys
import Verif.DL.PropsA
import Verif.Sat.LiveOps

/-!
# Difference logic keeps the core going

Apart from the excluded propagations (`DL.safe`), the theory never fails when the core calls it, tells the core every constraint that the distances decide,
and, when it finds no conflict, the literals assigned are satisfied by some positions of the time points.
-/
namespace Semitone
namespace DL
variable {W : Type} [AddCommGroup W] [LinearOrder W] [IsOrderedAddMonoid W] [Dom W]

/-- The distances `d` imply that `dd` has the truth value `sg`. -/
def Ent (d : Nat → Nat → WithTop W) (dd : Dist W) (sg : Bool) : Prop := d (es (dd, sg)) (et (dd, sg)) ≤ ((ew (dd, sg) : W) : WithTop W)

theorem ent_true {d : Nat → Nat → WithTop W} {dd : Dist W} : Ent d dd true ↔ d dd.src dd.tgt ≤ (dd.w : WithTop W) := Iff.rfl

theorem ent_false {d : Nat → Nat → WithTop W} {dd : Dist W} : Ent d dd false ↔ d dd.tgt dd.src < ((-dd.w : W) : WithTop W) := top_lt_neg_iff.symm

theorem Ent.mono {d d' : Nat → Nat → WithTop W} {dd : Dist W} {sg : Bool} (h : Ent d dd sg) (hd : ∀ i j, d' i j ≤ d i j) : Ent d' dd sg := (hd _ _).trans h

/-- The distances `k` levels down. -/
def matAt : (Nat → Nat → WithTop W) → List (Layer W) → Nat → Nat → Nat → WithTop W
  | d, _, 0 => d
  | d, [], _ + 1 => d
  | d, L :: Ls, k + 1 => matAt (fun i j => (L.oldD i j).getD (d i j)) Ls k

theorem matAt_zero (d : Nat → Nat → WithTop W) (Ls : List (Layer W)) : matAt d Ls 0 = d := by cases Ls <;> rfl

/-- At the level whose literals are `A` and whose distances are `d`: every constraint that is listened to or settled, every literal told is implied by the distances,
and the distances decide no constraint whose literal is unassigned. -/
structure Now (V : Nat → Option (Dist W)) (b : Nat → List Nat) (d : Nat → Nat → WithTop W) (A P : Lit → Prop) : Prop where
  bound : ∀ v dd, V v = some dd → b v = [0] ∨ (b v = [] ∧ ∃ sg, A ⟨v, sg⟩ ∧ Ent d dd sg)
  told : ∀ v dd sg, V v = some dd → A ⟨v, sg⟩ → P ⟨v, sg⟩ ∨ Ent d dd sg
  und : ∀ v dd, V v = some dd → (∀ sg, ¬ A ⟨v, sg⟩) → ∀ sg, ¬ Ent d dd sg

/-- What the core relies on. -/
structure LI (t : DL W) (nv : Nat) (b : Nat → List Nat) (n : Nat) (A : Nat → Lit → Prop) (P : Lit → Prop) : Prop where
  len : t.layers.length = n
  rng : ∀ v dd, t.vd v = some dd → v < nv
  dcs : ∀ v dd, t.vd v = some dd → dd ∈ t.dcs dd.src dd.tgt
  free : ∀ v, t.vd v = none → b v = []
  top : Now t.vd b t.d (A n) P
  low : ∀ i, i < n → Now t.vd b (matAt t.d t.layers (n - i)) (A i) (fun _ => False)

theorem Now.adv {V : Nat → Option (Dist W)} {b : Nat → List Nat} {d : Nat → Nat → WithTop W} {A A' P P' : Lit → Prop} (h : Now V b d A P) (h1 : ∀ q, A q → A' q)
    (h2 : ∀ q, A' q → A q ∨ P' q) (h3 : ∀ q, P q → P' q) : Now V b d A' P' := by
  refine ⟨fun v dd hv => ?_, fun v dd sg hv ha => ?_, fun v dd hv ha => h.und v dd hv (fun sg hs => ha sg (h1 _ hs))⟩
  · rcases h.bound v dd hv with e | ⟨e, sg, a, c⟩
    · exact .inl e
    · exact .inr ⟨e, sg, h1 _ a, c⟩
  · rcases h2 _ ha with ha | ha
    · rcases h.told v dd sg hv ha with h' | h'
      · exact .inl (h3 _ h')
      · exact .inr h'
    · exact .inl ha

theorem LI.adv {t : DL W} {nv nv' b n A A' P P'} (h : LI t nv b n A P) (hn : nv ≤ nv') (h1 : ∀ i q, i ≤ n → A i q → A' i q) (h2 : ∀ i q, i < n → A' i q → A i q)
    (h3 : ∀ q, A' n q → A n q ∨ P' q) (h4 : ∀ q, P q → P' q) : LI t nv' b n A' P' :=
  ⟨h.len, fun v dd hv => (h.rng v dd hv).trans_le hn, h.dcs, h.free, h.top.adv (fun q => h1 n q (Nat.le_refl _)) h3 h4,
    fun i hi => (h.low i hi).adv (fun q => h1 i q hi.le) (fun q hq => .inl (h2 i q hi hq)) (fun _ h => h)⟩

theorem LI.pop {t : DL W} {nv b n A P} (h : LI t nv b (n + 1) A P) : ∃ t', t.pop = .ok t' ∧ LI t' nv b n A (fun _ => False) := by
  cases hl : t.layers with
  | nil => have := h.len; rw [hl] at this; cases this
  | cons L Ls =>
    refine ⟨_, pop_eq hl, ?_⟩
    have hlen := h.len
    rw [hl] at hlen
    have low := h.low
    rw [hl] at low
    refine ⟨by simpa using hlen, h.rng, h.dcs, h.free, ?_, fun i hi => ?_⟩
    · have := low n (Nat.lt_succ_self n)
      rw [show n + 1 - n = 0 + 1 by omega, matAt, matAt_zero] at this
      exact this
    · have := low i (by omega)
      rw [show n + 1 - i = (n - i) + 1 by omega] at this
      exact this

theorem LI.push {t : DL W} {nv b n A P} (h : LI t nv b n A P) (hP : ∀ q, ¬ P q) (hA : ∀ q, A (n + 1) q ↔ A n q) : LI t.push nv b (n + 1) A (fun _ => False) := by
  refine ⟨by simp [DL.push, h.len], h.rng, h.dcs, h.free, ?_, fun i hi => ?_⟩
  · exact h.top.adv (fun q => (hA q).mpr) (fun q hq => .inl ((hA q).mp hq)) (fun q hq => absurd hq (hP q))
  · rw [show n + 1 - i = (n - i) + 1 by omega]
    show Now t.vd b (matAt t.d t.layers (n - i)) (A i) _
    rcases Nat.eq_or_lt_of_le (Nat.le_of_lt_succ hi) with rfl | hi
    · rw [Nat.sub_self, matAt_zero]
      exact h.top.adv (fun _ h => h) (fun _ h => .inl h) (fun q hq => absurd hq (hP q))
    · exact h.low i hi

/-- The distances below the current level are those that `pop` restores. -/
theorem matAt_view {t t' : DL W} (h : t'.view = t.view) (k : Nat) : t'.layers.length = t.layers.length ∧ (k < t.layers.length → matAt t'.d t'.layers (k + 1) = matAt t.d t.layers (k + 1)) := by
  unfold view at h
  cases hl : t.layers with
  | nil =>
    cases hl' : t'.layers with
    | nil => simp
    | cons => simp [hl, hl'] at h
  | cons L Ls =>
    cases hl' : t'.layers with
    | nil => simp [hl, hl'] at h
    | cons L' Ls' =>
      simp only [hl, hl', Option.some.injEq, Prod.mk.injEq] at h
      obtain ⟨h1, -, h2⟩ := h
      refine ⟨by simp [h2], fun _ => ?_⟩
      simp only [matAt, h1, h2]

/-- The explanation of a distance that the new edge has shortened names the new edge, and names nothing twice. -/
theorem explain_new {t t' : DL W} {F : List (Dist W × Bool)} {e : Dist W × Bool} {cu : List (Nat × Nat)} (c : Core t F) (sp : Step t t' e cu) (g : CoreG t' (e :: F))
    {val : Lit → Option Bool} (hc : Coh val) (ha : Agrees val (e :: F)) {i j : Nat} (hi : i < t.nv) (hj : j < t.nv) (hlt : t'.d i j < t.d i j) :
    ∃ L, t'.explain val i t'.nv j = .ok L ∧ (∀ l ∈ L, val l = some false) ∧ (⟨e.1.b, !e.2⟩ : Lit) ∈ L ∧ L.Nodup := by
  have hi' : i < t'.nv := by rw [sp.nv]; exact hi
  have hj' : j < t'.nv := by rw [sp.nv]; exact hj
  obtain ⟨l, hl⟩ := g.pth.walk i j hi' hj' (ne_top_of_lt hlt)
  obtain ⟨E, h1, h2, h3, h4⟩ := explain_spec (ha.pos hc) (g.core.closed.diag i hi') hl t'.nv hl.length_le
  refine ⟨_, h2, fun q hq => ?_, ?_, ?_⟩
  · obtain ⟨x, hx, rfl⟩ := List.mem_map.mp hq
    have := hc ⟨x.1.b, x.2⟩
    rw [ha x (h1 x hx)] at this
    exact this
  · by_cases he : e ∈ E
    · exact List.mem_map.mpr ⟨e, he, rfl⟩
    · exfalso
      have hE : ∀ x ∈ E, x ∈ F := fun x hx => (List.mem_cons.mp (h1 x hx)).resolve_left (fun h => he (h ▸ hx))
      have key : ∀ X, Pot t.nv t.d X → ((X j - X i : W) : WithTop W) ≤ t'.d i j := fun X hX => h3 X (fun x hx => pot_satF c hX x (hE x hx))
      obtain ⟨f1, f2⟩ := far_pot c.closed hi hj
      cases hd' : t'.d i j with
      | top => rw [hd'] at hlt; simp at hlt
      | coe a =>
        rw [hd'] at key hlt
        cases hd : t.d i j with
        | top =>
          obtain ⟨X, hX, hM⟩ := f2 hd a
          have := key X hX
          norm_cast at this
          exact absurd this (not_le.mpr hM)
        | coe x =>
          obtain ⟨X, hX, hM⟩ := f1 x hd
          have := key X hX
          rw [hM] at this
          rw [hd] at hlt
          exact absurd hlt (not_lt.mpr this)
  · have hn := hl.nodup
    rw [← h4] at hn
    have hn' := List.pairwise_map.mp hn
    refine List.pairwise_map.mpr (hn'.imp_of_mem (fun {x y} hx hy hne e => hne ?_))
    injection e with e1 e2
    have e2 : x.2 = y.2 := by simpa using e2
    have r1 := g.reg x (h1 x hx)
    have r2 := g.reg y (h1 y hy)
    rw [e1, r2] at r1
    injection r1 with r1
    rw [Prod.ext r1.symm e2]

/-- The loop that records the decided constraints. -/
theorem emit_live {t t' : DL W} {F : List (Dist W × Bool)} {e : Dist W × Bool} {cu : List (Nat × Nat)} (c : Core t F) (sp : Step t t' e cu) (g : CoreG t' (e :: F)) (hr : Regs t')
    {Q : DL W → (Nat → Lit → Prop) → (Lit → Prop) → Prop} {R : DL W → (Nat → Lit → Prop) → Prop} {n nv : Nat} {p : Lit} (hp : (⟨e.1.b, !e.2⟩ : Lit) = p.neg)
    (hnv : ∀ v dd, t'.vd v = some dd → v < nv) {A0 : Nat → Lit → Prop} {P0 : Lit → Prop}
    (hQ : ∀ A P, (∀ i q, i ≤ n → A0 i q → A i q) → (∀ i q, i < n → A i q → A0 i q) → (∀ q, A n q → A0 n q ∨ P q) → (∀ q, P0 q → P q) →
      (∀ v dd, t'.vd v = some dd → (∀ sg, ¬ A n ⟨v, sg⟩) → ∀ sg, ¬ Ent t'.d dd sg) → Q t' A P) :
    ∀ (ds : List (Dist W)) (A : Nat → Lit → Prop) (P : Lit → Prop) (val : Lit → Option Bool), (∀ i q, i ≤ n → A0 i q → A i q) → (∀ i q, i < n → A i q → A0 i q) →
      (∀ q, A n q → A0 n q ∨ P q) → (∀ q, P0 q → P q) → (∀ q, A n q ↔ val q = some true) → Coh val → Agrees val (e :: F) →
      (∀ dd ∈ ds, t'.vd dd.b = some dd) → (∀ v dd, t'.vd v = some dd → val ⟨v, true⟩ = none → ∀ sg, ¬ Ent t.d dd sg) →
      (∀ v dd, t'.vd v = some dd → val ⟨v, true⟩ = none → dd ∈ ds ∨ ∀ sg, ¬ Ent t'.d dd sg) →
      ActLive (fun e => e = .excluded) Q R n nv p A P val (t'.emit ds val)
  | [], A, P, val, h1, h2, h3, h4, hv, hc, ha, hd, h5, h6 => by
    refine .ok (hQ A P h1 h2 h3 h4 (fun v dd hvd hA => (h6 v dd hvd ?_).resolve_left (fun h => by cases h)))
    cases hx : val ⟨v, true⟩ with
    | none => rfl
    | some b =>
      refine absurd ((hv ⟨v, b⟩).mpr ?_) (hA b)
      cases b with
      | true => exact hx
      | false =>
        have := hc ⟨v, true⟩
        rw [hx] at this
        exact this
  | dd :: ds, A, P, val, h1, h2, h3, h4, hv, hc, ha, hd, h5, h6 => by
    have hvd := hd dd List.mem_cons_self
    obtain ⟨hb, hs, ht, _⟩ := hr.vd _ _ hvd
    rw [sp.nv] at hs ht
    have skip : (val ⟨dd.b, true⟩ = none → ∀ sg, ¬ Ent t'.d dd sg) → ActLive (fun e => e = .excluded) Q R n nv p A P val (t'.emit ds val) := fun hu => by
      refine emit_live c sp g hr hp hnv hQ ds A P val h1 h2 h3 h4 hv hc ha (fun x hx => hd x (List.mem_cons_of_mem _ hx)) h5 (fun v x hx hn => ?_)
      rcases h6 v x hx hn with h | h
      · rcases List.mem_cons.mp h with rfl | h
        · obtain ⟨hb', _⟩ := hr.vd _ _ hx
          exact .inr (hu (by rw [hb']; exact hn))
        · exact .inl h
      · exact .inr h
    have rec1 : ∀ sg L, val ⟨dd.b, true⟩ = none → (∀ l ∈ L, val l = some false) → (⟨e.1.b, !e.2⟩ : Lit) ∈ L → L.Nodup →
        ActLive (fun e => e = .excluded) Q R n nv p A P val (.record (⟨dd.b, sg⟩ :: L) (fun v => t'.emit ds v)) := by
      intro sg L hn hf hm hnd
      have hn' : val ⟨dd.b, sg⟩ = none := by
        cases sg with
        | true => exact hn
        | false =>
          have := hc ⟨dd.b, true⟩
          rw [hn] at this
          exact this
      refine .record hn' (hnv _ _ hvd) hf (hp ▸ hm) (hnd.imp (fun {a b} hne e => absurd e hne)) ?_
      intro A' P' v g1 g2 g3 g0 g4 g5 g6 g7
      have grow : ∀ q, val q = some true → v q = some true := fun q hq => (g6 q).mp (g1 n q (Nat.le_refl _) ((hv q).mpr hq))
      have unas : ∀ x, v ⟨x, true⟩ = none → val ⟨x, true⟩ = none := by
        intro x hx
        cases hy : val ⟨x, true⟩ with
        | none => rfl
        | some b =>
          cases b with
          | true => rw [grow _ hy] at hx; cases hx
          | false =>
            have a := hc ⟨x, true⟩
            rw [hy] at a
            have a2 := grow _ a
            have a3 := g7 ⟨x, true⟩
            rw [a2, hx] at a3
            cases a3
      refine emit_live c sp g hr hp hnv hQ ds A' P' v (fun i q hi hq => g1 i q hi (h1 i q hi hq)) (fun i q hi hq => h2 i q hi (g2 i q hi hq)) (fun q hq => ?_)
        (fun q hq => g4 q (h4 q hq)) g6 g7 (fun x hx => grow _ (ha x hx)) (fun x hx => hd x (List.mem_cons_of_mem _ hx)) (fun x y hx hy => h5 x y hx (unas x hy)) (fun x y hx hy => ?_)
      · rcases g3 q hq with h | h
        · rcases h3 q h with h | h
          · exact .inl h
          · exact .inr (g4 q h)
        · rw [h]; exact .inr g5
      · rcases h6 x y hx (unas x hy) with h | h
        · rcases List.mem_cons.mp h with rfl | h
          · exfalso
            obtain ⟨hb', _⟩ := hr.vd _ _ hx
            rw [← hb'] at hy
            have : v ⟨y.b, sg⟩ = some true := (g6 _).mp g0
            cases sg with
            | true => rw [this] at hy; cases hy
            | false =>
              have a := g7 ⟨y.b, true⟩
              rw [hy] at a
              rw [show (⟨y.b, true⟩ : Lit).neg = ⟨y.b, false⟩ from rfl, this] at a
              cases a
          · exact .inl h
        · exact .inr h
    unfold emit
    split
    · next hn =>
      have hu := h5 _ _ hvd hn
      split
      · next h7 =>
        have h8 : t'.d dd.tgt dd.src < t.d dd.tgt dd.src := lt_of_lt_of_le h7 (not_lt.mp (fun h => hu false (ent_false.mpr h)))
        obtain ⟨L, k1, k2, k3, k4⟩ := explain_new c sp g hc ha ht hs h8
        rw [k1]
        exact rec1 false L hn k2 k3 k4
      · next h7 =>
        split
        · next h8 =>
          have h9 : t'.d dd.src dd.tgt < t.d dd.src dd.tgt := lt_of_le_of_lt h8 (not_le.mp (fun h => hu true (ent_true.mpr h)))
          obtain ⟨L, k1, k2, k3, k4⟩ := explain_new c sp g hc ha hs ht h9
          rw [k1]
          exact rec1 true L hn k2 k3 k4
        · next h8 =>
          refine skip (fun _ sg => ?_)
          cases sg with
          | true => exact fun h => h8 (ent_true.mp h)
          | false => exact fun h => h7 (ent_false.mp h)
    · next hn => exact skip (fun h => absurd h hn)

theorem step_le {t t' : DL W} {e : Dist W × Bool} {cu : List (Nat × Nat)} (sp : Step t t' e cu) (i j : Nat) : t'.d i j ≤ t.d i j := by
  by_cases h : i < t.nv ∧ j < t.nv
  · rw [sp.rel.d_in i j h.1 h.2]; exact relax_le i j
  · rw [sp.rel.d_out i j h]

theorem step_und {t t' : DL W} {e : Dist W × Bool} {cu : List (Nat × Nat)} (sp : Step t t' e cu) {dd : Dist W} (hs : dd.src < t.nv) (ht : dd.tgt < t.nv)
    (hm : dd ∈ t'.dcs dd.src dd.tgt) (hu : ∀ sg, ¬ Ent t.d dd sg) : dd ∈ cu.flatMap (fun q => t'.dcs q.1 q.2) ∨ ∀ sg, ¬ Ent t'.d dd sg := by
  by_cases h : ∃ sg, Ent t'.d dd sg
  · left
    obtain ⟨sg, h⟩ := h
    have hlt : t'.d (es (dd, sg)) (et (dd, sg)) < t.d (es (dd, sg)) (et (dd, sg)) := lt_of_le_of_lt h (not_le.mp (hu sg))
    have hsn : es (dd, sg) < t.nv := by unfold es; split <;> assumption
    have htn : et (dd, sg) < t.nv := by unfold et; split <;> assumption
    rw [sp.rel.d_in _ _ hsn htn] at hlt
    have hcu := sp.rel.cu_all _ _ hsn htn hlt
    rw [List.mem_flatMap]
    cases sg with
    | true => exact ⟨_, hcu.1, hm⟩
    | false => exact ⟨_, hcu.2, hm⟩
  · exact .inr (fun sg hs => h ⟨sg, hs⟩)

theorem LI.prop {V : Nat → Option (Dist W)} {t : DL W} {nv b n A P P1 val p} (h : LI t nv b n A P1) (hT : TI V t n A) (hP : ∀ q, P1 q → P q ∨ q = p)
    (hval : ∀ q, A n q ↔ val q = some true) (hc : Coh val) (hp : val p = some true) :
    (b p.var = [] ∧ LI t nv b n A P) ∨
    ∃ i, b p.var = [i] ∧ ActLive (fun e => e = .excluded) (fun t A P => LI t nv b n A P ∧ (n = 0 → LI t nv (upd b p.var []) n A P)) (fun t A => LI t nv b n A (fun _ => True)) n nv p
      A P val (safeOps.propagate i t val p) := by
  have self : (∀ dd, t.vd p.var = some dd → Ent t.d dd p.sign) → LI t nv b n A P := fun hE => by
    refine ⟨h.len, h.rng, h.dcs, h.free, ⟨h.top.bound, fun v dd sg hv ha => ?_, h.top.und⟩, h.low⟩
    rcases h.top.told v dd sg hv ha with h' | h'
    · rcases hP _ h' with h' | h'
      · exact .inl h'
      · rw [← h'] at hE
        exact .inr (hE dd hv)
    · exact .inr h'
  cases hv : t.vd p.var with
  | none => exact .inl ⟨h.free _ hv, self (fun dd hd => by rw [hv] at hd; cases hd)⟩
  | some dd =>
    have same : ∀ sg, A n ⟨p.var, sg⟩ → sg = p.sign := by
      intro sg hs
      by_contra hne
      have e : (⟨p.var, sg⟩ : Lit) = p.neg := by
        cases p; rename_i x y; cases sg <;> cases y <;> simp_all [Lit.neg]
      rw [e, hval, hc p, hp] at hs
      cases hs
    rcases h.top.bound _ _ hv with hb0 | ⟨hb0, sg, ha, he⟩
    swap
    · refine .inl ⟨hb0, self (fun dd' hd => ?_)⟩
      rw [hv] at hd
      injection hd with hd
      subst hd
      rw [← same sg ha]; exact he
    refine .inr ⟨0, hb0, ?_⟩
    show ActLive _ _ _ n nv p A P val (if t.safe val p then t.propagate val p else .fail .excluded)
    split
    swap
    · exact .fail rfl
    next hsafe =>
    obtain ⟨⟨hV, hr⟩, As, hg, hl, hAs⟩ := hT
    obtain ⟨a, B, rfl⟩ := hg.ne
    have g := hg.coreG
    obtain ⟨hb, hs, ht, hne⟩ := hr.vd _ _ hv
    have hval' : val ⟨dd.b, true⟩ = some p.sign := by
      cases hps : p.sign with
      | true =>
        have : (⟨dd.b, true⟩ : Lit) = p := by rw [hb, ← hps]
        rw [this, hp]
      | false =>
        have : (⟨dd.b, true⟩ : Lit) = p.neg := by rw [hb]; simp [Lit.neg, hps]
        rw [this, hc p, hp]
        rfl
    have hag : Agrees val (a :: B).flatten := fun e he => (hval _).mp (hAs n (Nat.le_refl n) e (by simpa using he))
    -- once told, the listener can be dropped at root level
    have drop : ∀ {t' A' P'}, t'.vd = t.vd → LI t' nv b n A' P' → A' n p → Ent t'.d dd p.sign → (LI t' nv b n A' P' ∧ (n = 0 → LI t' nv (upd b p.var []) n A' P')) := by
      intro t' A' P' hvd h' ha he
      refine ⟨h', fun hn => ⟨h'.len, h'.rng, h'.dcs, fun v hx => ?_, ⟨fun v x hx => ?_, h'.top.told, h'.top.und⟩, fun i hi => absurd hi (by omega)⟩⟩
      · by_cases e : v = p.var
        · rw [e, upd_self]
        · rw [upd_ne _ _ e]; exact h'.free v hx
      · by_cases e : v = p.var
        · subst e
          rw [hvd, hv] at hx
          injection hx with hx
          subst hx
          exact .inr ⟨upd_self _ _ _, p.sign, ha, he⟩
        · rw [upd_ne _ _ e]; exact h'.top.bound v x hx
    unfold propagate
    rw [hv]
    simp only
    rw [hval']
    simp only
    rw [if_pos ⟨g.core.cap, hs, ht⟩]
    have spec := assertD_spec g.core dd p.sign hs ht hne
    have hlit : (⟨dd.b, p.sign⟩ : Lit) = p := by rw [hb]
    split
    · next i j ho =>
      rw [ho] at spec
      obtain ⟨rfl, rfl, hlt⟩ := spec
      have hi : et (dd, p.sign) < t.nv := by unfold et; split <;> assumption
      have hj : es (dd, p.sign) < t.nv := by unfold es; split <;> assumption
      have hne' : es (dd, p.sign) ≠ et (dd, p.sign) := by unfold es et; split <;> [exact hne; exact hne.symm]
      obtain ⟨l, hl'⟩ := g.pth.walk _ _ hi hj (ne_top_of_lt hlt)
      obtain ⟨E, k1, k2, k3, k4⟩ := explain_spec (hag.pos hc) (g.core.closed.diag _ hi) hl' t.nv hl'.length_le
      rw [k2]
      refine .confl (h.adv (Nat.le_refl _) (fun _ _ _ h => h) (fun _ _ _ h => h) (fun _ h => .inl h) (fun _ _ => trivial)) (by simp) ?_
      have : l ≠ [] := by
        rintro rfl
        generalize es (dd, p.sign) = x at hl' hne'
        cases hl'
        exact hne' rfl
      have hE : E ≠ [] := by rintro rfl; exact this k4.symm
      have : 0 < E.length := List.length_pos_iff.mpr hE
      simp only [List.length_append, List.length_map, List.length_singleton]
      omega
    · next ho =>
      rw [ho] at spec
      obtain ⟨-, -, -, he⟩ := spec
      refine .ok (drop rfl (self (fun dd' hd => ?_)) ((hval p).mpr hp) he)
      rw [hv] at hd
      injection hd with hd
      subst hd
      exact he
    · next t' cu ho =>
      rw [ho] at spec
      simp only at spec
      have hg' := goodG_lit hg hv hval' hsafe hb hs ht hne (Or.inr ⟨cu, ho⟩)
      have g' := hg'.coreG
      rw [if_neg (by rw [g'.core.ok]; simp)]
      have hr' : Regs t' := ⟨by rw [spec.nv, spec.vd]; exact hr.vd, by rw [spec.vd, spec.dcs]; exact hr.dcs⟩
      have hent : Ent t'.d dd p.sign := by
        obtain ⟨-, -, -, h4⟩ := g'.core.compl (dd, p.sign) (by simp)
        exact h4
      have unas : ∀ v dd', t.vd v = some dd' → val ⟨v, true⟩ = none → ∀ sg, ¬ Ent t.d dd' sg := by
        intro v dd' hv' hn
        refine h.top.und v dd' hv' (fun sg hs => ?_)
        rw [hval] at hs
        cases sg with
        | true => rw [hn] at hs; cases hs
        | false =>
          have a := hc ⟨v, true⟩
          rw [hn] at a
          rw [show (⟨v, true⟩ : Lit).neg = ⟨v, false⟩ from rfl, hs] at a
          cases a
      have hF : (((dd, p.sign) :: a) :: B).flatten = (dd, p.sign) :: (a :: B).flatten := by simp
      rw [hF] at g'
      refine emit_live (A0 := A) (P0 := P) g.core spec g' hr' (p := p) (by rw [← hlit]; rfl) (fun v x hx => h.rng v x (by rw [← spec.vd]; exact hx)) ?_ _ A P val (fun _ _ _ h => h) (fun _ _ _ h => h)
        (fun _ h => .inl h) (fun _ h => h) hval hc ?_ ?_ ?_ ?_
      · intro A' P' q1 q2 q3 q4 q5
        have hvw := spec.view hg.layok
        refine drop spec.vd ⟨(matAt_view hvw 0).1.trans h.len, fun v x hx => h.rng v x (by rw [← spec.vd]; exact hx), fun v x hx => by
            rw [spec.dcs]; exact h.dcs v x (by rw [← spec.vd]; exact hx), fun v hx => h.free v (by rw [← spec.vd]; exact hx), ⟨fun v x hx => ?_, fun v x sg hx hA => ?_, q5⟩, fun i hi => ?_⟩
          (q1 n p (Nat.le_refl _) ((hval p).mpr hp)) hent
        · rw [spec.vd] at hx
          rcases h.top.bound v x hx with e | ⟨e, sg, a1, a2⟩
          · exact .inl e
          · exact .inr ⟨e, sg, q1 n _ (Nat.le_refl _) a1, a2.mono (step_le spec)⟩
        · rw [spec.vd] at hx
          rcases q3 _ hA with h' | h'
          · rcases h.top.told v x sg hx h' with h' | h'
            · rcases hP _ h' with h' | h'
              · exact .inl (q4 _ h')
              · right
                have e1 : v = p.var := by rw [← h']
                have e2 : sg = p.sign := by rw [← h']
                subst e1
                rw [hv] at hx
                injection hx with hx
                subst hx
                rw [e2]; exact hent
            · exact .inr (h'.mono (step_le spec))
          · exact .inl h'
        · obtain ⟨k, hk⟩ : ∃ k, n - i = k + 1 := ⟨n - i - 1, by omega⟩
          have hlen := h.len
          rw [spec.vd, hk, (matAt_view hvw k).2 (by omega), ← hk]
          exact (h.low i hi).adv (fun q => q1 i q hi.le) (fun q hq => .inl (q2 i q hi hq)) (fun _ h => h)
      · intro x hx
        rcases List.mem_cons.mp hx with rfl | hx
        · simp only [hlit, hp]
        · exact hag x hx
      · intro x hx
        obtain ⟨q, _, hq⟩ := List.mem_flatMap.mp hx
        exact (hr'.dcs _ _ _ hq).1
      · intro v x hx; rw [spec.vd] at hx; exact unas v x hx
      · intro v x hx hn
        rw [spec.vd] at hx
        obtain ⟨-, xs, xt, -⟩ := hr.vd _ _ hx
        exact step_und spec xs xt (by rw [spec.dcs]; exact h.dcs v x hx) (unas v x hx hn)

theorem checkOk_of {t : DL W} {F : List (Dist W × Bool)} (c : Core t F) {val : Lit → Option Bool} (hv : ∀ e ∈ F, val ⟨e.1.b, true⟩ = some e.2) : t.checkOk val = true := by
  unfold checkOk
  simp only [List.all_eq_true, List.mem_range]
  intro i hi j hj
  cases hc : t.cur i j with
  | none => rfl
  | some dd =>
    obtain ⟨sg, h1, h2, h3⟩ := c.curF i j dd hc
    obtain ⟨_, _, _, h4⟩ := c.compl _ h1
    have := hv _ h1
    simp only at this
    simp only [this]
    cases sg with
    | true => simpa [es, et, ew] using h4
    | false =>
      simp only [decide_eq_true_eq]
      exact top_lt_neg_iff.mpr (by simpa [es, et, ew] using h4)

/-- Positions of the time points that respect the distances satisfy the literals the theory has been told. -/
theorem ent_holds {t : DL W} {X : Nat → W} (hX : Pot t.nv t.d X) {dd : Dist W} (hs : dd.src < t.nv) (ht : dd.tgt < t.nv) {sg : Bool} (he : Ent t.d dd sg) : Holds X (dd, sg) := by
  rw [holds_iff]
  have hsn : es (dd, sg) < t.nv := by unfold es; split <;> assumption
  have htn : et (dd, sg) < t.nv := by unfold et; split <;> assumption
  exact_mod_cast (hX _ _ hsn htn).trans he

/-- The theory keeps the core going; the only failure is the exclusion of the unsafe propagations. -/
def live (V : Nat → Option (Dist W)) : Live (dlContract V) where
  F := fun e => e = .excluded
  Done := fun _ => True
  LI := LI
  adv := fun h a b c d e => h.adv a b c d e
  pop := fun h => h.pop
  push := fun h a b => h.push a b
  prop := fun h hT a b c d => h.prop hT a b c d
  check := fun {t nv b n A P val} h hT hP hval hc => by
    obtain ⟨⟨hV, hr⟩, As, hg, hl, hAs⟩ := hT
    have g := hg.coreG
    have hag : Agrees val As.flatten := fun e he => (hval _).mp (hAs n (Nat.le_refl n) e (by simpa using he))
    have hck := checkOk_of g.core (hag.pos hc)
    refine ⟨t, none, ?_, fun _ => ⟨h.adv (Nat.le_refl _) (fun _ _ _ h => h) (fun _ _ _ h => h) (fun _ h => .inl h) (fun q hq => absurd hq (hP q)), trivial, ?_⟩, fun _ h => by cases h⟩
    · refine checkAll_one (O := safeOps) (i := 0) ?_
      show (if t.checkOk val then Except.ok (t, none) else Except.error Err.assert) = _
      rw [if_pos hck]
    · obtain ⟨X, hX⟩ := base_pot g.core.closed
      classical
      refine ⟨fun v => match t.vd v with | some dd => decide (X dd.tgt - X dd.src ≤ dd.w) | none => decide (val ⟨v, true⟩ = some true), ⟨X, fun v dd hv => ?_⟩, fun q hq => ?_⟩
      · simp only [hv, decide_eq_true_eq]
      · unfold Asg.sat
        cases hv : t.vd q.var with
        | none =>
          simp only [hv]
          have hq' := (hval q).mp hq
          cases hs : q.sign with
          | true =>
            have : (⟨q.var, true⟩ : Lit) = q := by rw [← hs]
            simp [this, hq']
          | false =>
            have : (⟨q.var, true⟩ : Lit) = q.neg := by simp [Lit.neg, hs]
            have h2 := hc q
            rw [hq'] at h2
            rw [this, h2]; rfl
        | some dd =>
          simp only [hv]
          obtain ⟨_, hs, ht, _⟩ := hr.vd _ _ hv
          have he := (h.top.told q.var dd q.sign hv hq).resolve_left (hP _)
          have := ent_holds hX hs ht he
          unfold Holds at this
          cases hsg : q.sign with
          | true => rw [hsg] at this; simpa using this
          | false => rw [hsg] at this; simpa using this

end DL
end Semitone
