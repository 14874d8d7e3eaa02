import Verif.DL.Session
import Verif.DL.Tree
import Verif.Sat.SteadyOps

/-!
# The core with a difference-logic theory: every run

The explanations of the theory can be wrong (`C30_witness`), so nothing can be said of the clauses it records. The distances, the constraints asserted at each level and what is propagated do not
depend on the explanations: the theory keeps them in every run, and it never fails: the walks that collect the explanations end.
-/
namespace Semitone
namespace DL
variable {W : Type} [AddCommGroup W] [LinearOrder W] [IsOrderedAddMonoid W] [Dom W]

/-- The constraints asserted at each level are those whose literals are true there. -/
def Held (t : DL W) (n : Nat) (A : Nat → Lit → Prop) : Prop :=
  ∃ As, Good t As ∧ As.length = n + 1 ∧ (∀ e ∈ As.flatten, t.vd e.1.b = some e.1) ∧ ∀ i, i ≤ n → ∀ e ∈ (As.drop (n - i)).flatten, A i ⟨e.1.b, e.2⟩

/-- What every run keeps. -/
structure FI (t : DL W) (nv : Nat) (b : Nat → List Nat) (n : Nat) (A : Nat → Lit → Prop) (P : Lit → Prop) : Prop where
  li : LI t nv b n A P
  regs : Regs t
  held : Held t n A
  trees : Trees t.nv t.d t.pred t.layers

theorem Held.mono {t : DL W} {n A A'} (h : Held t n A) (hA : ∀ i q, i ≤ n → A i q → A' i q) : Held t n A' := by
  obtain ⟨As, a, b, c, d⟩ := h
  exact ⟨As, a, b, c, fun i hi e he => hA i _ hi (d i hi e he)⟩

theorem FI.adv {t : DL W} {nv nv' b n A A' P P'} (h : FI t nv b n A P) (hn : nv ≤ nv') (h1 : ∀ i q, i ≤ n → A i q → A' i q) (h2 : ∀ i q, i < n → A' i q → A i q)
    (h3 : ∀ q, A' n q → A n q ∨ P' q) (h4 : ∀ q, P q → P' q) : FI t nv' b n A' P' := ⟨h.li.adv hn h1 h2 h3 h4, h.regs, h.held.mono h1, h.trees⟩

theorem FI.pop {t t' : DL W} {nv b n A P} (h : FI t nv b (n + 1) A P) (hp : t.pop = .ok t') : FI t' nv b n A (fun _ => False) := by
  obtain ⟨t1, h1, h2⟩ := h.li.pop
  rw [hp] at h1
  injection h1 with h1
  subst h1
  obtain ⟨As, hg, hl, hv, hm⟩ := h.held
  obtain ⟨a, B, rfl⟩ := hg.ne
  have hg' := good_pop hg hp
  refine ⟨h2, ?_, ⟨B, hg', by simpa using hl, fun e he => ?_, fun i hi e he => hm i (by omega) e ?_⟩, trees_pop h.trees hp⟩
  · obtain ⟨L, Ls, _, rfl⟩ := pop_cases hp
    exact ⟨h.regs.vd, h.regs.dcs⟩
  · obtain ⟨L, Ls, _, rfl⟩ := pop_cases hp
    exact hv e (by simp only [List.flatten_cons, List.mem_append]; exact .inr he)
  · have : n + 1 - i = (n - i) + 1 := by omega
    rw [this]
    exact he

theorem FI.push {t : DL W} {nv b n A P} (h : FI t nv b n A P) (hP : ∀ q, ¬ P q) (hA : ∀ q, A (n + 1) q ↔ A n q) : FI t.push nv b (n + 1) A (fun _ => False) := by
  obtain ⟨As, hg, hl, hv, hm⟩ := h.held
  refine ⟨h.li.push hP hA, ⟨h.regs.vd, h.regs.dcs⟩, ⟨[] :: As, good_push hg, by simp [hl], fun e he => hv e (by simpa using he), fun i hi e he => ?_⟩, trees_push h.trees⟩
  rcases Nat.eq_or_lt_of_le hi with rfl | hlt
  · refine (hA _).2 (hm n (Nat.le_refl n) e ?_)
    simpa using he
  · refine hm i (by omega) e ?_
    have : n + 1 - i = (n - i) + 1 := by omega
    rw [this] at he
    exact he

/-- The loop that records the decided constraints, whatever their explanations are. -/
theorem emit_firm {t : DL W} (hr : Regs t) (htr : Trees t.nv t.d t.pred t.layers)
    {Q : DL W → (Nat → Lit → Prop) → (Lit → Prop) → Prop} {R : DL W → (Nat → Lit → Prop) → Prop} {n : Nat} {A0 : Nat → Lit → Prop} {P0 : Lit → Prop}
    (hQ : ∀ A P, (∀ i q, i ≤ n → A0 i q → A i q) → (∀ i q, i < n → A i q → A0 i q) → (∀ q, A n q → A0 n q ∨ P q) → (∀ q, P0 q → P q) →
      (∀ v dd, t.vd v = some dd → (∀ sg, ¬ A n ⟨v, sg⟩) → ∀ sg, ¬ Ent t.d dd sg) → Q t A P) :
    ∀ (ds : List (Dist W)) (A : Nat → Lit → Prop) (P : Lit → Prop) (val : Lit → Option Bool), (∀ dd ∈ ds, dd.src < t.nv ∧ dd.tgt < t.nv) → (∀ i q, i ≤ n → A0 i q → A i q) → (∀ i q, i < n → A i q → A0 i q) →
      (∀ q, A n q → A0 n q ∨ P q) → (∀ q, P0 q → P q) → (∀ q, A n q ↔ val q = some true) → Coh val →
      (∀ v dd, t.vd v = some dd → val ⟨v, true⟩ = none → dd ∈ ds ∨ ∀ sg, ¬ Ent t.d dd sg) →
      ActFirm Q R n A P val (t.emit ds val)
  | [], A, P, val, _, h1, h2, h3, h4, hv, hc, h6 => by
    refine .ok (hQ A P h1 h2 h3 h4 (fun v dd hvd hA => (h6 v dd hvd ?_).resolve_left (fun h => by cases h)))
    cases hx : val ⟨v, true⟩ with
    | none => rfl
    | some b =>
      refine absurd ((hv ⟨v, b⟩).mpr ?_) (hA b)
      cases b with
      | true => exact hx
      | false =>
        have := hc ⟨v, true⟩
        rw [hx] at this
        exact this
  | dd :: ds, A, P, val, hds, h1, h2, h3, h4, hv, hc, h6 => by
    have skip : (val ⟨dd.b, true⟩ = none → ∀ sg, ¬ Ent t.d dd sg) → ActFirm Q R n A P val (t.emit ds val) := fun hu => by
      refine emit_firm hr htr hQ ds A P val (fun x hx => hds x (List.mem_cons_of_mem _ hx)) h1 h2 h3 h4 hv hc (fun v x hx hn => ?_)
      rcases h6 v x hx hn with h | h
      · rcases List.mem_cons.mp h with rfl | h
        · obtain ⟨hb', _⟩ := hr.vd _ _ hx
          exact .inr (hu (by rw [hb']; exact hn))
        · exact .inl h
      · exact .inr h
    have rec1 : ∀ sg L, ActFirm Q R n A P val (.record (⟨dd.b, sg⟩ :: L) (fun v => t.emit ds v)) := by
      intro sg L
      refine .record ?_
      intro l0 rest e _ _ A' P' v g1 g2 g3 g0 g4 g5 g6 g7
      injection e with e _
      subst e
      have grow : ∀ q, val q = some true → v q = some true := fun q hq => (g6 q).mp (g1 n q (Nat.le_refl _) ((hv q).mpr hq))
      have unas : ∀ x, v ⟨x, true⟩ = none → val ⟨x, true⟩ = none := by
        intro x hx
        cases hy : val ⟨x, true⟩ with
        | none => rfl
        | some b =>
          cases b with
          | true => rw [grow _ hy] at hx; cases hx
          | false =>
            have a := hc ⟨x, true⟩
            rw [hy] at a
            have a2 := grow _ a
            have a3 := g7 ⟨x, true⟩
            rw [a2, hx] at a3
            cases a3
      refine emit_firm hr htr hQ ds A' P' v (fun x hx => hds x (List.mem_cons_of_mem _ hx)) (fun i q hi hq => g1 i q hi (h1 i q hi hq)) (fun i q hi hq => h2 i q hi (g2 i q hi hq)) (fun q hq => ?_)
        (fun q hq => g4 q (h4 q hq)) g6 g7 (fun x y hx hy => ?_)
      · rcases g3 q hq with h | h
        · rcases h3 q h with h | h
          · exact .inl h
          · exact .inr (g4 q h)
        · rw [h]; exact .inr g5
      · rcases h6 x y hx (unas x hy) with h | h
        · rcases List.mem_cons.mp h with rfl | h
          · exfalso
            obtain ⟨hb', _⟩ := hr.vd _ _ hx
            rw [← hb'] at hy
            have : v ⟨y.b, sg⟩ = some true := (g6 _).mp g0
            cases sg with
            | true => rw [this] at hy; cases hy
            | false =>
              have a := g7 ⟨y.b, true⟩
              rw [hy] at a
              rw [show (⟨y.b, true⟩ : Lit).neg = ⟨y.b, false⟩ from rfl, this] at a
              cases a
          · exact .inl h
        · exact .inr h
    unfold emit
    split
    · next hn =>
      split
      · next h7 =>
        obtain ⟨L, hL⟩ := htr.explain val (hds dd (by simp)).2 (hds dd (by simp)).1 (ne_top_of_lt h7)
        split
        · next e he => rw [hL] at he; cases he
        · exact rec1 false _
      · next h7 =>
        split
        · next h8 =>
          obtain ⟨L, hL⟩ := htr.explain val (hds dd (by simp)).1 (hds dd (by simp)).2 (ne_top_of_le_ne_top (WithTop.coe_ne_top) h8)
          split
          · next e he => rw [hL] at he; cases he
          · exact rec1 true _
        · next h8 =>
          refine skip (fun _ sg => ?_)
          cases sg with
          | true => exact fun h => h8 (ent_true.mp h)
          | false => exact fun h => h7 (ent_false.mp h)
    · next hn => exact skip (fun h => absurd h hn)

theorem FI.prop {t : DL W} {nv b n A P P1 val p} (h : FI t nv b n A P1) (hP : ∀ q, P1 q → P q ∨ q = p)
    (hval : ∀ q, A n q ↔ val q = some true) (hc : Coh val) (hp : val p = some true) :
    (b p.var = [] ∧ FI t nv b n A P) ∨
    ∃ i, b p.var = [i] ∧ ActFirm (fun t A P => FI t nv b n A P ∧ (n = 0 → FI t nv (upd b p.var []) n A P)) (fun t A => FI t nv b n A (fun _ => True)) n
      A P val (ops.propagate i t val p) := by
  have self : (∀ dd, t.vd p.var = some dd → Ent t.d dd p.sign) → FI t nv b n A P := fun hE => by
    refine ⟨⟨h.li.len, h.li.rng, h.li.dcs, h.li.free, ⟨h.li.top.bound, fun v dd sg hv ha => ?_, h.li.top.und⟩, h.li.low⟩, h.regs, h.held, h.trees⟩
    rcases h.li.top.told v dd sg hv ha with h' | h'
    · rcases hP _ h' with h' | h'
      · exact .inl h'
      · rw [← h'] at hE
        exact .inr (hE dd hv)
    · exact .inr h'
  cases hv : t.vd p.var with
  | none => exact .inl ⟨h.li.free _ hv, self (fun dd hd => by rw [hv] at hd; cases hd)⟩
  | some dd =>
    have same : ∀ sg, A n ⟨p.var, sg⟩ → sg = p.sign := by
      intro sg hs
      by_contra hne
      have e : (⟨p.var, sg⟩ : Lit) = p.neg := by
        cases p; rename_i x y; cases sg <;> cases y <;> simp_all [Lit.neg]
      rw [e, hval, hc p, hp] at hs
      cases hs
    rcases h.li.top.bound _ _ hv with hb0 | ⟨hb0, sg, ha, he⟩
    swap
    · refine .inl ⟨hb0, self (fun dd' hd => ?_)⟩
      rw [hv] at hd
      injection hd with hd
      subst hd
      rw [← same sg ha]; exact he
    refine .inr ⟨0, hb0, ?_⟩
    show ActFirm _ _ n A P val (t.propagate val p)
    obtain ⟨As, hg, hl, hreg, hAs⟩ := h.held
    obtain ⟨a, B, rfl⟩ := hg.ne
    have g := hg.core
    have hr := h.regs
    obtain ⟨hb, hs, ht, hne⟩ := hr.vd _ _ hv
    have hval' : val ⟨dd.b, true⟩ = some p.sign := by
      cases hps : p.sign with
      | true =>
        have : (⟨dd.b, true⟩ : Lit) = p := by rw [hb, ← hps]
        rw [this, hp]
      | false =>
        have : (⟨dd.b, true⟩ : Lit) = p.neg := by rw [hb]; simp [Lit.neg, hps]
        rw [this, hc p, hp]
        rfl
    have hlit : (⟨dd.b, p.sign⟩ : Lit) = p := by rw [hb]
    -- once told, the listener can be dropped at root level
    have drop : ∀ {t' A' P'}, t'.vd = t.vd → FI t' nv b n A' P' → A' n p → Ent t'.d dd p.sign → (FI t' nv b n A' P' ∧ (n = 0 → FI t' nv (upd b p.var []) n A' P')) := by
      intro t' A' P' hvd hf ha he
      have h' := hf.li
      refine ⟨hf, fun hn => ⟨⟨h'.len, h'.rng, h'.dcs, fun v hx => ?_, ⟨fun v x hx => ?_, h'.top.told, h'.top.und⟩, fun i hi => absurd hi (by omega)⟩, hf.regs, hf.held, hf.trees⟩⟩
      · by_cases e : v = p.var
        · rw [e, upd_self]
        · rw [upd_ne _ _ e]; exact h'.free v hx
      · by_cases e : v = p.var
        · subst e
          rw [hvd, hv] at hx
          injection hx with hx
          subst hx
          exact .inr ⟨upd_self _ _ _, p.sign, ha, he⟩
        · rw [upd_ne _ _ e]; exact h'.top.bound v x hx
    unfold propagate
    rw [hv]
    simp only
    rw [hval']
    simp only
    rw [if_pos ⟨g.cap, hs, ht⟩]
    have spec := assertD_spec g dd p.sign hs ht hne
    split
    · next i j ho =>
      rw [ho] at spec
      simp only at spec
      have hL : ∃ L, t.explain val i t.nv j = .ok L := by
        obtain ⟨rfl, rfl, h3⟩ := spec
        refine h.trees.explain val ?_ ?_ (ne_top_of_lt h3)
        · unfold et; split <;> assumption
        · unfold es; split <;> assumption
      obtain ⟨L, hL⟩ := hL
      split
      · next e he => rw [hL] at he; cases he
      · exact .confl (h.adv (Nat.le_refl _) (fun _ _ _ h => h) (fun _ _ _ h => h) (fun _ h => .inl h) (fun _ _ => trivial))
    · next ho =>
      rw [ho] at spec
      obtain ⟨-, -, -, he⟩ := spec
      refine .ok (drop rfl (self (fun dd' hd => ?_)) ((hval p).mpr hp) he)
      rw [hv] at hd
      injection hd with hd
      subst hd
      exact he
    · next t' cu ho =>
      rw [ho] at spec
      simp only at spec
      have hg' := good_lit hg hs ht hne (Or.inr ⟨cu, ho⟩)
      have g' := hg'.core
      rw [if_neg (by rw [g'.ok]; simp)]
      have hr' : Regs t' := ⟨by rw [spec.nv, spec.vd]; exact hr.vd, by rw [spec.vd, spec.dcs]; exact hr.dcs⟩
      have hent : Ent t'.d dd p.sign := by
        obtain ⟨-, -, -, h4⟩ := g'.compl (dd, p.sign) (by simp)
        exact h4
      have unas : ∀ v dd', t.vd v = some dd' → val ⟨v, true⟩ = none → ∀ sg, ¬ Ent t.d dd' sg := by
        intro v dd' hv' hn
        refine h.li.top.und v dd' hv' (fun sg hs => ?_)
        rw [hval] at hs
        cases sg with
        | true => rw [hn] at hs; cases hs
        | false =>
          have a := hc ⟨v, true⟩
          rw [hn] at a
          rw [show (⟨v, true⟩ : Lit).neg = ⟨v, false⟩ from rfl, hs] at a
          cases a
      have htr' := trees_assert h.trees g hg.layok spec ho
      refine emit_firm (A0 := A) (P0 := P) hr' htr' ?_ _ A P val (fun x hx => ?_) (fun _ _ _ h => h) (fun _ _ _ h => h) (fun _ h => .inl h) (fun _ h => h) hval hc ?_
      · intro A' P' q1 q2 q3 q4 q5
        have hvw := spec.view hg.layok
        refine drop spec.vd ⟨⟨(matAt_view hvw 0).1.trans h.li.len, fun v x hx => h.li.rng v x (by rw [← spec.vd]; exact hx), fun v x hx => by
            rw [spec.dcs]; exact h.li.dcs v x (by rw [← spec.vd]; exact hx), fun v hx => h.li.free v (by rw [← spec.vd]; exact hx), ⟨fun v x hx => ?_, fun v x sg hx hA => ?_, q5⟩, fun i hi => ?_⟩, hr',
            ⟨_, hg', by simpa using hl, fun e he => ?_, fun i hi e he => ?_⟩, htr'⟩
          (q1 n p (Nat.le_refl _) ((hval p).mpr hp)) hent
        · rw [spec.vd] at hx
          rcases h.li.top.bound v x hx with e | ⟨e, sg, a1, a2⟩
          · exact .inl e
          · exact .inr ⟨e, sg, q1 n _ (Nat.le_refl _) a1, a2.mono (step_le spec)⟩
        · rw [spec.vd] at hx
          rcases q3 _ hA with h' | h'
          · rcases h.li.top.told v x sg hx h' with h' | h'
            · rcases hP _ h' with h' | h'
              · exact .inl (q4 _ h')
              · right
                have e1 : v = p.var := by rw [← h']
                have e2 : sg = p.sign := by rw [← h']
                subst e1
                rw [hv] at hx
                injection hx with hx
                subst hx
                rw [e2]; exact hent
            · exact .inr (h'.mono (step_le spec))
          · exact .inl h'
        · obtain ⟨k, hk⟩ : ∃ k, n - i = k + 1 := ⟨n - i - 1, by omega⟩
          have hlen := h.li.len
          rw [spec.vd, hk, (matAt_view hvw k).2 (by omega), ← hk]
          exact (h.li.low i hi).adv (fun q => q1 i q hi.le) (fun q hq => .inl (q2 i q hi hq)) (fun _ h => h)
        · rw [spec.vd]
          simp only [List.flatten_cons, List.cons_append, List.mem_cons] at he
          rcases he with rfl | he
          · rw [hb]; exact hv
          · exact hreg e (by simpa using he)
        · rcases Nat.eq_or_lt_of_le hi with rfl | hlt
          · simp only [Nat.sub_self, List.drop_zero, List.flatten_cons, List.cons_append, List.mem_cons] at he
            rcases he with rfl | he
            · rw [hlit]; exact q1 i p (Nat.le_refl _) ((hval p).mpr hp)
            · exact q1 i _ hi (hAs i hi e (by simpa using he))
          · obtain ⟨k, hk⟩ : ∃ k, n - i = k + 1 := ⟨n - i - 1, by omega⟩
            refine q1 i _ hi (hAs i hi e ?_)
            rw [hk] at he ⊢
            exact he
      · obtain ⟨q, -, hq⟩ := List.mem_flatMap.mp hx
        obtain ⟨-, a, b, -⟩ := hr'.vd _ _ (hr'.dcs _ _ _ hq).1
        exact ⟨a, b⟩
      · intro v x hx hn
        rw [spec.vd] at hx
        obtain ⟨-, xs, xt, -⟩ := hr.vd _ _ hx
        exact step_und spec xs xt (by rw [spec.dcs]; exact h.li.dcs v x hx) (unas v x hx hn)

/-- The assertions of `check` hold. -/
theorem FI.checkOk {t : DL W} {nv b n A P val} (h : FI t nv b n A P) (hval : ∀ q, A n q ↔ val q = some true) (hc : Coh val) : t.checkOk val = true := by
  obtain ⟨As, hg, hl, -, hm⟩ := h.held
  refine checkOk_of hg.core (fun e he => ?_)
  have := (hval _).mp (hm n (Nat.le_refl _) e (by simpa using he))
  cases hs : e.2 with
  | true => rw [hs] at this; exact this
  | false =>
    rw [hs] at this
    have hx := hc ⟨e.1.b, false⟩
    rw [this] at hx
    exact hx

/-- The theory keeps its invariant in every run, and does not fail. -/
def firm : Firm (ops (W := W)) where
  LI := FI
  Done := fun _ => True
  adv := fun h a b c d e => h.adv a b c d e
  pop := fun h hp => h.pop hp
  pop_ok := fun h => by
    obtain ⟨t1, h1, -⟩ := h.li.pop
    exact ⟨t1, h1⟩
  push := fun h a b => h.push a b
  prop := fun h a b c d => h.prop a b c d
  check := fun {t t' nv b n A P val r} h hP hval hc he => by
    have : t' = t ∧ r = none := by
      simp only [ops, checkAll] at he
      by_cases hk : t.checkOk val = true
      · simp only [hk, if_true] at he
        injection he with he; injection he with e1 e2
        exact ⟨e1.symm, e2.symm⟩
      · simp only [hk] at he; cases he
    obtain ⟨rfl, rfl⟩ := this
    exact ⟨fun _ => ⟨h.adv (Nat.le_refl _) (fun _ _ _ h => h) (fun _ _ _ h => h) (fun _ h => .inl h) (fun q hq => absurd hq (hP q)), trivial⟩, fun _ h => by cases h⟩
  check_ok := fun {t nv b n A P val} h _ hval hc => by
    have : t.checkOk val = true := h.checkOk hval hc
    exact ⟨_, by simp only [ops, checkAll, this, if_true]; rfl⟩

end DL
end Semitone
