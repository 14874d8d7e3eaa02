import Verif.Sat.LiveOps
import Verif.Sat.StackT

/-!
# The theories seen by a core that stands on other cores

The theories of a stack of cores have the levels of the cores below, the level that `sat_stack::push` opened and those of the top core (`sat_stack.cpp:10-20`). What they promise to a core (`Contract`, `Live`) they promise to the
top core of a stack, whose decision level `n` is their level `n + k`.
-/
namespace Semitone
variable {T : Type} {O : TheoryOps T}

/-- The literals made true at each level of the theories: `B` at the `k` levels of the cores below, `A` at those of the top core. -/
def lift (k : Nat) (B A : Nat → Lit → Prop) (i : Nat) : Lit → Prop := if i < k then B i else A (i - k)

section
variable {k n i : Nat} {B A A' : Nat → Lit → Prop} {q : Lit}

theorem lift_lt (h : i < k) : lift k B A i = B i := if_pos h
theorem lift_add : lift k B A (n + k) = A n := by
  unfold lift
  rw [if_neg (by omega), Nat.add_sub_cancel]

theorem lift_mono (h : ∀ i, i ≤ n → ∀ q, A i q → A' i q) (hi : i ≤ n + k) (hq : lift k B A i q) : lift k B A' i q := by
  unfold lift at *
  split at hq
  · next h1 => rw [if_pos h1]; exact hq
  · next h1 => rw [if_neg h1]; exact h _ (by omega) q hq

theorem lift_back (h : ∀ i, i < n → ∀ q, A' i q → A i q) (hi : i < n + k) (hq : lift k B A' i q) : lift k B A i q := by
  unfold lift at *
  split at hq
  · next h1 => rw [if_pos h1]; exact hq
  · next h1 => rw [if_neg h1]; exact h _ (by omega) q hq

end

theorem ActOK.under {C : Contract O} {k : Nat} {B : Nat → Lit → Prop} {t t0 : T} {n : Nat} {L A : Nat → Lit → Prop} {act : TAct T} (h : ActOK C.Th C.TI t (n + k) L act) (hL : L = lift k B A)
    (hB : ∀ i, i < k → ∀ q, B i q → A 0 q) (ht : ∀ α, C.Th t α ↔ C.Th t0 α) :
    ActOK C.Th (fun t n A => (∀ i, i < k → ∀ q, B i q → A 0 q) ∧ C.TI t (n + k) (lift k B A) ∧ ∀ α, C.Th t α ↔ C.Th t0 α) t n A act := by
  induction h generalizing A with
  | ok h1 h2 => subst hL; exact .ok ⟨hB, h1, fun α => (h2 α).trans (ht α)⟩ h2
  | confl h1 h2 h3 h4 => subst hL; exact .confl ⟨hB, h1, fun α => (h2 α).trans (ht α)⟩ h2 h3 (fun q hq => by have := h4 q hq; rwa [lift_add] at this)
  | record h1 _ ih =>
    subst hL
    refine .record h1 (fun A' v h3 h4 h5 => ih (lift k B A') v (fun i hi q hq => lift_mono h3 hi hq) (fun q => by rw [lift_add]; exact h4 q) h5 rfl (fun i hi q hq => h3 0 (Nat.zero_le _) q (hB i hi q hq)))
  | fail => exact .fail

/-- What the theories promise to a core that stands on others: `k` levels are open below, at which the literals `B` were made true; `t0`: the theories have the same meaning as in the state `t0`. -/
def Contract.under (C : Contract O) (k : Nat) (B : Nat → Lit → Prop) (t0 : T) : Contract O where
  Th := C.Th
  TI := fun t n A => (∀ i, i < k → ∀ q, B i q → A 0 q) ∧ C.TI t (n + k) (lift k B A) ∧ ∀ α, C.Th t α ↔ C.Th t0 α
  mono := fun t n A A' h hA => ⟨fun i hi q hq => hA 0 (Nat.zero_le _) q (h.1 i hi q hq), C.mono _ _ _ _ h.2.1 (fun i hi q hq => lift_mono hA hi hq), h.2.2⟩
  prop := fun i t n A val p h hv hc hp => (C.prop i t (n + k) _ val p h.2.1 (fun q => by rw [lift_add]; exact hv q) hc hp).under rfl h.1 h.2.2
  check := fun i t n A val t' r h hv hc hk => by
    obtain ⟨h1, h2, h3⟩ := C.check i t (n + k) _ val t' r h.2.1 (fun q => by rw [lift_add]; exact hv q) hc hk
    refine ⟨⟨h.1, h1, fun α => (h2 α).trans (h.2.2 α)⟩, h2, fun cl e => ⟨(h3 cl e).1, fun q hq => ?_⟩⟩
    have := (h3 cl e).2 q hq
    rwa [lift_add] at this
  push := fun t n A h hA => by
    obtain ⟨h1, h2⟩ := C.push t (n + k) _ h.2.1 (fun q hq => by
      rw [show n + k + 1 = (n + 1) + k by omega, lift_add]
      rw [lift_add] at hq
      exact hA q hq)
    refine ⟨⟨h.1, ?_, fun α => (h2 α).trans (h.2.2 α)⟩, h2⟩
    rw [show n + 1 + k = n + k + 1 by omega]
    exact h1
  pop := fun t t' n A h hp => by
    have h1 := h.2.1
    rw [show n + 1 + k = n + k + 1 by omega] at h1
    obtain ⟨h2, h3⟩ := C.pop t t' (n + k) _ h1 hp
    exact ⟨⟨h.1, h2, fun α => (h3 α).trans (h.2.2 α)⟩, h3⟩

section
variable {C : Contract O} (V : Live C) (k nv0 : Nat) (B : Nat → Lit → Prop) (b0 : Nat → List Nat)

/-- The variables that the theories no longer listen to: they were made true at the root of the top core, and the theories were told so (`P`: what they have not been told). -/
def Cleared (b0 b : Nat → List Nat) (A : Nat → Lit → Prop) (P : Lit → Prop) : Prop := ∀ v, b v = b0 v ∨ (b v = [] ∧ ∃ q : Lit, q.var = v ∧ A 0 q ∧ ¬ P q)

/-- Either it is known what the theories have been told, or (after a conflict) nothing is. -/
def UnderLI (t : T) (nv : Nat) (b : Nat → List Nat) (n : Nat) (A : Nat → Lit → Prop) (P : Lit → Prop) : Prop :=
  nv0 ≤ nv ∧ (∀ i, i ≤ n → ∀ q, A 0 q → A i q) ∧
    ((∃ P0 : Lit → Prop, (∀ q, P0 q → P q) ∧ Cleared b0 b A P0 ∧ V.LI t nv0 b0 (n + k) (lift k B A) P0) ∨
      ((∃ L : List Lit, ∀ q, q ∉ L → P q) ∧ Cleared b0 b A (fun _ => False) ∧ ∃ P0 : Lit → Prop, V.LI t nv0 b0 (n + k) (lift k B A) P0))

theorem exists_fresh (L : List Lit) : ∃ q : Lit, q ∉ L := by
  refine ⟨⟨(L.map Lit.var).sum + 1, true⟩, fun h => ?_⟩
  have : ∀ l : List Nat, ∀ x ∈ l, x ≤ l.sum := by
    intro l
    induction l with
    | nil => intro x hx; cases hx
    | cons a l ih =>
      intro x hx
      rcases List.mem_cons.1 hx with rfl | hx
      · simp
      · have := ih x hx; simp; omega
  have := this _ _ (List.mem_map_of_mem (f := Lit.var) h)
  simp at this

variable {V k nv0 B b0}

theorem UnderLI.empty {t : T} {nv : Nat} {b : Nat → List Nat} {n : Nat} {A : Nat → Lit → Prop} {P : Lit → Prop} (h : UnderLI V k nv0 B b0 t nv b n A P) (hP : ∀ q, ¬ P q) :
    ∃ P0 : Lit → Prop, (∀ q, ¬ P0 q) ∧ Cleared b0 b A P0 ∧ V.LI t nv0 b0 (n + k) (lift k B A) P0 := by
  rcases h.2.2 with ⟨P0, h1, h2, h3⟩ | ⟨⟨L, h1⟩, -⟩
  · exact ⟨P0, fun q hq => hP q (h1 q hq), h2, h3⟩
  · obtain ⟨q, hq⟩ := exists_fresh L
    exact absurd (h1 q hq) (hP q)

theorem Cleared.mono {b : Nat → List Nat} {A A' : Nat → Lit → Prop} {P P' : Lit → Prop} (h : Cleared b0 b A P) (hA : ∀ q, A 0 q → A' 0 q) (hP : ∀ q, A 0 q → P' q → P q) : Cleared b0 b A' P' :=
  fun v => (h v).imp_right (fun ⟨e, q, h1, h2, h3⟩ => ⟨e, q, h1, hA q h2, fun x => h3 (hP q h2 x)⟩)

theorem Cleared.weak {b : Nat → List Nat} {A : Nat → Lit → Prop} {P : Lit → Prop} (h : Cleared b0 b A P) : Cleared b0 b A (fun _ => False) := h.mono (fun _ h => h) (fun _ _ h => h.elim)

theorem rising_adv {n : Nat} {A A' : Nat → Lit → Prop} (h : ∀ i, i ≤ n → ∀ q, A 0 q → A i q) (h1 : ∀ i q, i ≤ n → A i q → A' i q) (h2 : ∀ i q, i < n → A' i q → A i q) : ∀ i, i ≤ n → ∀ q, A' 0 q → A' i q := by
  intro i hi q hq
  cases n with
  | zero => obtain rfl : i = 0 := by omega
            exact hq
  | succ n => exact h1 i q hi (h i hi q (h2 0 q (by omega) hq))

/-- The behaviour of a theory told that `p` is true, seen by the top core. -/
theorem ActLive.under {F : Err → Prop} {n nv : Nat} {b : Nat → List Nat} {p : Lit} {L A : Nat → Lit → Prop} {PV P : Lit → Prop} {val : Lit → Option Bool} {act : TAct T} (hk : 0 < k) (hnv : nv0 ≤ nv)
    (h : ActLive F (fun t A P => V.LI t nv0 b0 (n + k) A P ∧ (n + k = 0 → V.LI t nv0 (upd b0 p.var []) (n + k) A P)) (fun t A => V.LI t nv0 b0 (n + k) A (fun _ => True)) (n + k) nv0 p L PV val act)
    (hL : L = lift k B A) (hB : ∀ i, i < k → ∀ q, B i q → A 0 q) (hri : ∀ i, i ≤ n → ∀ q, A 0 q → A i q) (hv : ∀ q, A n q ↔ val q = some true) (hp : A n p)
    (hm : (Cleared b0 b A PV ∧ ¬ PV p ∧ ∀ q, PV q → P q) ∨ (Cleared b0 b A (fun _ => False) ∧ ∃ L : List Lit, ∀ q, q ∉ L → P q)) :
    ActLive F (fun t A P => UnderLI V k nv0 B b0 t nv b n A P ∧ (n = 0 → UnderLI V k nv0 B b0 t nv (upd b p.var []) n A P)) (fun t A => UnderLI V k nv0 B b0 t nv b n A (fun _ => True)) n nv p A P val act := by
  induction h generalizing A P with
  | @ok L PV val t h =>
    subst hL
    have key : ∀ b', (∀ v, b' v = b v ∨ (v = p.var ∧ b' v = [] ∧ A 0 p)) → UnderLI V k nv0 B b0 t nv b' n A P := by
      intro b' hb'
      refine ⟨hnv, hri, ?_⟩
      rcases hm with ⟨m1, m2, m3⟩ | ⟨m1, m2⟩
      · refine .inl ⟨PV, m3, fun v => ?_, h.1⟩
        rcases hb' v with e | ⟨e, e', h0⟩
        · rw [e]; exact m1 v
        · exact .inr ⟨e', p, e.symm, h0, m2⟩
      · refine .inr ⟨m2, fun v => ?_, PV, h.1⟩
        rcases hb' v with e | ⟨e, e', h0⟩
        · rw [e]; exact m1 v
        · exact .inr ⟨e', p, e.symm, h0, id⟩
    refine .ok ⟨key b (fun v => .inl rfl), fun e => key _ (fun v => ?_)⟩
    by_cases hx : v = p.var
    · subst hx; exact .inr ⟨rfl, upd_self _ _ _, by rw [e] at hp; exact hp⟩
    · exact .inl (upd_ne _ _ hx)
  | @confl L PV val t cl h1 h2 h3 =>
    subst hL
    refine .confl ⟨hnv, hri, .inr ⟨⟨[], fun _ _ => trivial⟩, ?_, _, h1⟩⟩ h2 h3
    rcases hm with ⟨m1, -⟩ | ⟨m1, -⟩
    · exact m1.weak
    · exact m1
  | fail h => exact .fail h
  | @record L PV val l0 rest kk h1 h2 h3 h4 h5 _ ih =>
    subst hL
    refine .record h1 (by omega) h3 h4 (h5.imp (fun {a c} hab e => ?_)) ?_
    · have := hab e
      rw [lift_lt hk] at this
      exact hB 0 hk _ this
    · intro A' P' v g1 g2 g3 g4 g5 g6 g7 g8
      have hne : ∀ q, A n q → q ≠ l0 := fun q hq e => by
        have := (hv q).1 hq
        rw [e, h1] at this
        cases this
      refine ih (lift k B A') (fun q => PV q ∨ q = l0) v (fun i q hi hq => lift_mono (fun i hi q => g1 i q hi) hi hq) (fun i q hi hq => lift_back (fun i hi q => g2 i q hi) hi hq)
        (fun q hq => by rw [lift_add] at *; exact g3 q hq) (by rw [lift_add]; exact g4) (fun q hq => .inl hq) (.inr rfl) (fun q => by rw [lift_add]; exact g7 q) g8 rfl
        (fun i hi q hq => g1 0 q (Nat.zero_le _) (hB i hi q hq)) (rising_adv hri g1 g2) g7 (g1 n p (Nat.le_refl _) hp) ?_
      rcases hm with ⟨m1, m2, m3⟩ | ⟨m1, L, m2⟩
      · refine .inl ⟨m1.mono (fun q => g1 0 q (Nat.zero_le _)) (fun q hq hx => hx.resolve_right (hne q (hri n (Nat.le_refl _) q hq))), ?_, ?_⟩
        · rintro (hx | hx)
          · exact m2 hx
          · exact hne p hp hx
        · rintro q (hx | hx)
          · exact g5 q (m3 q hx)
          · rw [hx]; exact g6
      · exact .inr ⟨m1.mono (fun q => g1 0 q (Nat.zero_le _)) (fun _ _ h => h), L, fun q hq => g5 q (m2 q hq)⟩

end

/-- What the theories promise to a core, they promise to a core that stands on others. -/
def Live.under {C : Contract O} (V : Live C) (k nv0 : Nat) (B : Nat → Lit → Prop) (b0 : Nat → List Nat) (t0 : T) (hk : 0 < k) : Live (C.under k B t0) where
  F := V.F
  Done := V.Done
  LI := UnderLI V k nv0 B b0
  adv := by
    intro t nv nv' b n A A' P P' h hn h1 h2 h3 h4
    refine ⟨h.1.trans hn, rising_adv h.2.1 h1 h2, ?_⟩
    have adv : ∀ P0 : Lit → Prop, V.LI t nv0 b0 (n + k) (lift k B A) P0 → V.LI t nv0 b0 (n + k) (lift k B A') (fun q => P0 q ∨ (A' n q ∧ ¬ A n q)) := fun P0 hx =>
      V.adv hx (Nat.le_refl _) (fun i q hi hq => lift_mono (fun i hi q => h1 i q hi) hi hq) (fun i q hi hq => lift_back (fun i hi q => h2 i q hi) hi hq)
        (fun q hq => by
          rw [lift_add] at *
          by_cases hx : A n q
          · exact .inl hx
          · exact .inr (.inr ⟨hq, hx⟩)) (fun q hq => .inl hq)
    rcases h.2.2 with ⟨P0, g1, g2, g3⟩ | ⟨⟨L, g1⟩, g2, P0, g3⟩
    · refine .inl ⟨_, ?_, ?_, adv P0 g3⟩
      · rintro q (hq | hq)
        · exact h4 q (g1 q hq)
        · exact (h3 q hq.1).resolve_left hq.2
      · exact g2.mono (fun q => h1 0 q (Nat.zero_le _)) (fun q hq hx => hx.resolve_right (fun hx => hx.2 (h.2.1 n (Nat.le_refl _) q hq)))
    · exact .inr ⟨⟨L, fun q hq => h4 q (g1 q hq)⟩, g2.mono (fun q => h1 0 q (Nat.zero_le _)) (fun _ _ h => h), _, adv P0 g3⟩
  pop := by
    intro t nv b n A P h
    have key : Cleared b0 b A (fun _ => False) ∧ ∃ P0 : Lit → Prop, V.LI t nv0 b0 (n + k + 1) (lift k B A) P0 := by
      rw [show n + k + 1 = n + 1 + k by omega]
      rcases h.2.2 with ⟨P0, -, g2, g3⟩ | ⟨-, g2, g3⟩
      · exact ⟨g2.weak, P0, g3⟩
      · exact ⟨g2, g3⟩
    obtain ⟨g1, P0, g2⟩ := key
    obtain ⟨t', g3, g4⟩ := V.pop g2
    exact ⟨t', g3, h.1, fun i hi => h.2.1 i (by omega), .inl ⟨_, fun _ h => h, g1, g4⟩⟩
  push := by
    intro t nv b n A P h hP hA
    obtain ⟨P0, g1, g2, g3⟩ := h.empty hP
    refine ⟨h.1, fun i hi q hq => ?_, .inl ⟨fun _ => False, fun _ h => h, g2.weak, ?_⟩⟩
    · by_cases hx : i ≤ n
      · exact h.2.1 i hx q hq
      · obtain rfl : i = n + 1 := by omega
        exact (hA q).2 (h.2.1 n (Nat.le_refl _) q hq)
    · have := V.push g3 g1 (fun q => by
        rw [show n + k + 1 = (n + 1) + k by omega, lift_add, lift_add]
        exact hA q)
      rw [show n + 1 + k = n + k + 1 by omega]
      exact this
  prop := by
    intro t nv b n A P P1 val p h ht hP hv hc hp
    have hAp : A n p := (hv p).2 hp
    have hv' : ∀ q, lift k B A (n + k) q ↔ val q = some true := fun q => by rw [lift_add]; exact hv q
    by_cases hb : b p.var = b0 p.var
    · rcases h.2.2 with ⟨P0, g1, g2, g3⟩ | ⟨⟨L, g1⟩, g2, P0, g3⟩
      · rcases V.prop (P := fun q => P0 q ∧ q ≠ p) g3 ht.2.1 (fun q hq => by
          by_cases e : q = p
          · exact .inr e
          · exact .inl ⟨hq, e⟩) hv' hc hp with ⟨e, f⟩ | ⟨i, e, f⟩
        · exact .inl ⟨hb.trans e, h.1, h.2.1, .inl ⟨_, fun q hq => (hP q (g1 q hq.1)).resolve_right hq.2, g2.mono (fun _ h => h) (fun _ _ h => h.1), f⟩⟩
        · exact .inr ⟨i, hb.trans e, f.under hk h.1 rfl ht.1 h.2.1 hv hAp (.inl ⟨g2.mono (fun _ h => h) (fun _ _ h => h.1), fun x => x.2 rfl, fun q hq => (hP q (g1 q hq.1)).resolve_right hq.2⟩)⟩
      · have hcof : ∃ L : List Lit, ∀ q, q ∉ L → P q := ⟨p :: L, fun q hq => by
          rw [List.mem_cons, not_or] at hq
          exact (hP q (g1 q hq.2)).resolve_right hq.1⟩
        rcases V.prop (P := P0) g3 ht.2.1 (fun q hq => .inl hq) hv' hc hp with ⟨e, f⟩ | ⟨i, e, f⟩
        · exact .inl ⟨hb.trans e, h.1, h.2.1, .inr ⟨hcof, g2, P0, f⟩⟩
        · exact .inr ⟨i, hb.trans e, f.under hk h.1 rfl ht.1 h.2.1 hv hAp (.inr ⟨g2, hcof⟩)⟩
    · left
      rcases h.2.2 with ⟨P0, g1, g2, g3⟩ | ⟨⟨L, g1⟩, g2, P0, g3⟩
      · rcases g2 p.var with e | ⟨e, q, e1, e2, e3⟩
        · exact absurd e hb
        · have hq := (hv q).1 (h.2.1 n (Nat.le_refl _) q e2)
          have hqp : q = p := by
            refine Sat.lit_ext e1 ?_
            by_contra hs
            have : p = q.neg := Sat.lit_ext (by rw [Lit.neg_var]; exact e1.symm) (by rw [Lit.neg_sign]; cases hx : q.sign <;> cases hy : p.sign <;> simp_all)
            rw [this, hc q, hq] at hp
            cases hp
          subst hqp
          refine ⟨e, h.1, h.2.1, .inl ⟨P0, fun x hx => (hP x (g1 x hx)).resolve_right (fun e => e3 (e ▸ hx)), g2, g3⟩⟩
      · refine ⟨?_, h.1, h.2.1, .inr ⟨⟨p :: L, fun q hq => ?_⟩, g2, P0, g3⟩⟩
        · rcases g2 p.var with e | ⟨e, -⟩
          · exact absurd e hb
          · exact e
        · rw [List.mem_cons, not_or] at hq
          exact (hP q (g1 q hq.2)).resolve_right hq.1
  check := by
    intro t nv b n A P val h ht hP hv hc
    obtain ⟨P0, g1, g2, g3⟩ := h.empty hP
    obtain ⟨t', r, f1, f2, f3⟩ := V.check g3 ht.2.1 g1 (fun q => by rw [lift_add]; exact hv q) hc
    refine ⟨t', r, f1, fun e => ?_, fun cl e => ?_⟩
    · obtain ⟨a, c, α, d1, d2⟩ := f2 e
      exact ⟨⟨h.1, h.2.1, .inl ⟨_, fun _ h => h, g2.weak, a⟩⟩, c, α, d1, fun q hq => d2 q (by rw [lift_add]; exact hq)⟩
    · obtain ⟨a, c⟩ := f3 cl e
      exact ⟨⟨h.1, h.2.1, .inr ⟨⟨[], fun _ _ => trivial⟩, g2.weak, _, a⟩⟩, c⟩

end Semitone
