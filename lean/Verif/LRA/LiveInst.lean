import Verif.LRA.Live

/-!
# The linear-arithmetic theory is live
-/
namespace Semitone
namespace LRA
open Lin
variable {E : LEnv} {t t' : LRA} {A A' : Nat → Lit → Prop} {Fs : List (List BF)} {P P' : Lit → Prop} {n nv : Nat} {b : Nat → List Nat}

/-- The bounds asserted at root level. -/
def rootF (n : Nat) (Fs : List (List BF)) : List BF := (Fs.drop n).flatten

/-- The bound of every true assertion literal that the theory has been told has been asserted, at the level of the literal or below. -/
def Told (t : LRA) (n : Nat) (A : Nat → Lit → Prop) (P : Lit → Prop) (Fs : List (List BF)) : Prop :=
  ∀ i, i ≤ n → ∀ v sg a, t.vas v = some a → A i ⟨v, sg⟩ → (i = n → ¬ P ⟨v, sg⟩) → a.bf sg ∈ (Fs.drop (n - i)).flatten

/-- The theory listens to the variables of its assertions, except those decided at root level whose bound it has asserted. -/
structure Reg (t : LRA) (nv : Nat) (b : Nat → List Nat) (R : Lit → Prop) (G : List BF) : Prop where
  no : ∀ v, t.vas v = none → b v = []
  yes : ∀ v a, t.vas v = some a → b v = [0] ∨ (b v = [] ∧ ∃ sg, R ⟨v, sg⟩ ∧ a.bf sg ∈ G)
  lt : ∀ v a, t.vas v = some a → v < nv
  pos : ∀ v a, t.vas v = some a → 0 < v
  eps : ∀ v a, t.vas v = some a → a.Ok

/-- The bounds imposed otherwise than by an assertion are asserted at root level. -/
def FactOk (t : LRA) (G : List BF) : Prop := ∀ f ∈ t.facts, match f with
  | .lo _ x v => v = ⊥ ∨ ∃ w : IQ, v = (w : WithBot IQ) ∧ BF.lo x w ∈ G
  | .hi _ x v => v = ⊤ ∨ ∃ w : IQ, v = (w : WithTop IQ) ∧ BF.hi x w ∈ G

/-- No variable is forced to be zero by the definitions. -/
def Nz (t : LRA) : Prop := ∀ v, v < t.n → ∃ X : Nat → IQ, Defs t.defs X ∧ X v ≠ 0

/-- What the theory keeps so that the core does not fail. -/
structure LI (t : LRA) (nv : Nat) (b : Nat → List Nat) (n : Nat) (A : Nat → Lit → Prop) (P : Lit → Prop) : Prop where
  len : t.layers.length = n
  am : ∀ i j q, i ≤ j → j ≤ n → A i q → A j q
  nz : Nz t
  rs : RsAll t (A 0)
  fs : ∃ Fs, Good t A Fs ∧ Told t n A P Fs ∧ Reg t nv b (A 0) (rootF n Fs) ∧ FactOk t (rootF n Fs) ∧ ∀ f ∈ Fs.flatten, f.Eps

theorem Reg.mono {R R' : Lit → Prop} {G G' : List BF} (h : Reg t nv b R G) (hn : nv ≤ nv') (hR : ∀ q, R q → R' q) (hG : ∀ f ∈ G, f ∈ G') : Reg t nv' b R' G' :=
  ⟨h.no, fun v a hv => (h.yes v a hv).imp_right (fun ⟨h1, sg, h2, h3⟩ => ⟨h1, sg, hR _ h2, hG _ h3⟩), fun v a hv => (h.lt v a hv).trans_le hn, h.pos, h.eps⟩

theorem FactOk.mono {G G' : List BF} (h : FactOk t G) (hG : ∀ f ∈ G, f ∈ G') : FactOk t G' := by
  intro f hf
  have := h f hf
  cases f with
  | lo p x v => exact this.imp_right (fun ⟨w, h1, h2⟩ => ⟨w, h1, hG _ h2⟩)
  | hi p x v => exact this.imp_right (fun ⟨w, h1, h2⟩ => ⟨w, h1, hG _ h2⟩)

theorem LI.adv {nv' : Nat} (h : LI t nv b n A P) (hn : nv ≤ nv') (ha : Adv n A P A' P') : LI t nv' b n A' P' := by
  have h0 : ∀ q, A 0 q → A' 0 q := fun q => ha.up 0 q (Nat.zero_le _)
  refine ⟨h.len, fun i j q hij hj hq => ?_, h.nz, h.rs.congr rfl rfl (fun _ _ h => h) h0, ?_⟩
  · rcases Nat.lt_or_ge i j with hlt | hge
    · exact ha.up j q hj (h.am i j q hij hj (ha.low i q (by omega) hq))
    · have : i = j := by omega
      rwa [← this]
  · obtain ⟨Fs, h1, h2, h3, h4, h5⟩ := h.fs
    refine ⟨Fs, h1.mono (fun i hi q => ha.up i q (by rw [← h.len]; exact hi)), fun i hi v sg a hv hA hP => ?_, h3.mono hn h0 (fun _ h => h), h4, h5⟩
    by_cases e : i = n
    · subst e
      rcases ha.new _ hA with h6 | h6
      · exact h2 i hi v sg a hv h6 (fun _ h7 => hP rfl (ha.pen _ h7))
      · exact absurd h6 (hP rfl)
    · exact h2 i hi v sg a hv (ha.low i _ (by omega) hA) (fun h => absurd h e)

theorem LI.pop (h : LI t nv b (n + 1) A P) : ∃ t', t.pop = .ok t' ∧ LI t' nv b n A (fun _ => False) := by
  obtain ⟨Fs, h1, h2, h3, h4, h5⟩ := h.fs
  have hl := h1.lev.length
  rw [h.len] at hl
  match Fs, hl with
  | F :: G :: Gs, hl =>
    obtain ⟨t', hp⟩ := h1.pop_ok
    have hg := h1.pop hp
    refine ⟨t', hp, ?_⟩
    have hrs := h.rs.pop hp
    obtain ⟨L, Ls, hly, e⟩ := pop_cases hp
    have hv : t'.vas = t.vas := by rw [e]
    have hf : t'.facts = t.facts := by rw [e]
    have hd : t'.defs = t.defs := by rw [e]
    have hn : t'.n = t.n := by rw [e]
    have hla : t'.layers = Ls := by rw [e]
    refine ⟨?_, fun i j q hij hj => h.am i j q hij (by omega), ?_, hrs, G :: Gs, hg, ?_, ?_, ?_, ?_⟩
    · have := h.len
      rw [hly] at this
      rw [hla]
      simpa using this
    · unfold Nz; rw [hn, hd]; exact h.nz
    · intro i hi v sg a hva hA _
      rw [hv] at hva
      have := h2 i (by omega) v sg a hva hA (fun e => by omega)
      have e : n + 1 - i = (n - i) + 1 := by omega
      rw [e, List.drop_succ_cons] at this
      exact this
    · have : Reg t nv b (A 0) (rootF (n + 1) (F :: G :: Gs)) := h3
      exact ⟨by rw [hv]; exact this.no, by rw [hv]; exact this.yes, by rw [hv]; exact this.lt, by rw [hv]; exact this.pos, by rw [hv]; exact this.eps⟩
    · unfold FactOk; rw [hf]; exact h4
    · exact fun f hf => h5 f (by rw [List.flatten_cons, List.mem_append]; exact Or.inr hf)

theorem LI.push (h : LI t nv b n A P) (hP : ∀ q, ¬ P q) (hA : ∀ q, A (n + 1) q ↔ A n q) : LI t.push nv b (n + 1) A (fun _ => False) := by
  obtain ⟨Fs, h1, h2, h3, h4, h5⟩ := h.fs
  refine ⟨?_, fun i j q hij hj hq => ?_, h.nz, h.rs.push, [] :: Fs, h1.push (by rw [h.len]; exact fun q hq => (hA q).mpr hq), ?_, ⟨h3.no, h3.yes, h3.lt, h3.pos, h3.eps⟩, fun f hf => h4 f hf, ?_⟩
  · show t.layers.length + 1 = n + 1
    rw [h.len]
  · by_cases e : j = n + 1
    · subst e
      by_cases e : i = n + 1
      · rwa [← e]
      · exact (hA q).mpr (h.am i n q (by omega) (Nat.le_refl _) hq)
    · exact h.am i j q hij (by omega) hq
  · intro i hi v sg a hva hAi _
    by_cases e : i = n + 1
    · subst e
      have := h2 n (Nat.le_refl _) v sg a hva ((hA _).mp hAi) (fun _ => hP _)
      rw [Nat.sub_self] at this ⊢
      exact this
    · have := h2 i (by omega) v sg a hva hAi (fun _ => hP _)
      have e : n + 1 - i = (n - i) + 1 := by omega
      rw [e, List.drop_succ_cons]
      exact this
  · intro f hf
    exact h5 f hf

/-- The theory asserts a bound. -/
theorem told_add {f : BF} {F : List BF} {Gs : List (List BF)} (hl : (F :: Gs).length = n + 1) (h : Told t n A P (F :: Gs)) : Told t n A P ((f :: F) :: Gs) := by
  intro i hi v sg a hv hA hP
  have := h i hi v sg a hv hA hP
  by_cases e : n - i = 0
  · rw [e] at this ⊢
    simp only [List.drop_zero, List.flatten_cons, List.mem_append, List.mem_cons] at this ⊢
    tauto
  · obtain ⟨m, hm⟩ : ∃ m, n - i = m + 1 := ⟨n - i - 1, by omega⟩
    rw [hm] at this ⊢
    exact this

theorem rootF_add {f : BF} {F : List BF} {Gs : List (List BF)} : ∀ g ∈ rootF n (F :: Gs), g ∈ rootF n ((f :: F) :: Gs) := by
  intro g hg
  unfold rootF at hg ⊢
  cases n with
  | zero =>
    simp only [List.drop_zero, List.flatten_cons, List.mem_append, List.mem_cons] at hg ⊢
    tauto
  | succ n => exact hg

theorem rootF_sub {i : Nat} (hi : i ≤ n) : ∀ g ∈ rootF n Fs, g ∈ (Fs.drop (n - i)).flatten := by
  intro g hg
  unfold rootF at hg
  rw [List.mem_flatten] at hg ⊢
  obtain ⟨l, h1, h2⟩ := hg
  refine ⟨l, ?_, h2⟩
  have e : n = (n - i) + i := by omega
  rw [e, ← List.drop_drop] at h1
  exact List.mem_of_mem_drop h1

theorem Nz.same (h : Nz t) (hn : t'.n = t.n) (hd : t'.defs = t.defs) : Nz t' := by
  unfold Nz; rw [hn, hd]; exact h

/-- Told `p`, the theory asserts its bound `a.bf p.sign`. -/
theorem LI.told {p : Lit} {a : Asrt} {F : List BF} {Gs : List (List BF)} {P1 : Lit → Prop} (h : LI t nv b n A P1) (ha : t.vas p.var = some a) (hP : ∀ q, P1 q → P q ∨ q = p)
    (hval : Coh val) (hv : ∀ q, A n q ↔ val q = some true) (hp : val p = some true)
    (h1 : Good t A (F :: Gs)) (h2 : Told t n A P1 (F :: Gs)) (h3 : Reg t nv b (A 0) (rootF n (F :: Gs))) (h4 : FactOk t (rootF n (F :: Gs))) (h5 : ∀ f ∈ (F :: Gs).flatten, f.Eps)
    {t' : LRA} (hs : Same t t') (hrs : RsAll t' (A 0)) (hg : Good t' A ((a.bf p.sign :: F) :: Gs)) :
    LI t' nv b n A P ∧ (n = 0 → LI t' nv (upd b p.var []) n A P) := by
  have hlen : (F :: Gs).length = n + 1 := by rw [h1.lev.length, h.len]
  have htold : Told t' n A P ((a.bf p.sign :: F) :: Gs) := by
    intro i hi v sg a' hva hA hPn
    rw [hs.vas] at hva
    by_cases e : (⟨v, sg⟩ : Lit) = p
    · by_cases hin : i = n
      · rw [← e] at ha ⊢
        have ha : t.vas v = some a := ha
        rw [hva] at ha
        injection ha with ha
        subst ha
        rw [hin, Nat.sub_self]
        simp
      · exact told_add hlen h2 i hi v sg a' hva hA (fun h => absurd h hin)
    · refine told_add hlen h2 i hi v sg a' hva hA (fun hin hP1 => ?_)
      rcases hP _ hP1 with h | h
      · exact hPn hin h
      · exact e h
  have hreg : Reg t' nv b (A 0) (rootF n ((a.bf p.sign :: F) :: Gs)) := by
    have := h3.mono (Nat.le_refl _) (fun _ h => h) (rootF_add (f := a.bf p.sign))
    exact ⟨by rw [hs.vas]; exact this.no, by rw [hs.vas]; exact this.yes, by rw [hs.vas]; exact this.lt, by rw [hs.vas]; exact this.pos, by rw [hs.vas]; exact this.eps⟩
  have hfact : FactOk t' (rootF n ((a.bf p.sign :: F) :: Gs)) := by
    unfold FactOk; rw [hs.facts]; exact h4.mono rootF_add
  have heps : ∀ f ∈ ((a.bf p.sign :: F) :: Gs).flatten, f.Eps := by
    intro f hf
    rw [List.flatten_cons, List.cons_append] at hf
    rcases List.mem_cons.mp hf with rfl | hf
    · exact (h3.eps _ _ ha).eps _
    · exact h5 f hf
  refine ⟨⟨hs.lay.trans h.len, h.am, h.nz.same hs.n hs.defs, hrs, _, hg, htold, hreg, hfact, heps⟩, fun h0 => ⟨hs.lay.trans h.len, h.am, h.nz.same hs.n hs.defs, hrs, _, hg, htold, ?_, hfact, heps⟩⟩
  subst h0
  refine ⟨fun v hv' => ?_, fun v a' hv' => ?_, hreg.lt, hreg.pos, hreg.eps⟩
  · by_cases e : v = p.var
    · rw [e, upd_self]
    · rw [upd_ne _ _ e]; exact hreg.no v hv'
  · by_cases e : v = p.var
    · subst e
      rw [hs.vas, ha] at hv'
      injection hv' with hv'
      subst hv'
      right
      rw [upd_self]
      exact ⟨rfl, p.sign, (hv p).mpr hp, by simp [rootF]⟩
    · rw [upd_ne _ _ e]; exact hreg.yes v a' hv'

theorem bf_x (a : Asrt) (s : Bool) : (∃ v, a.bf s = .lo a.x v) ∨ ∃ v, a.bf s = .hi a.x v := by
  unfold Asrt.bf
  cases a.le <;> cases s
  · exact Or.inr ⟨_, rfl⟩
  · exact Or.inl ⟨_, rfl⟩
  · exact Or.inl ⟨_, rfl⟩
  · exact Or.inr ⟨_, rfl⟩

theorem LI.prop {p : Lit} {P1 : Lit → Prop} {val : Lit → Option Bool} (h : LI t nv b n A P1) (hP : ∀ q, P1 q → P q ∨ q = p) (hv : ∀ q, A n q ↔ val q = some true) (hc : Coh val)
    (hp : val p = some true) :
    (b p.var = [] ∧ LI t nv b n A P) ∨
    ∃ i, b p.var = [i] ∧ ActLive (fun _ => False) (fun t A P => LI t nv b n A P ∧ (n = 0 → LI t nv (upd b p.var []) n A P)) (fun t A => LI t nv b n A (fun _ => True)) n nv p
      A P val (t.propagate E val p) := by
  obtain ⟨Fs, h1, h2, h3, h4, h5⟩ := h.fs
  have skip : b p.var = [] → LI t nv b n A P := by
    intro hb
    refine ⟨h.len, h.am, h.nz, h.rs, Fs, h1, fun i hi v sg a hva hA hPn => ?_, h3, h4, h5⟩
    by_cases e : (⟨v, sg⟩ : Lit) = p
    · have hv0 : v = p.var := congrArg Lit.var e
      rcases h3.yes v a hva with h6 | ⟨_, sg', h6, h7⟩
      · rw [hv0, hb] at h6; cases h6
      · have hA' := (hv _).mp (h.am 0 n _ (Nat.zero_le _) (Nat.le_refl _) h6)
        have hs : sg' = sg := by
          rw [← e] at hp
          have := hc ⟨v, sg⟩
          rw [hp] at this
          cases sg <;> cases sg' <;> first | rfl | (simp only [Lit.neg] at this; rw [show (!true) = false from rfl] at this; rw [hA'] at this; cases this) | (simp only [Lit.neg] at this; rw [show (!false) = true from rfl] at this; rw [hA'] at this; cases this)
        rw [← hs]
        exact rootF_sub hi _ h7
    · exact h2 i hi v sg a hva hA (fun hin hP1 => by
        rcases hP _ hP1 with h | h
        · exact hPn hin h
        · exact e h)
  cases ha : t.vas p.var with
  | none => exact Or.inl ⟨h3.no _ ha, skip (h3.no _ ha)⟩
  | some a =>
    rcases h3.yes _ _ ha with hb | ⟨hb, _⟩
    · right
      refine ⟨0, hb, ?_⟩
      obtain ⟨F, Gs, rfl⟩ := h1.fs
      obtain ⟨hx, hm, e⟩ := propagate_eq (E := E) h1 ha hc hp
      rw [e]
      have hQ : ∀ t', Same t t' → RsAll t' (A 0) → Good t' A ((a.bf p.sign :: F) :: Gs) → ∀ A' P', Adv n A P A' P' →
          (LI t' nv b n A' P' ∧ (n = 0 → LI t' nv (upd b p.var []) n A' P')) := fun t' hs hrs hg A' P' ha' => by
        obtain ⟨x1, x2⟩ := LI.told h ha hP hc hv hp h1 h2 h3 h4 h5 hs hrs hg
        exact ⟨x1.adv (Nat.le_refl _) ha', fun h0 => (x2 h0).adv (Nat.le_refl _) ha'⟩
      have hR : ∀ t', Same t t' → RsAll t' (A 0) → Good t' A (F :: Gs) → ∀ A' P', Adv n A P A' P' → LI t' nv b n A' (fun _ => True) := fun t' hs hrs hg A' P' ha' => by
        have x : LI t' nv b n A (fun _ => True) := by
          refine ⟨hs.lay.trans h.len, h.am, h.nz.same hs.n hs.defs, hrs, _, hg, fun i hi v sg a hva hA hPn => ?_, ?_, ?_, h5⟩
          · rw [hs.vas] at hva
            by_cases hin : i = n
            · exact absurd trivial (hPn hin)
            · exact h2 i hi v sg a hva hA (fun h => absurd h hin)
          · exact ⟨by rw [hs.vas]; exact h3.no, by rw [hs.vas]; exact h3.yes, by rw [hs.vas]; exact h3.lt, by rw [hs.vas]; exact h3.pos, by rw [hs.vas]; exact h3.eps⟩
          · unfold FactOk; rw [hs.facts]; exact h4
        exact x.adv (Nat.le_refl _) ⟨ha'.up, ha'.low, fun q _ => Or.inr trivial, fun _ _ => trivial⟩
      have heps := (h3.eps _ _ ha).eps p.sign
      rcases bf_x a p.sign with ⟨v, hbf⟩ | ⟨v, hbf⟩
      · rw [hbf] at hm hQ heps
        simp only [hbf]
        exact assertLower_live h1 h.len h.rs h3.lt hx hc hv hp hm ⟨fun w hw => by rw [WithBot.coe_inj] at hw; subst hw; exact heps, Or.inr ⟨a, v, ha, hbf⟩⟩ hQ hR
      · rw [hbf] at hm hQ heps
        simp only [hbf]
        exact assertUpper_live h1 h.len h.rs h3.lt hx hc hv hp hm ⟨fun w hw => by rw [WithTop.coe_inj] at hw; subst hw; exact heps, Or.inr ⟨a, v, ha, hbf⟩⟩ hQ hR
    · exact Or.inl ⟨hb, skip hb⟩

/-! ### Rational solutions -/

/-- Asserted bounds that hold with infinitesimals hold for rationals, for every small enough value of the infinitesimal. -/
theorem bfs_rat (X : Nat → IQ) : ∀ (G : List BF), (∀ f ∈ G, f.holds X) → (∀ f ∈ G, f.Eps) →
    ∃ δ0 : ℚ, 0 < δ0 ∧ ∀ δ, 0 < δ → δ ≤ δ0 → ∀ f ∈ G, f.holds (rat fun v => at_ δ (X v))
  | [], _, _ => ⟨1, one_pos, fun _ _ _ _ h => by cases h⟩
  | f :: G, hG, he => by
    obtain ⟨d, hd, hcs⟩ := bfs_rat X G (fun f hf => hG f (List.mem_cons_of_mem _ hf)) (fun f hf => he f (List.mem_cons_of_mem _ hf))
    have hf := hG f List.mem_cons_self
    have hfe := he f List.mem_cons_self
    have key : ∃ δ0 : ℚ, 0 < δ0 ∧ ∀ δ, 0 < δ → δ ≤ δ0 → f.holds (rat fun v => at_ δ (X v)) := by
      cases f with
      | lo x v =>
        obtain ⟨d0, h0, h1⟩ := le_at hf
        refine ⟨d0, h0, fun δ hδ hle => ?_⟩
        have h2 := h1 δ hδ hle
        have hfe : 0 ≤ (ofLex v).2 := hfe
        show IQ.mk (ofLex v).1 (ofLex v).2 ≤ IQ.ofQ (at_ δ (X x))
        rw [IQ.mk_le_ofQ]
        unfold at_ at h2 ⊢
        rcases hfe.lt_or_eq with h | h
        · left
          have := mul_pos hδ h
          linarith
        · rw [← h, mul_zero, add_zero] at h2
          rcases h2.lt_or_eq with h3 | h3
          · exact Or.inl h3
          · exact Or.inr ⟨h3, le_of_eq h.symm⟩
      | hi x v =>
        obtain ⟨d0, h0, h1⟩ := le_at hf
        refine ⟨d0, h0, fun δ hδ hle => ?_⟩
        have h2 := h1 δ hδ hle
        have hfe : (ofLex v).2 ≤ 0 := hfe
        show IQ.ofQ (at_ δ (X x)) ≤ IQ.mk (ofLex v).1 (ofLex v).2
        rw [IQ.ofQ_le_mk]
        unfold at_ at h2 ⊢
        rcases hfe.lt_or_eq with h | h
        · left
          have := mul_neg_of_pos_of_neg hδ h
          linarith
        · rw [h, mul_zero, add_zero] at h2
          rcases h2.lt_or_eq with h3 | h3
          · exact Or.inl h3
          · exact Or.inr ⟨h3, le_of_eq h.symm⟩
    obtain ⟨d', hd', h'⟩ := key
    refine ⟨min d d', lt_min hd hd', fun δ hδ hle f' hf' => ?_⟩
    rcases List.mem_cons.mp hf' with rfl | hf'
    · exact h' δ hδ (hle.trans (min_le_right _ _))
    · exact hcs δ hδ (hle.trans (min_le_left _ _)) f' hf'

/-- The valuation `X` satisfies the definitions, the imposed bounds, and what the literals `Q` say. -/
structure Fits (t : LRA) (Q : Lit → Prop) (X : Nat → IQ) : Prop where
  defs : Defs t.defs X
  fact : ∀ f ∈ t.facts, ∀ α, f.holds α X
  lits : ∀ v sg a, t.vas v = some a → Q ⟨v, sg⟩ → a.means sg X

theorem rat_eta (δ : ℚ) (X : Nat → IQ) (l : Lin) : l.eval IQ.one (rat fun v => at_ δ (X v)) = IQ.ofQ (at_ δ (l.eval IQ.one X)) := by
  rw [eval_rat, eval_at]

/-- With every value within its bounds and nothing left to tell, the values satisfy the network; so do the rationals obtained by giving the infinitesimal a small
enough value. -/
theorem LI.fits (h : LI t nv b n A P) (hP : ∀ q, ¬ P q) (hin : ∀ v, InB (t.lo v) (t.hi v) (t.vals v)) :
    Fits t (A n) t.vals ∧ ∃ δ0 : ℚ, 0 < δ0 ∧ ∀ δ, 0 < δ → δ ≤ δ0 → Fits t (A n) (rat fun v => at_ δ (t.vals v)) := by
  obtain ⟨Fs, h1, h2, h3, h4, h5⟩ := h.fs
  have hh : ∀ f ∈ Fs.flatten, f.holds t.vals := fun f hf => BF.ok_holds (h1.lev.enforced f hf) hin
  have hdefs := (h1.tab.equiv _).mp h1.tab.rows
  have fit : ∀ X, Defs t.defs X → (∀ f ∈ Fs.flatten, f.holds X) → Fits t (A n) X := by
    intro X hd hf
    refine ⟨hd, fun f hff α => ?_, fun v sg a hv hA => ?_⟩
    · have := h4 f hff
      have sub : ∀ g ∈ rootF n Fs, g ∈ Fs.flatten := fun g hg => by
        have := rootF_sub (Nat.le_refl n) g hg
        rwa [Nat.sub_self] at this
      cases f with
      | lo p x v =>
        intro _
        rcases this with e | ⟨w, e, hw⟩
        · rw [e]; exact bot_le
        · rw [e]; exact WithBot.coe_le_coe.mpr (hf _ (sub _ hw))
      | hi p x v =>
        intro _
        rcases this with e | ⟨w, e, hw⟩
        · rw [e]; exact le_top
        · rw [e]; exact WithTop.coe_le_coe.mpr (hf _ (sub _ hw))
    · have := h2 n (Nat.le_refl n) v sg a hv hA (fun _ => hP _)
      rw [Nat.sub_self] at this
      exact (bf_holds a sg X).mp (hf _ this)
  refine ⟨fit _ hdefs hh, ?_⟩
  obtain ⟨δ0, h6, h7⟩ := bfs_rat t.vals Fs.flatten hh h5
  refine ⟨δ0, h6, fun δ hδ hle => fit _ (fun d hd => ?_) (h7 δ hδ hle)⟩
  rw [rat_eta, ← hdefs d hd]
  rfl

/-- A truth assignment that agrees with a rational valuation. -/
theorem LI.th {val : Lit → Option Bool} {x : Nat → ℚ} (h : LI t nv b n A P) (hf : Fits t (A n) (rat x)) (hv : ∀ q, A n q ↔ val q = some true) (hc : Coh val) :
    ∃ α, Mod t α (rat x) ∧ ∀ q, A n q → α.sat q := by
  classical
  obtain ⟨Fs, h1, h2, h3, h4, h5⟩ := h.fs
  have h0 : A n TRUE_lit := by
    have := h1.bok.rlo t.n
    rw [(h1.bok.out t.n (Nat.le_refl _)).2.2.1, h.len] at this
    exact this
  have neg : ∀ v, A n ⟨v, false⟩ → val ⟨v, true⟩ ≠ some true := by
    intro v h e
    have := hc ⟨v, true⟩
    rw [e] at this
    have h := (hv _).mp h
    rw [show (⟨v, true⟩ : Lit).neg = ⟨v, false⟩ from rfl, h] at this
    cases this
  let α : Asg := fun v => match t.vas v with
    | some a => decide (a.says x)
    | none => decide (val ⟨v, true⟩ = some true)
  have hs : ∀ v a, t.vas v = some a → α v = decide (a.says x) := by
    intro v a e; show (match t.vas v with | some a => decide (a.says x) | none => decide (val ⟨v, true⟩ = some true)) = _; rw [e]
  have hn : ∀ v, t.vas v = none → α v = decide (val ⟨v, true⟩ = some true) := by
    intro v e; show (match t.vas v with | some a => decide (a.says x) | none => decide (val ⟨v, true⟩ = some true)) = _; rw [e]
  refine ⟨α, ⟨?_, fun v a hva => ?_, hf.defs, fun f hff => hf.fact f hff α⟩, fun q hq => ?_⟩
  · rw [hn 0 (by
      cases e : t.vas 0 with
      | none => rfl
      | some a => exact absurd (h3.pos _ _ e) (Nat.lt_irrefl _))]
    exact decide_eq_false (neg 0 h0)
  · rw [means_iff (h3.eps _ _ hva), hs v a hva, decide_eq_true_iff]
  · show α q.var = q.sign
    cases e : t.vas q.var with
    | some a =>
      have := (means_iff (h3.eps _ _ e) q.sign x).mp (hf.lits q.var q.sign a e hq)
      rw [hs _ _ e]
      cases hq' : q.sign with
      | true => rw [hq'] at this; exact decide_eq_true (this.mp rfl)
      | false => rw [hq'] at this; exact decide_eq_false (fun h => by have := this.mpr h; cases this)
    | none =>
      rw [hn _ e]
      obtain ⟨v, sg⟩ := q
      cases sg with
      | true => exact decide_eq_true ((hv _).mp hq)
      | false => exact decide_eq_false (neg v hq)

/-! ### `check` -/

theorem LI.psame (h : LI t nv b n A P) (hP : ∀ q, P q → P' q) (hs : PSame t t') (hg : ∀ Fs, Good t A Fs → Good t' A Fs) : LI t' nv b n A P' := by
  obtain ⟨Fs, h1, h2, h3, h4, h5⟩ := h.fs
  refine ⟨by rw [hs.layers]; exact h.len, h.am, h.nz.same hs.n hs.defs, h.rs.congr ?_ hs.layers (by rw [hs.vas]; exact fun _ _ h => h) (fun _ h => h), Fs, hg Fs h1, ?_, ?_, ?_, h5⟩
  · unfold bd; rw [hs.lo, hs.loR, hs.hi, hs.hiR]
  · intro i hi v sg a hva hA hP'
    rw [hs.vas] at hva
    exact h2 i hi v sg a hva hA (fun e hp => hP' e (hP _ hp))
  · exact ⟨by rw [hs.vas]; exact h3.no, by rw [hs.vas]; exact h3.yes, by rw [hs.vas]; exact h3.lt, by rw [hs.vas]; exact h3.pos, by rw [hs.vas]; exact h3.eps⟩
  · unfold FactOk; rw [hs.facts]; exact h4

theorem checkStep_len (hs : Shape t.n t.row) (hne : ∀ v l, t.row v = some l → l.vars ≠ []) {cl : List Lit} (h : t.checkStep E = .confl cl) : 2 ≤ cl.length := by
  have key : ∀ v l up r, t.row v = some l → 2 ≤ (t.rowConfl up l ++ [r]).length := by
    intro v l up r hl
    obtain ⟨ts, k⟩ := l
    have := (rowConfl_picks (t := t) up ts k).length (hs.canon v _ hl).2
    have h1 := hne v _ hl
    rw [List.length_append, this]
    cases ts with
    | nil => exact absurd rfl h1
    | cons a ts => simp
  unfold checkStep at h
  split at h
  · cases h
  · next xi e =>
    split at h
    · cases h
    · next l hl =>
      split at h
      · split at h
        · cases h
        · split at h
          · split at h <;> cases h
          · cases h; exact key xi l _ _ hl
      · split at h
        · cases h
        · split at h
          · split at h <;> cases h
          · cases h; exact key xi l _ _ hl

theorem nonempty_rows (hg : Good t A Fs) (hz : Nz t) (hk : K0 t) : ∀ v l, t.row v = some l → l.vars ≠ [] := by
  intro v l hl e
  obtain ⟨X, h1, h2⟩ := hz v (hg.tab.shape.lt v l hl)
  have := (hg.tab.equiv X).mpr h1 v l hl
  apply h2
  rw [this]
  unfold Lin.eval
  rw [e, hk v l hl]
  simp

theorem checkLoop_len : ∀ (f : Nat) (t t' : LRA) (cl : List Lit), Good t A Fs → Nz t → K0 t → checkLoop E f t = .ok (t', some cl) → 2 ≤ cl.length
  | 0, t, t', cl, _, _, _, h => by simp only [checkLoop] at h; cases h
  | f + 1, t, t', cl, hg, hz, hk, h => by
    rcases checkStep_cases E hg with ⟨e, h1⟩ | ⟨cl', e, h1⟩ | ⟨t1, xi, xj, l0, c0, up0, b0, e, st⟩
    · simp only [checkLoop, e] at h; cases h
    · simp only [checkLoop, e] at h
      cases h
      exact checkStep_len hg.tab.shape (nonempty_rows hg hz hk) e
    · simp only [checkLoop, e] at h
      exact checkLoop_len f t1 t' cl (st.good hg) (hz.same st.same.n st.same.defs) (st.k0 hk) h

/-- Every value is within its bounds. -/
theorem Good.all_in (h : Good t A Fs) (hb : ∀ v, (t.row v).isSome → InB (t.lo v) (t.hi v) (t.vals v)) (v : Nat) : InB (t.lo v) (t.hi v) (t.vals v) := by
  by_cases hv : v < t.n
  · cases e : t.row v with
    | none => exact h.inb v hv e
    | some l => exact hb v (by rw [e]; rfl)
  · obtain ⟨h1, h2, _⟩ := h.bok.out v (Nat.le_of_not_lt hv)
    have h1 : t.lo v = ⊥ := h1
    have h2 : t.hi v = ⊤ := h2
    rw [h1, h2]
    exact ⟨bot_le, le_top⟩

/-- The theory, told everything, finds values for all the variables or a conflict of at least two literals. -/
theorem LI.check {S : Sig} {val : Lit → Option Bool} (h : LI t nv b n A P) (hT : TI S t n A) (hP : ∀ q, ¬ P q) (hv : ∀ q, A n q ↔ val q = some true) (hc : Coh val) :
    ∃ t' r, t.check E = .ok (t', r) ∧ PSame t t' ∧
      (r = none → LI t' nv b n A (fun _ => False) ∧ (∀ v, InB (t'.lo v) (t'.hi v) (t'.vals v)) ∧ ∃ α, Th t' α ∧ ∀ q, A n q → α.sat q) ∧
      (∀ cl, r = some cl → LI t' nv b n A (fun _ => True) ∧ 2 ≤ cl.length) := by
  obtain ⟨Fs, h1, h2, h3, h4, h5⟩ := h.fs
  obtain ⟨t', r, e, hck⟩ := check_total E h1
  have hgood : ∀ Fs, Good t A Fs → Good t' A Fs := fun Gs hg => by
    obtain ⟨t1, r1, e1, h1'⟩ := check_total E hg
    rw [e] at e1
    injection e1 with e1; injection e1 with e1 e2
    subst e1
    exact h1'.good
  refine ⟨t', r, e, hck.same, fun hr => ?_, fun cl hr => ?_⟩
  · have hL := h.psame (P' := fun _ => False) (fun q hq => hP q hq) hck.same hgood
    have hin := hck.good.all_in (hck.sol hr)
    refine ⟨hL, hin, ?_⟩
    obtain ⟨_, δ, hδ, hf⟩ := hL.fits (fun _ h => h) hin
    obtain ⟨α, ha, hb⟩ := hL.th (hf δ hδ (le_refl _)) hv hc
    exact ⟨α, ⟨_, ha⟩, hb⟩
  · subst hr
    exact ⟨h.psame (fun _ _ => trivial) hck.same hgood, checkLoop_len _ _ _ _ h1 h.nz hT.k0 e⟩

/-- The linear-arithmetic theory is live. -/
def live (L : LEnv) (S : Sig) : Live (lraContract L S) where
  F := fun _ => False
  LI := LI
  Done := fun t => ∀ v, InB (t.lo v) (t.hi v) (t.vals v)
  adv := fun h hn h1 h2 h3 h4 => h.adv hn ⟨h1, h2, h3, h4⟩
  pop := fun h => h.pop
  push := fun h hP hA => h.push hP hA
  prop := fun {t nv b n A P P1 val p} h hT hP hv hc hp => by
    rcases LI.prop (E := L) h hP hv hc hp with h | ⟨i, h1, h2⟩
    · exact Or.inl h
    · exact Or.inr ⟨i, h1, h2⟩
  check := fun {t nv b n A P val} h hT hP hv hc => by
    obtain ⟨t', r, h1, _, h2, h3⟩ := LI.check (E := L) h hT hP hv hc
    exact ⟨t', r, checkAll_one (O := ops L) (i := 0) h1, h2, h3⟩

end LRA
end Semitone
