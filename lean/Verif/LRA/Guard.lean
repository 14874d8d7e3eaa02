import Verif.LRA.Rel
import Verif.Sat.PropsA

/-!
# The linear-arithmetic theory respects the contract of the core
-/
namespace Semitone
namespace LRA
open Lin
variable {E : LEnv} {t t' : LRA} {A A' : Nat → Lit → Prop} {Fs : List (List BF)}

/-- Meaning of the theory: some rational valuation satisfies the definitions and the imposed bounds and makes every assertion literal true exactly when its
relation holds. -/
def Th (t : LRA) (α : Asg) : Prop := ∃ x : Nat → ℚ, Mod t α (rat x)

/-- What the core does not change: variables, assertions, definitions, imposed bounds, expressions. -/
structure Sig where
  n : Nat
  vas : Nat → Option Asrt
  defs : List (Nat × Lin)
  facts : List Fact
  exprs : List (Lin × Nat)
  sas : List ((Bool × Nat × IQ) × Lit)

/-- The signature of the theory. -/
def sig (t : LRA) : Sig := ⟨t.n, t.vas, t.defs, t.facts, t.exprs, t.sas⟩

theorem mod_of_sig (h : sig t' = sig t) (α : Asg) (X : Nat → IQ) : Mod t' α X ↔ Mod t α X :=
  mod_congr (congrArg Sig.vas h) (congrArg Sig.defs h) (congrArg Sig.facts h) α X

theorem th_of_sig (h : sig t' = sig t) (α : Asg) : Th t' α ↔ Th t α := by
  unfold Th
  simp only [mod_of_sig h]

theorem Same.sig (h : Same t t') : sig t' = sig t := by
  unfold LRA.sig
  rw [h.n, h.vas, h.defs, h.facts, h.exprs, h.sas]

theorem PSame.sig (h : PSame t t') : sig t' = sig t := by
  unfold LRA.sig
  rw [h.n, h.vas, h.defs, h.facts, h.exprs, h.sas]

/-- The invariant of the theory inside the core, at decision level `n`. -/
structure TI (S : Sig) (t : LRA) (n : Nat) (A : Nat → Lit → Prop) : Prop where
  sig : sig t = S
  k0 : K0 t
  exp : Exp t
  len : t.layers.length = n
  fl : ∀ f ∈ t.facts, A 0 f.lit
  good : ∃ Fs, Good t A Fs

theorem TI.mono {S : Sig} {n : Nat} (h : TI S t n A) (hA : ∀ i, i ≤ n → ∀ q, A i q → A' i q) : TI S t n A' := by
  obtain ⟨Fs, hg⟩ := h.good
  exact ⟨h.sig, h.k0, h.exp, h.len, fun f hf => hA 0 (Nat.zero_le _) _ (h.fl f hf), Fs, hg.mono (fun i hi => hA i (by rw [← h.len]; exact hi))⟩

theorem Good.fs (h : Good t A Fs) : ∃ F Gs, Fs = F :: Gs := by
  have := h.lev.length
  cases Fs with
  | nil => simp at this
  | cons F Gs => exact ⟨F, Gs, rfl⟩

theorem actOK_of {S : Sig} {t0 : LRA} {n : Nat} {A0 : Nat → Lit → Prop} {V : List Lit → Prop} {P R : LRA → Prop} {act : TAct LRA} {val : Lit → Option Bool}
    (hv : act.Valid V P R val) (hV : ∀ cl, V cl → ∀ α, Th t0 α → α.clause cl) (hP : ∀ t, P t → TI S t n A0 ∧ ∀ α, Th t α ↔ Th t0 α)
    (hR : ∀ t, R t → TI S t n A0 ∧ ∀ α, Th t α ↔ Th t0 α) : Coh val → ∀ A : Nat → Lit → Prop, (∀ i, i ≤ n → ∀ q, A0 i q → A i q) → (∀ q, A n q ↔ val q = some true) →
    ActOK Th (TI S) t0 n A act := by
  induction hv with
  | ok h => intro _ A hA _; exact .ok ((hP _ h).1.mono hA) (hP _ h).2
  | confl h h1 h2 =>
    intro hc A hA hval
    refine .confl ((hR _ h).1.mono hA) (hR _ h).2 (hV _ h1) (fun q hq => ?_)
    rw [hval, hc q, h2 q hq]
    rfl
  | record h1 _ ih =>
    intro _ A hA hval
    refine .record (hV _ h1) (fun A' v hA' hv' hcv => ih v (fun q hq => (hv' q).mp (hA' n (Nat.le_refl n) q ((hval q).mpr hq))) hcv hcv A' ?_ hv')
    exact fun i hi q hq => hA' i hi q (hA i hi q hq)

/-- The linear-arithmetic theory keeps the contract the core relies on; `S` is what only the calls of the user change. -/
def lraContract (E : LEnv) (S : Sig) : Contract (ops E) where
  Th := Th
  TI := TI S
  mono := fun _ _ _ _ h hA => h.mono hA
  prop := fun _ t n A val p h hval hc hp => by
    show ActOK Th (TI S) t n A (t.propagate E val p)
    cases ha : t.vas p.var with
    | none => unfold propagate; rw [ha]; exact .fail
    | some a =>
      obtain ⟨Fs, hg⟩ := h.good
      obtain ⟨F, Gs, rfl⟩ := hg.fs
      have hv := propagate_valid E hg ha hc (fun q hq => (hval q).mp (by rw [← h.len]; exact hq)) (by rw [h.len]; exact (hval p).mpr hp)
      have key : ∀ t' Fs', Good t' A Fs' ∧ Same t t' → TI S t' n A ∧ ∀ α, Th t' α ↔ Th t α := by
        rintro t' Fs' ⟨hg', hs⟩
        refine ⟨⟨hs.sig.trans h.sig, fun v l hl => h.k0 v l (by rw [← hs.row]; exact hl), h.exp.same hs, hs.lay.trans h.len, by rw [hs.facts]; exact h.fl, Fs', hg'⟩, th_of_sig hs.sig⟩
      exact actOK_of hv (fun cl hcl α ⟨x, hx⟩ => hcl h.k0 α _ hx) (fun t' h' => key t' _ h') (fun t' h' => key t' _ h') hc A (fun _ _ _ h => h) hval
  check := fun _ t n A val t' r h hval hc hck => by
    have hck : t.check E = .ok (t', r) := hck
    obtain ⟨Fs, hg⟩ := h.good
    obtain ⟨t1, r1, e, h1⟩ := check_total E hg
    rw [hck] at e
    injection e with e; injection e with e1 e2
    subst e1 e2
    refine ⟨⟨h1.same.sig.trans h.sig, h1.k0 h.k0, h.exp.psame h1.same h1.k0, by rw [h1.same.layers]; exact h.len, by rw [h1.same.facts]; exact h.fl, Fs, h1.good⟩, th_of_sig h1.same.sig, fun cl hcl => ?_⟩
    obtain ⟨a, b⟩ := h1.lem cl hcl
    refine ⟨fun α ⟨x, hx⟩ => a α _ hx, fun q hq => ?_⟩
    rw [← h.len]
    obtain ⟨v, e | e⟩ := b q hq
    · rw [e, Lit.neg_neg]; exact hg.bok.rlo v
    · rw [e, Lit.neg_neg]; exact hg.bok.rhi v
  push := fun t n A h hA => by
    obtain ⟨Fs, hg⟩ := h.good
    refine ⟨⟨h.sig, h.k0, ⟨h.exp.ex, h.exp.sa, h.exp.kk⟩, ?_, h.fl, [] :: Fs, hg.push (by rw [h.len]; exact hA)⟩, fun _ => th_of_sig (t' := t.push) (t := t) rfl _⟩
    show t.layers.length + 1 = n + 1
    rw [h.len]
  pop := fun t t' n A h hp => by
    obtain ⟨Fs, hg⟩ := h.good
    obtain ⟨F, Gs, rfl⟩ := hg.fs
    have hg' := hg.pop hp
    obtain ⟨L, Ls, hl, e⟩ := pop_cases hp
    subst e
    refine ⟨⟨h.sig, h.k0, ⟨h.exp.ex, h.exp.sa, h.exp.kk⟩, ?_, h.fl, Gs, hg'⟩, fun α => by apply th_of_sig; rfl⟩
    have := h.len
    rw [hl] at this
    simpa using this

end LRA
end Semitone
