import Verif.Sat.Tower
import Verif.Sat.SteadyOps
import Verif.Sat.Guarded

/-!
# A theory that is live also keeps what it keeps in every run
-/
namespace Semitone
variable {T : Type} {O O' : TheoryOps T} {C : Contract O} {e0 : Err}

theorem ActLive.with {F : Err → Prop} {Q Q' Q'' : T → (Nat → Lit → Prop) → (Lit → Prop) → Prop} {R R' R'' : T → (Nat → Lit → Prop) → Prop} {n nv : Nat} {p : Lit} {A : Nat → Lit → Prop} {P : Lit → Prop} {val : Lit → Option Bool}
    {act : TAct T} (hQ : ∀ t A P, Q t A P → Q' t A P → Q'' t A P) (hR : ∀ t A, R t A → R' t A → R'' t A) (h : ActLive F Q R n nv p A P val act) : ActFirm Q' R' n A P val act → ActLive F Q'' R'' n nv p A P val act := by
  induction h with
  | ok h1 => intro h; cases h with
    | ok h2 => exact .ok (hQ _ _ _ h1 h2)
  | confl h1 h2 h3 => intro h; cases h with
    | confl h4 => exact .confl (hR _ _ h1 h4) h2 h3
  | fail h1 => intro h; cases h
  | record h1 h2 h3 h4 h5 _ ih => intro h; cases h with
    | record h6 => exact .record h1 h2 h3 h4 h5 (fun A' P' v a b c d e f g i => ih A' P' v a b c d e f g i (h6 _ _ rfl h1 h3 A' P' v a b c d e f g i))

theorem guards_checkAll (G : Guards O O' e0) (is : List Nat) : ∀ (t : T) (v : Lit → Option Bool), checkAll O is t v = checkAll O' is t v := by
  induction is with
  | nil => intro t v; rfl
  | cons i is ih => intro t v; simp only [checkAll, G.check, ih]

/-- A theory that never makes the core fail, together with what it keeps. -/
def Live.with (V : Live C) (K : Firm O') (G : Guards O O' e0) : Live C where
  F := V.F
  Done := fun t => V.Done t ∧ K.Done t
  LI := fun t nv b n A P => V.LI t nv b n A P ∧ K.LI t nv b n A P
  adv := fun h a b c d e => ⟨V.adv h.1 a b c d e, K.adv h.2 a b c d e⟩
  pop := fun h => by
    obtain ⟨t', h1, h2⟩ := V.pop h.1
    exact ⟨t', h1, h2, K.pop h.2 (by rw [← G.pop]; exact h1)⟩
  push := fun h a b => ⟨V.push h.1 a b, by rw [G.push]; exact K.push h.2 a b⟩
  prop := fun {t nv b n A P P1 val p} h ht hP hv hc hp => by
    rcases V.prop h.1 ht hP hv hc hp with ⟨e, f⟩ | ⟨i, e, f⟩
    · rcases K.prop h.2 hP hv hc hp with ⟨-, g⟩ | ⟨i, e', -⟩
      · exact .inl ⟨e, f, g⟩
      · rw [e] at e'; cases e'
    · rcases K.prop h.2 hP hv hc hp with ⟨e', -⟩ | ⟨j, e', g⟩
      · rw [e] at e'; cases e'
      · rw [e] at e'
        injection e' with e' _
        subst e'
        refine .inr ⟨i, e, ?_⟩
        rcases G.prop i t val p with k | k
        · rw [k] at f ⊢
          cases f with
          | fail f => exact .fail f
        · rw [k] at f ⊢
          exact f.with (fun t A P x y => ⟨⟨x.1, y.1⟩, fun z => ⟨x.2 z, y.2 z⟩⟩) (fun t A x y => ⟨x, y⟩) g
  check := fun h ht hP hv hc => by
    obtain ⟨t', r, f1, f2, f3⟩ := V.check h.1 ht hP hv hc
    obtain ⟨g1, g2⟩ := K.check h.2 hP hv hc (by rw [← guards_checkAll G, ← G.ids]; exact f1)
    refine ⟨t', r, f1, fun e => ?_, fun cl e => ?_⟩
    · obtain ⟨a, b, c⟩ := f2 e
      exact ⟨⟨a, (g1 e).1⟩, ⟨b, (g1 e).2⟩, c⟩
    · exact ⟨⟨(f3 cl e).1, g2 cl e⟩, (f3 cl e).2⟩

namespace Sat
variable {V : Live C} {K : Firm O'} {G : Guards O O' e0} {s : Sat T} {d : Bool}

theorem LiveD.with (h : s.LiveD V d) (hc : s.Calm K) : s.LiveD (V.with K G) d := ⟨⟨h.live.fix, ⟨h.live.li, hc.li⟩, h.live.cons⟩, h.con⟩

theorem LiveD.sole (h : s.LiveD (V.with K G) d) : s.LiveD V d := ⟨⟨h.live.fix, h.live.li.1, h.live.cons⟩, h.con⟩

/-- A core that was left aside: only the theories have moved. -/
theorem Calm.aside {t : T} {n : List (Nat × Nat × Option Bool)} (h : s.Calm K) (hL : K.LI t s.nvars s.bounds s.dl s.tru (fun q => q ∈ s.propQ)) : ({ s with th := t, notes := n } : Sat T).Calm K := by
  refine ⟨⟨h.tw.congr rfl rfl rfl rfl rfl rfl (fun _ h => h) h.tw.crng h.tw.wlt, hL, fun D hD => ?_⟩, h.qr⟩
  exact (h.lk D hD).imp_right (fun x => x.imp_right (fun ⟨c, a, b⟩ => ⟨c, ⟨a.lt, a.nd, a.cnt, a.wat⟩, b⟩))

end Sat
end Semitone
