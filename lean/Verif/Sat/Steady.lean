import Verif.Sat.Down

/-!
# What holds of every run that does not fail

`Contract` and `Live` say when the core is right and never fails. `Firm` asks much less of a theory: to preserve its own invariant, and not to fail itself. It is met by theories that can be wrong
(that record clauses which do not follow); the runs that do not fail still leave every posted clause watched, and the theory's invariant intact.
-/
namespace Semitone

/-- What a theory told that `p` is true keeps at decision level `n`, if the clauses it records are accepted by the core. Compare `ActLive`: nothing is asked of the clauses and of the conflicts. -/
inductive ActFirm {T : Type} (Q : T → (Nat → Lit → Prop) → (Lit → Prop) → Prop) (R : T → (Nat → Lit → Prop) → Prop) (n : Nat) :
    (Nat → Lit → Prop) → (Lit → Prop) → (Lit → Option Bool) → TAct T → Prop
  | ok {A P val t} : Q t A P → ActFirm Q R n A P val (.ok t)
  | confl {A P val t cl} : R t A → ActFirm Q R n A P val (.confl t cl)
  | record {A P val cl k} : (∀ l0 rest, cl = l0 :: rest → val l0 = none → (∀ q ∈ rest, val q = some false) →
      ∀ A' P' v, (∀ i q, i ≤ n → A i q → A' i q) → (∀ i q, i < n → A' i q → A i q) → (∀ q, A' n q → A n q ∨ q = l0) → A' n l0 → (∀ q, P q → P' q) → P' l0 →
        (∀ q, A' n q ↔ v q = some true) → Coh v → ActFirm Q R n A' P' v (k v)) →
      ActFirm Q R n A P val (.record cl k)

/-- A theory that keeps its invariant and does not fail. The arguments of `LI` are those of `Live.LI`. -/
structure Firm {T : Type} (O : TheoryOps T) where
  LI : T → Nat → (Nat → List Nat) → Nat → (Nat → Lit → Prop) → (Lit → Prop) → Prop
  /-- What the theory guarantees when its checks find no conflict. -/
  Done : T → Prop
  adv : ∀ {t nv nv' b n A A' P P'}, LI t nv b n A P → nv ≤ nv' → (∀ i q, i ≤ n → A i q → A' i q) → (∀ i q, i < n → A' i q → A i q) →
    (∀ q, A' n q → A n q ∨ P' q) → (∀ q, P q → P' q) → LI t nv' b n A' P'
  pop : ∀ {t t' nv b n A P}, LI t nv b (n + 1) A P → O.pop t = .ok t' → LI t' nv b n A (fun _ => False)
  pop_ok : ∀ {t nv b n A P}, LI t nv b (n + 1) A P → ∃ t', O.pop t = .ok t'
  push : ∀ {t nv b n A P}, LI t nv b n A P → (∀ q, ¬ P q) → (∀ q, A (n + 1) q ↔ A n q) → LI (O.push t) nv b (n + 1) A (fun _ => False)
  prop : ∀ {t nv b n A P P1 val p}, LI t nv b n A P1 → (∀ q, P1 q → P q ∨ q = p) → (∀ q, A n q ↔ val q = some true) → Coh val → val p = some true →
    (b p.var = [] ∧ LI t nv b n A P) ∨
    ∃ i, b p.var = [i] ∧ ActFirm (fun t A P => LI t nv b n A P ∧ (n = 0 → LI t nv (upd b p.var []) n A P)) (fun t A => LI t nv b n A (fun _ => True)) n
      A P val (O.propagate i t val p)
  check : ∀ {t t' nv b n A P val r}, LI t nv b n A P → (∀ q, ¬ P q) → (∀ q, A n q ↔ val q = some true) → Coh val → checkAll O O.ids t val = .ok (t', r) →
    (r = none → LI t' nv b n A (fun _ => False) ∧ Done t') ∧ (∀ cl, r = some cl → LI t' nv b n A (fun _ => True))
  check_ok : ∀ {t nv b n A P val}, LI t nv b n A P → (∀ q, ¬ P q) → (∀ q, A n q ↔ val q = some true) → Coh val → ∃ x, checkAll O O.ids t val = .ok x

namespace Sat
variable {T : Type} {O : TheoryOps T}

/-- Every posted clause contains a literal true at root level, or is a tautology, or is represented by a clause object that is properly watched. -/
def Lk (s : Sat T) : Prop := ∀ D ∈ s.posted, (∃ l ∈ D, s.tru 0 l) ∨ (∃ l ∈ D, l.neg ∈ D) ∨ ∃ c, s.Wtd c ∧ ∀ l ∈ s.db c, l ∈ D

/-- The same during a conflict. -/
def LkC (s : Sat T) : Prop := ∀ D ∈ s.posted, (∃ l ∈ D, s.tru 0 l) ∨ (∃ l ∈ D, l.neg ∈ D) ∨ ∃ c, s.WtdC c ∧ ∀ l ∈ s.db c, l ∈ D

theorem Lk.map {s s' : Sat T} {P P' : Sat T → Nat → Prop} (hp : s'.posted = s.posted) (ht : ∀ q, s.tru 0 q → s'.tru 0 q) (hc : ∀ c, P s c → P' s' c ∧ ∀ l, l ∈ s'.db c ↔ l ∈ s.db c)
    (h : ∀ D ∈ s.posted, (∃ l ∈ D, s.tru 0 l) ∨ (∃ l ∈ D, l.neg ∈ D) ∨ ∃ c, P s c ∧ ∀ l ∈ s.db c, l ∈ D) :
    ∀ D ∈ s'.posted, (∃ l ∈ D, s'.tru 0 l) ∨ (∃ l ∈ D, l.neg ∈ D) ∨ ∃ c, P' s' c ∧ ∀ l ∈ s'.db c, l ∈ D := by
  intro D hD
  rw [hp] at hD
  rcases h D hD with ⟨l, h1, h2⟩ | h1 | ⟨c, h1, h2⟩
  · exact .inl ⟨l, h1, ht l h2⟩
  · exact .inr (.inl h1)
  · obtain ⟨a, b⟩ := hc c h1
    exact .inr (.inr ⟨c, a, fun l hl => h2 l ((b l).1 hl)⟩)

theorem Lk.up {s s' : Sat T} (h : s.Lk) (U : Up s s') : s'.Lk :=
  Lk.map (s := s) (P := fun s c => s.Wtd c) (P' := fun s c => s.Wtd c) U.post (fun _ hq => U.tru_keep hq) (fun c hc => U.wt c _ _ hc) h

theorem Lk.toC {s : Sat T} (h : s.Lk) : s.LkC :=
  Lk.map (s := s) (P := fun s c => s.Wtd c) (P' := fun s c => s.WtdC c) rfl (fun _ hq => hq) (fun _ hc => ⟨hc.toC, fun _ => Iff.rfl⟩) h

theorem LkC.clearQ {s : Sat T} (h : s.LkC) (hw : s.TW) : ({ s with propQ := [] } : Sat T).LkC :=
  Lk.map (s := s) (s' := { s with propQ := [] }) (P := fun s c => s.WtdC c) (P' := fun s c => s.WtdC c) rfl (fun _ hq => hq) (fun _ hc => ⟨hc.clearQ hw, fun _ => Iff.rfl⟩) h

theorem LkC.dn {s s' : Sat T} (h : s.LkC) (D : Dn O s s') : s'.Lk :=
  Lk.map (s := s) (P := fun s c => s.WtdC c) (P' := fun s c => s.Wtd c) D.post (fun q hq => D.keep 0 q (Nat.zero_le _) hq) (fun c hc => D.wt c hc) h

theorem Wt.setTh {s : Sat T} {c Q ex} (t : T) (h : s.Wt c Q ex) : ({ s with th := t } : Sat T).Wt c Q ex := ⟨h.lt, h.nd, h.cnt, h.wat⟩

theorem Up.setTh {s s' : Sat T} (U : Up s s') (t : T) : Up s { s' with th := t } :=
  ⟨⟨U.tw.congr rfl rfl rfl rfl rfl rfl (fun _ h => h) U.tw.crng U.tw.wlt, U.nv, U.lim, U.decs, U.bnd, U.post, U.dead, U.old, U.new, U.que⟩,
    fun c Q ex h => ⟨(U.wt c Q ex h).1.setTh t, (U.wt c Q ex h).2⟩⟩

/-- What holds between calls. -/
structure Steady (K : Firm O) (s : Sat T) : Prop where
  tw : s.TW
  li : K.LI s.th s.nvars s.bounds s.dl s.tru (fun q => q ∈ s.propQ)
  lk : s.Lk

theorem Firm.popTh (K : Firm O) (k : Nat) : ∀ {t t' nv b n A P}, K.LI t nv b n A P → k ≤ n → 0 < k → popTh O k t = .ok t' → K.LI t' nv b (n - k) A (fun _ => False) := by
  induction k with
  | zero => intro t t' nv b n A P h _ h0; omega
  | succ k ih =>
    intro t t' nv b n A P h hk _ he
    obtain ⟨m, rfl⟩ : ∃ m, n = m + 1 := ⟨n - 1, by omega⟩
    simp only [Sat.popTh] at he
    match hp : O.pop t with
    | .error _ => simp [hp] at he
    | .ok t1 =>
      simp only [hp] at he
      have h1 := K.pop h hp
      have e : m + 1 - (k + 1) = m - k := by omega
      rw [e]
      cases k with
      | zero => injection he with he; subst he; exact h1
      | succ k => exact ih h1 (by omega) (by omega) he

/-- The theory acts. -/
theorem runAct_steady {E : Env} {Q : T → (Nat → Lit → Prop) → (Lit → Prop) → Prop} {R : T → (Nat → Lit → Prop) → Prop} (act : TAct T) :
    ∀ {s s' : Sat T} {r}, s.TW → ActFirm Q R s.dl s.tru (fun q => q ∈ s.propQ) s.value act → runAct E act s = .ok (s', r) →
      Up s s' ∧ (r = none → Q s'.th s'.tru (fun q => q ∈ s'.propQ)) ∧ (∀ cl, r = some cl → R s'.th s'.tru) := by
  induction act with
  | ok t =>
    intro s s' r hw h he
    injection he with he; injection he with h1 h2; subst h1 h2
    cases h with
    | ok h => exact ⟨(Up.refl hw).setTh t, fun _ => h, by simp⟩
  | confl t cl =>
    intro s s' r hw h he
    injection he with he; injection he with h1 h2; subst h1 h2
    cases h with
    | confl h => exact ⟨(Up.refl hw).setTh t, by simp, fun _ _ => h⟩
  | fail e => intro s s' r hw h he; cases he
  | record cl k ih =>
    intro s s' r hw h he
    simp only [runAct] at he
    match hr : s.record E cl with
    | .error _ => simp [hr] at he
    | .ok s1 =>
      simp only [hr] at he
      obtain ⟨U, hth, l0, rest, e, h0, hf, h1, hq, hn⟩ := record_up hw hr
      cases h with
      | record h =>
        have key := h l0 rest e h0 hf s1.tru (fun q => q ∈ s1.propQ) s1.value (fun i q _ hq => U.tru_keep hq) (fun i q hi hq => U.tru_low (by rw [U.dl]; exact hi) hq)
          (fun q hq => by
            rcases hn q hq.1 with h2 | h2
            · exact .inl ((hw.tru_iff q).2 h2)
            · exact .inr h2)
          (by rw [← U.dl]; exact (U.tw.tru_iff l0).2 h1) (fun q hq => U.que q hq) hq (fun q => by rw [← U.dl]; exact U.tw.tru_iff q) (fun q => value_neg s1 q)
        rw [← U.dl] at key
        obtain ⟨a, b, c⟩ := ih s1.value U.tw key he
        exact ⟨U.trans a, b, c⟩

/-- The answer of a propagation. -/
structure Settled (K : Firm O) (s s' : Sat T) (b : Bool) : Prop where
  yes : b = true → s'.Steady K ∧ s'.dead = s.dead ∧ K.Done s'.th
  no : b = false → s'.dead = true ∧ s'.root = true
  q : s'.propQ = []
  nv : s'.nvars = s.nvars
  dl : s'.dl ≤ s.dl
  post : s'.posted = s.posted
  keep : ∀ q, s.tru 0 q → s'.tru 0 q

theorem runChecks_th {O : TheoryOps T} (is : List Nat) : ∀ {s s' : Sat T} {r}, runChecks O is s = .ok (s', r) → ∃ t', s' = { s with th := t' } ∧ checkAll O is s.th s.value = .ok (t', r) := by
  induction is with
  | nil =>
    intro s s' r h
    injection h with h; injection h with h1 h2; subst h1 h2
    exact ⟨s.th, rfl, rfl⟩
  | cons i is ih =>
    intro s s' r h
    simp only [runChecks] at h
    simp only [checkAll]
    match hk : O.check i s.th s.value with
    | .error e => simp [hk] at h
    | .ok (t1, some cl) =>
      simp only [hk] at h
      injection h with h; injection h with h1 h2; subst h1 h2
      exact ⟨t1, rfl, rfl⟩
    | .ok (t1, none) =>
      simp only [hk] at h
      obtain ⟨t', e, h'⟩ := ih h
      exact ⟨t', e, h'⟩

theorem Dn.steady {K : Firm O} {s s' : Sat T} (D : Dn O s s') (hL : K.LI s.th s.nvars s.bounds s.dl s.tru (fun _ => True)) (hk : s.LkC) : s'.Steady K := by
  refine ⟨D.tw, ?_, hk.dn D⟩
  have hlt := D.lt
  have h1 := Firm.popTh K _ hL (Nat.sub_le _ _) (by omega) D.th
  have e : s.dl - (s.dl - s'.dl) = s'.dl := by omega
  rw [e] at h1
  rw [D.bnd]
  exact K.adv h1 (Nat.le_of_eq D.nv.symm) (fun i q hi hq => D.keep i q hi hq) (fun i q hi hq => D.low i q hi hq) (fun q hq => D.new q hq) (fun _ h => h.elim)

theorem propLoop_steady {E : Env} (K : Firm O) (n : Nat) : ∀ {s s' : Sat T} {b}, s.Steady K → propLoop E O n s = .ok (s', b) → Settled K s s' b := by
  induction n with
  | zero => intro s s' b _ he; cases he
  | succ n ih =>
    intro s s' b hS he
    have hw := hS.tw
    have dnext : ∀ {s1 s2 : Sat T}, s1.nvars = s.nvars → s1.dl = s.dl → s1.posted = s.posted → s1.dead = s.dead → (∀ q, s.tru 0 q → s1.tru 0 q) → Dn O s1 s2 → s2.Steady K →
        propLoop E O n s2 = .ok (s', b) → Settled K s s' b := by
      intro s1 s2 h1 h2 h3 h4 h5 D hS2 he2
      have R := ih hS2 he2
      refine ⟨fun hb => ⟨(R.yes hb).1, (R.yes hb).2.1.trans (D.dead.trans h4), (R.yes hb).2.2⟩, R.no, R.q, R.nv.trans (D.nv.trans h1), ?_, R.post.trans (D.post.trans h3), fun q hq => R.keep q (D.keep 0 q (Nat.zero_le _) (h5 q hq))⟩
      have := R.dl; have := D.lt; omega
    unfold propLoop at he
    match hq : s.propQ with
    | p :: q =>
      simp only [hq] at he
      match hv : visit p (s.watches p) { s with propQ := q, watches := upd s.watches p [] } with
      | .error _ => simp [hv] at he
      | .ok (s1, r) =>
        obtain ⟨G, hth, hpv, hpl, W⟩ := visit_pop hw hq hv
        have G' : Gr { s with propQ := q } s1 := G
        have hdl : s1.dl = s.dl := G.dl
        have hkeep : ∀ i x, s.tru i x → s1.tru i x := fun i x hx => G.tru_keep (s := { s with propQ := q }) hx
        have hL1 : K.LI s1.th s1.nvars s1.bounds s1.dl s1.tru (fun x => x ∈ s1.propQ ∨ x = p) := by
          have h0 := hS.li
          have e1 : s1.bounds = s.bounds := G.bnd
          have e2 : s1.nvars = s.nvars := G.nv
          rw [hth, e1, hdl]
          refine K.adv h0 (Nat.le_of_eq e2.symm) (fun i x _ hx => hkeep i x hx) (fun i x hi hx => G.tru_low (s := { s with propQ := q }) (by omega) hx) (fun x hx => ?_) (fun x hx => ?_)
          · rcases G.new x hx.1 with h1 | h1
            · exact .inl ((hw.tru_iff x).2 h1)
            · exact .inr (.inl h1)
          · rw [hq] at hx
            rcases List.mem_cons.1 hx with h | h
            · exact .inr h
            · exact .inl (G.que x h)
        match r, W, hv with
        | some c, W, hv =>
          simp only [hv] at he
          have hC : s1.LkC := Lk.map (s := s) (P := fun s c => s.Wtd c) (P' := fun s c => s.WtdC c) G.post (fun x hx => hkeep 0 x hx) (fun c hc => ⟨(W c hc).2.2 (by simp), (W c hc).1⟩) hS.lk
          by_cases hr : ({ s1 with propQ := [] } : Sat T).root = true
          · rw [if_pos hr] at he
            injection he with he; injection he with h1 h2; subst h1 h2
            exact ⟨by simp, fun _ => ⟨rfl, hr⟩, rfl, G.nv, Nat.le_of_eq hdl, G.post, fun x hx => hkeep 0 x hx⟩
          · rw [if_neg hr] at he
            have hpos : 0 < ({ s1 with propQ := [] } : Sat T).dl := not_root hr
            match hx : ({ s1 with propQ := [] } : Sat T).resolveConflict E O (s1.db c) with
            | .error _ => simp [hx] at he
            | .ok s2 =>
              simp only [hx] at he
              have D := resolve_dn G.tw.clearQ rfl hpos hx
              exact dnext (s1 := { s1 with propQ := [] }) G.nv hdl G.post G.dead (fun x hx => hkeep 0 x hx) D
                (D.steady (K.adv hL1 (Nat.le_refl _) (fun _ _ _ h => h) (fun _ _ _ h => h) (fun _ h => .inl h) (fun _ _ => trivial)) (hC.clearQ G.tw)) he
        | none, W, hv =>
          simp only [hv] at he
          have hC : s1.Lk := Lk.map (s := s) (P := fun s c => s.Wtd c) (P' := fun s c => s.Wtd c) G.post (fun x hx => hkeep 0 x hx) (fun c hc => ⟨(W c hc).2.1 rfl, (W c hc).1⟩) hS.lk
          have hpv1 : s1.value p = some true := G.val hpv
          rcases K.prop (P := fun x => x ∈ s1.propQ) hL1 (fun _ h => h) G.tw.tru_iff (fun x => value_neg s1 x) hpv1 with ⟨hb, hL2⟩ | ⟨i, hb, hA⟩
          · rw [hb] at he
            simp only [runBinds] at he
            have e : upd s1.bounds p.var [] = s1.bounds := by
              funext v
              by_cases h : v = p.var
              · rw [h, upd_self, hb]
              · rw [upd_ne _ _ h]
            have e2 : (if s1.root then { s1 with bounds := upd s1.bounds p.var [] } else s1) = s1 := by
              rw [e]; split <;> rfl
            rw [e2] at he
            have R := ih ⟨G.tw, hL2, hC⟩ he
            exact ⟨fun hb => ⟨(R.yes hb).1, (R.yes hb).2.1.trans G.dead, (R.yes hb).2.2⟩, R.no, R.q, R.nv.trans G.nv, by have := R.dl; omega, R.post.trans G.post, fun x hx => R.keep x (hkeep 0 x hx)⟩
          · rw [hb] at he
            simp only [runBinds] at he
            match hact : runAct E (O.propagate i s1.th s1.value p) s1 with
            | .error _ => simp [hact] at he
            | .ok (s2, r) =>
              obtain ⟨U, g1, g2⟩ := runAct_steady _ G.tw hA hact
              have hk2 : ∀ x, s.tru 0 x → s2.tru 0 x := fun x hx => U.tru_keep (hkeep 0 x hx)
              have hC2 := hC.up U
              match r, g1, g2, hact with
              | some cl, g1, g2, hact =>
                simp only [hact] at he
                by_cases hr : ({ s2 with propQ := [] } : Sat T).root = true
                · rw [if_pos hr] at he
                  injection he with he; injection he with h1 h2; subst h1 h2
                  exact ⟨by simp, fun _ => ⟨rfl, hr⟩, rfl, U.nv.trans G.nv, Nat.le_of_eq (U.dl.trans hdl), U.post.trans G.post, hk2⟩
                · rw [if_neg hr] at he
                  have hpos : 0 < ({ s2 with propQ := [] } : Sat T).dl := not_root hr
                  match hx : ({ s2 with propQ := [] } : Sat T).analyzeAndBackjump E O cl with
                  | .error _ => simp [hx] at he
                  | .ok s3 =>
                    simp only [hx] at he
                    have D := analyzeAndBackjump_dn U.tw.clearQ rfl hpos hx
                    refine dnext (s1 := { s2 with propQ := [] }) (U.nv.trans G.nv) (U.dl.trans hdl) (U.post.trans G.post) (U.dead.trans G.dead) hk2 D (D.steady ?_ (hC2.toC.clearQ U.tw)) he
                    have := g2 cl rfl
                    show K.LI s2.th s2.nvars s2.bounds s2.dl s2.tru _
                    rw [U.bnd, U.nv, U.dl]; exact this
              | none, g1, g2, hact =>
                simp only [hact] at he
                obtain ⟨a, b'⟩ := g1 rfl
                by_cases hr : s2.root = true
                · rw [if_pos hr] at he
                  have R := ih (s := { s2 with bounds := upd s2.bounds p.var [] }) ⟨U.tw.congr rfl rfl rfl rfl rfl rfl (fun _ h => h) U.tw.crng U.tw.wlt, by
                    show K.LI s2.th s2.nvars (upd s2.bounds p.var []) s2.dl s2.tru _
                    rw [U.bnd, U.nv, U.dl]
                    apply b'
                    rw [← U.dl]; exact (root_iff s2).1 hr, Lk.map (s := s2) (s' := { s2 with bounds := upd s2.bounds p.var [] }) (P := fun s c => s.Wtd c) (P' := fun s c => s.Wtd c) rfl (fun _ h => h)
                      (fun c hc => ⟨⟨hc.lt, hc.nd, hc.cnt, hc.wat⟩, fun _ => Iff.rfl⟩) hC2⟩ he
                  have hd2 : s2.dl = s.dl := U.dl.trans hdl
                  exact ⟨fun hb => ⟨(R.yes hb).1, (R.yes hb).2.1.trans (U.dead.trans G.dead), (R.yes hb).2.2⟩, R.no, R.q, R.nv.trans (U.nv.trans G.nv), Nat.le_trans R.dl (Nat.le_of_eq hd2), R.post.trans (U.post.trans G.post), fun x hx => R.keep x (hk2 x hx)⟩
                · rw [if_neg hr] at he
                  have R := ih (s := s2) ⟨U.tw, by rw [U.bnd, U.nv, U.dl]; exact a, hC2⟩ he
                  have hd2 : s2.dl = s.dl := U.dl.trans hdl
                  exact ⟨fun hb => ⟨(R.yes hb).1, (R.yes hb).2.1.trans (U.dead.trans G.dead), (R.yes hb).2.2⟩, R.no, R.q, R.nv.trans (U.nv.trans G.nv), Nat.le_trans R.dl (Nat.le_of_eq hd2), R.post.trans (U.post.trans G.post), fun x hx => R.keep x (hk2 x hx)⟩
    | [] =>
      simp only [hq] at he
      match hc : runChecks O O.ids s with
      | .error _ => simp [hc] at he
      | .ok (s1, r) =>
        obtain ⟨t', e, hca⟩ := runChecks_th _ hc
        subst e
        obtain ⟨k1, k2⟩ := K.check hS.li (by rw [hq]; simp) hw.tru_iff (fun q => value_neg s q) hca
        have hk : ({ s with th := t' } : Sat T).Lk := hS.lk.up ((Up.refl hw).setTh t')
        have ht : ({ s with th := t' } : Sat T).TW := ((Up.refl hw).setTh t').tw
        match r, k1, k2, hc with
        | none, k1, k2, hc =>
          simp only [hc] at he
          injection he with he; injection he with h1 h2; subst h1 h2
          refine ⟨fun _ => ⟨⟨ht, ?_, hk⟩, rfl, (k1 rfl).2⟩, by simp, hq, rfl, Nat.le_refl _, rfl, fun _ h => h⟩
          exact K.adv (k1 rfl).1 (Nat.le_refl _) (fun _ _ _ h => h) (fun _ _ _ h => h) (fun _ h => .inl h) (fun _ h => h.elim)
        | some cl, k1, k2, hc =>
          simp only [hc] at he
          by_cases hr : ({ s with th := t' } : Sat T).root = true
          · rw [if_pos hr] at he
            injection he with he; injection he with h1 h2; subst h1 h2
            exact ⟨by simp, fun _ => ⟨rfl, hr⟩, hq, rfl, Nat.le_refl _, rfl, fun _ h => h⟩
          · rw [if_neg hr] at he
            have hpos : 0 < ({ s with th := t' } : Sat T).dl := not_root hr
            match hx : ({ s with th := t' } : Sat T).analyzeAndBackjump E O cl with
            | .error _ => simp [hx] at he
            | .ok s3 =>
              simp only [hx] at he
              have D := analyzeAndBackjump_dn ht hq hpos hx
              exact dnext (s1 := { s with th := t' }) rfl rfl rfl rfl (fun _ h => h) D (D.steady (k2 cl rfl) hk.toC) he

end Sat
end Semitone
