import Verif.Lib.DutyOV
import Verif.Mix.Props

/-!
# Any number of theories on one core: sessions, and what holds in them
-/
namespace Semitone

/-- The sessions of a core with the theories `C`, when `sops` are the theories with the propagations they cannot answer for turned into the failure `excluded`. `U`: what the client has imposed on the theories; `d`: something was
imposed since the last `propagate()` or `simplify_db()` (decisions wait for it). -/
inductive Comp.Sess {T : Type} (E : Env) (C : Comp T) (sops : TheoryOps T) : Sat T → C.Dat → Bool → Prop
  | init {t} : C.Start t → Sess E C sops (Sat.init t) C.d0 false
  | step {S U d op S' out} : Sess E C sops S U d → S.Legal op → LRA.MayCall op d → S.step E sops op ≠ .error .excluded → S.step E C.ops op = .ok (S', out) → Sess E C sops S' U (LRA.pendingAfter op d)
  | theory {S U d S' U' d'} : Sess E C sops S U d → S.dead = false → C.Call S U S' U' → (d' = true ∨ U' = U ∧ d' = d) → Sess E C sops S' U' d'

namespace Duty
variable {T : Type} {E : Env} {C : Comp T} {D : Duty C} {S S' : Sat T} {U U' : C.Dat} {d : Bool} {α : Asg} {x : C.Val}

/-- A solution of the whole network: a truth assignment that satisfies the posted clauses, and values that satisfy the network of each theory. -/
structure Model (D : Duty C) (S : Sat T) (U : C.Dat) (α : Asg) (x : C.Val) : Prop where
  zero : α 0 = false
  posted : ∀ D ∈ S.posted, α.clause D
  net : D.Net S.th U α x

/-- What holds in the sessions. -/
structure Held (E : Env) (D : Duty C) (S : Sat T) (U : C.Dat) (d : Bool) : Prop where
  si : D.SI anyAsg S U
  live : S.dead = true ∨ D.Alive S d
  faith : S.dead = true ∨ Comp.Faith C U S

theorem Held.rinv (h : Held E D S U d) : S.RInv (D.con (D.sg S.th)) :=
  (D.rinv h.si).retheory (C' := D.con (D.sg S.th)) (t := S.th) S.bounds (fun _ k => ⟨k, trivial⟩) (D.rinv h.si).inv.ti

theorem Held.sol (h : Held E D S U d) (hm : D.Model S U α x) : S.Sol (D.con (D.sg S.th)).Th α :=
  ⟨hm.zero, hm.posted, (D.con_th _ _ _).mpr (D.th_of h.si α x hm.zero hm.posted hm.net trivial)⟩

theorem Held.alive (h : Held E D S U d) (hd : S.dead = false) : D.Alive S d := h.live.resolve_left (by rw [hd]; simp)

theorem Alive.at {D : Duty C} {g : D.Sg} (e : D.sg S.th = g) {h : D.Ok g} (k : S.LiveD (D.live g h) d) : D.Alive S d := by
  subst e; exact ⟨h, k⟩

/-- A legal call either is excluded or succeeds. -/
theorem Held.total (h : Held E D S U d) {op : Sat.Op} (hl : S.Legal op) (hm : LRA.MayCall op d) :
    (S.step E D.sops op = .error .excluded ∧ ∃ g h e, (D.live g h).F e) ∨ ∃ S' out, S.step E D.sops op = .ok (S', out) := by
  obtain ⟨hk, hL⟩ := h.alive hl.1
  rcases Sat.step_live (E := E) (op := op) h.rinv.inv hL hl (by cases op <;> exact hm) with ⟨e, he, hs⟩ | ⟨s1, o1, h1, -⟩
  · have := D.exc he
    subst this
    exact .inl ⟨hs, _, _, _, he⟩
  · exact .inr ⟨s1, o1, h1⟩

theorem Held.fix (h : Held E D S U d) (hd : S.dead = false) {u : Sat T} (hu : S.propagate E D.sops = .ok (u, true)) : u.Fix u.okQ := by
  obtain ⟨hk, hL⟩ := h.alive hd
  rcases Sat.propagate_live (E := E) h.rinv.inv hL.live with ⟨e, -, h1⟩ | ⟨u', b, h1, h2, -⟩
  · rw [hu] at h1; cases h1
  · rw [hu] at h1
    injection h1 with h1; injection h1 with e1 e2
    subst e1 e2
    exact (h2 rfl).1.live.fix

theorem sg_step (h : Held E D S U d) {op : Sat.Op} {out : Sat.Out} (hl : S.Legal op) (hs : S.step E D.sops op = .ok (S', out)) :
    S'.RInv (D.con (D.sg S.th)) ∧ D.sg S'.th = D.sg S.th ∧ Sat.Grows (D.con (D.sg S.th)) S S' := by
  have hsf : op = .simplify → ∀ u, S.propagate E D.sops = .ok (u, true) → u.Fix u.okQ := fun _ u hu => h.fix hl.1 hu
  have a := Sat.step_rinv h.rinv hsf hs
  exact ⟨a, D.ti_sg a.inv.ti, Sat.step_grows h.rinv hsf hs⟩

theorem safe_eq {op : Sat.Op} (h : S.step E D.sops op ≠ .error .excluded) : S.step E D.sops op = S.step E C.ops op := (Sat.guards_step (E := E) D.guards S op).resolve_left h

/-- A step keeps the invariant. -/
theorem Held.step (h : Held E D S U d) {op : Sat.Op} {out : Sat.Out} (hl : S.Legal op) (hm : LRA.MayCall op d) (hs : S.step E D.sops op = .ok (S', out)) : Held E D S' U (LRA.pendingAfter op d) := by
  obtain ⟨a, e, g⟩ := sg_step h hl hs
  have hb : DL.MayCall op := by cases op <;> first | trivial | exact hm
  refine ⟨?_, ?_, ?_⟩
  · refine D.move h.si e ?_ g.nv (fun _ _ _ k => k) (fun α h0 hp _ _ => ⟨fun D hD => hp D (g.posted D hD), trivial⟩)
    rw [e]
    exact a.retheory (C' := (D.con (D.sg S.th)).restrict anyAsg) (t := S'.th) S'.bounds (fun _ k => k.1) a.inv.ti
  · obtain ⟨hk, hL⟩ := h.alive hl.1
    rcases Sat.step_live (E := E) (op := op) h.rinv.inv hL hl (by cases op <;> exact hm) with ⟨e, -, h1⟩ | ⟨s1, o1, h1, -, h3⟩
    · rw [hs] at h1; cases h1
    · rw [hs] at h1
      injection h1 with h1; injection h1 with e1 e2
      subst e1 e2
      refine h3.imp_right (fun h3 => Alive.at e (h := hk) ?_)
      cases op <;> exact h3
  · have hs' : S.step E C.ops op = .ok (S', out) := (safe_eq (by rw [hs]; simp)).symm.trans hs
    exact (Comp.step_onw (h.faith.resolve_left (by rw [hl.1]; simp)) hl hb hs').imp_right (·.1)

theorem Held.call (h : Held E D S U d) (hd : S.dead = false) (hc : C.Call S U S' U') {d' : Bool} (hd' : d' = true ∨ U' = U ∧ d' = d) :
    Held E D S' U' d' ∧ ∀ α x, D.Model S' U' α x → D.Model S U α x := by
  have ff := h.faith.resolve_left (by rw [hd]; simp)
  obtain ⟨a1, a2, -, -, a5⟩ := D.call h.si ff hd (h.alive hd) hc
  refine ⟨⟨a1, ?_, ((Comp.Turn.theory (E := E) hd hc).onw ff).imp_right (·.1)⟩, fun α x hm => ?_⟩
  · rcases a5 with k | ⟨k1, k2⟩
    · exact .inl k
    · rcases hd' with e | ⟨e, e'⟩
      · subst e; exact .inr k1
      · subst e'; exact .inr (k2 e)
  · obtain ⟨k1, k2⟩ := a2 α x hm.zero hm.posted trivial hm.net
    exact ⟨hm.zero, k2, k1⟩

theorem held (h : Comp.Sess E C D.sops S U d) : Held E D S U d := by
  induction h with
  | init h => exact ⟨D.start h, .inr ⟨D.ok (D.start h), D.live0 h _⟩, .inr ⟨C.start h, Sat.init_vow, C.inv_start h⟩⟩
  | step _ hl hm ha hs ih => exact ih.step hl hm ((safe_eq ha).trans hs)
  | theory _ hd hc hd' ih => exact (ih.call hd hc hd').1

/-! ### What follows -/

theorem Held.sound (h : Held E D S U d) :
    (∀ c ∈ S.constrs, ∀ α x, D.Model S U α x → α.clause (S.db c)) ∧
    (∀ q, S.value q = some true → ∀ α x, D.Model S U α x → α.all (S.decUpTo (S.level q.var)) → α.sat q) ∧
    (S.dead = true → ∀ α x, ¬ D.Model S U α x) ∧
    (∀ α x, D.Model S U α x → α.all S.decisions → D.Rpt S x) :=
  ⟨fun c hc α x hm => h.rinv.inv.sem.cls c hc α (h.sol hm), fun q hq α x hm hd => h.rinv.inv.sem.val q hq α (h.sol hm) hd,
    fun hd α x hm => h.rinv.dead hd α (h.sol hm), fun α x hm hd => D.rpt h.si α x hm.zero hm.posted hm.net trivial hd⟩

theorem Held.definitive (h : Held E D S U d) :
    (S.step E D.sops .propagate ≠ .error .excluded → S.propagate E C.ops = .ok (S', false) → S'.root = true ∧ ∀ α x, ¬ D.Model S U α x) ∧
    (∀ p, S.step E D.sops (.assume p) ≠ .error .excluded → S.assume E C.ops p = .ok (S', false) → ∀ α x, D.Model S U α x → ¬ α.all (p :: S.decisions)) := by
  refine ⟨fun ha hs => ?_, fun p ha hs α x hm hd => ?_⟩
  · have hs' : S.propagate E D.sops = .ok (S', false) := by
      refine ((Sat.guards_propagate (E := E) D.guards S).resolve_left (fun e => ha ?_)).trans hs
      simp only [Sat.step, e]
      rfl
    have dd := Sat.propagate_spec h.rinv.inv hs'
    exact ⟨(dd.bad rfl).2.1, fun α x hm => (dd.bad rfl).2.2 α (h.sol hm)⟩
  · have hs' : S.assume E D.sops p = .ok (S', false) := by
      refine ((Sat.guards_assume (E := E) D.guards S p).resolve_left (fun e => ha ?_)).trans hs
      simp only [Sat.step, e]
      rfl
    exact ((Sat.assume_spec h.rinv.inv hs').facts h.rinv.inv).jump (Or.inr rfl) α (h.sol hm) hd

theorem Held.quiet {op : Sat.Op} (h : Held E D S U d) (hl : S.Legal op) (hop : LRA.Propagates op) (hs : S.step E D.sops op = .ok (S', .bool true)) : S'.propQ = [] ∧ S'.dead = false := by
  obtain ⟨hk, hL⟩ := h.alive hl.1
  exact Sat.step_quiet h.rinv.inv hL.live hl (by cases op <;> exact hop) hs

/-- The client that decides until all variables are assigned. -/
theorem Held.decides (h : Held E D S U d) (hd : S.dead = false) {pick : Sat T → Option Lit} (hh : Sat.Heuristic pick) {k : Nat} (hk : (S.nvars + 2) ^ (S.dl + S.nvars + 1) ≤ k)
    (ha : (∀ g h e, ¬ (D.live g h).F e) ∨ Sat.solve E D.sops pick k S ≠ .error .excluded) :
    ∃ S' b, Sat.solve E C.ops pick k S = .ok (S', b) ∧
      (b = true → (∀ v, v < S.nvars → S'.assigns v ≠ none) ∧ ∃ δ0 : ℚ, 0 < δ0 ∧ ∀ δ, 0 < δ → δ ≤ δ0 →
        (∃ x, C.Rep S' δ x) ∧ ∀ x, C.Rep S' δ x → D.Model S U (fun v => S'.assigns v = some true) x) ∧
      (b = false → ¬ ∃ α x, D.Model S U α x) := by
  have key : (Sat.solve E D.sops pick k S = .error .excluded ∧ ∃ g h e, (D.live g h).F e) ∨ ∃ S' b, Sat.solve E D.sops pick k S = .ok (S', b) ∧ (b = false → ¬ ∃ α x, D.Model S U α x) := by
    obtain ⟨ok, hL⟩ := h.alive hd
    unfold Sat.solve
    rcases Sat.propagate_live (E := E) h.rinv.inv hL.live with ⟨e, he, h1⟩ | ⟨s1, b, h1, -⟩
    · have := D.exc he
      subst this
      rw [h1]
      exact .inl ⟨rfl, _, _, _, he⟩
    have D1 := Sat.propagate_spec h.rinv.inv h1
    rw [h1]
    cases b with
    | false => exact .inr ⟨s1, false, rfl, fun _ ⟨α, x, hm⟩ => (D1.bad rfl).2.2 α (h.sol hm)⟩
    | true =>
      have hst : S.step E D.sops .propagate = .ok (s1, .bool true) := by simp only [Sat.step, h1]; rfl
      have hl : S.Legal .propagate := ⟨hd, trivial⟩
      have R1 : Held E D s1 U false := h.step hl trivial hst
      obtain ⟨q1, q2⟩ := h.quiet hl trivial hst
      have hnv := D1.evo.nv
      have hdl := D1.evo.dl
      have hw := Sat.weight_bound s1 (s1.dl + s1.nvars)
      have hpow : (s1.nvars + 2) ^ (s1.dl + s1.nvars + 1) ≤ (S.nvars + 2) ^ (S.dl + S.nvars + 1) := by
        rw [hnv]; exact Nat.pow_le_pow_right (by omega) (by omega)
      rcases Sat.solveLoop_permits (F := fun e => e = .excluded ∧ ∃ g h e, (D.live g h).F e) (E := E) (C := D.con (D.sg S.th)) hh
        (P := fun u => Held E D u U false ∧ u.dead = false ∧ u.propQ = [] ∧ D.sg u.th = D.sg S.th)
        (fun u hu => by have := hu.1.rinv.inv; rw [hu.2.2.2] at this; exact this)
        (fun u p ⟨a1, a2, a3, a4⟩ hp hv => by
          have hlu : u.Legal (.assume p) := ⟨a2, a3, hp⟩
          rcases a1.total (op := .assume p) hlu rfl with ⟨e1, ex⟩ | ⟨u', o, e1⟩
          · left
            simp only [Sat.step] at e1
            match hp : u.assume E D.sops p with
            | .error e =>
              rw [hp] at e1
              injection e1 with e1
              exact ⟨e, ⟨e1, ex⟩, rfl⟩
            | .ok v => rw [hp] at e1; cases e1
          · right
            have e0 := e1
            simp only [Sat.step] at e0
            match hp : u.assume E D.sops p with
            | .error e => rw [hp] at e0; cases e0
            | .ok (w, b) =>
              rw [hp] at e0
              injection e0 with e0; injection e0 with e2 e3
              subst e2 e3
              refine ⟨w, b, rfl, fun hb => ?_⟩
              subst hb
              obtain ⟨r1, r2⟩ := a1.quiet hlu trivial e1
              exact ⟨a1.step hlu rfl e1, r2, r1, (sg_step a1 hlu e1).2.1.trans a4⟩) k s1 s1.dl
        ⟨R1, q2, q1, (sg_step h hl hst).2.1⟩ (fun i a b => by omega) (by omega) with ⟨e, ⟨he, ex⟩, g⟩ | ⟨s2, b2, g1, g2, g3, g4, g5, g6⟩
      · subst he
        exact .inl ⟨g, ex⟩
      exact .inr ⟨s2, b2, g1, fun hb' ⟨α, x, hm⟩ => g6 hb' α (D1.sol α |>.mpr (h.sol hm))⟩
  have hne : ¬ (Sat.solve E D.sops pick k S = .error .excluded ∧ ∃ g h e, (D.live g h).F e) := fun ⟨e1, g, hg, e, he⟩ => ha.elim (fun k => k g hg e he) (fun k => k e1)
  obtain ⟨S', b, g1, g2⟩ := key.resolve_left hne
  have hs : Sat.solve E C.ops pick k S = .ok (S', b) := ((Sat.guards_solve (E := E) D.guards pick k S).resolve_left (by rw [g1]; simp)).symm.trans g1
  refine ⟨S', b, hs, fun hb => ?_, g2⟩
  subst hb
  obtain ⟨b1, b2, b3, b4, b5, b6, b7⟩ := ((h.faith.resolve_left (by rw [hd]; simp)).solved hh hk).2 S' hs
  refine ⟨fun v hv => b7 v (by rw [b6]; exact hv), ?_⟩
  obtain ⟨δ0, h0, f⟩ := C.final b1 b2 b3 b4 b7
  refine ⟨δ0, h0, fun δ h1 h2 => ⟨(f δ h1 h2).1, fun x hx => ?_⟩⟩
  have rt := b1.rt b3 b7
  exact ⟨rt.fls, fun D hD => rt.cls D (b5.post D hD), D.net_of h.si _ x (C.holds_ext b5.ext ((f δ h1 h2).2 x hx))⟩

end Duty
end Semitone
