import Verif.Lib.Sess
import Verif.Sat.Pile

/-!
# Stacks of cores with any number of theories: sessions, and what holds in them

`sat_stack` (`sat_stack.h`, `sat_stack.cpp`) keeps a stack of cores; the theories are attached to all of them and look at the top one.
-/
namespace Semitone

/-- The sessions of a stack of cores with the theories `C`; the cores are listed newest first, each with the flag of `Comp.Sess`. The calls of the core are made on the top core; those of the theories when the stack has one core; `push`
when no contradiction was found, nothing is pending and every decision of the top core is true; `pop` when the top core has no decision left (see C80 for what happens otherwise). `sops`, `U`: as in `Comp.Sess`. -/
inductive Comp.Stack {T : Type} (E : Env) (C : Comp T) (sops : TheoryOps T) : List (Sat T × Bool) → C.Dat → Prop
  | init {t} : C.Start t → Stack E C sops [(Sat.init t, false)] C.d0
  | step {S U d rest op S' out} : Stack E C sops ((S, d) :: rest) U → S.Legal op → LRA.MayCall op d → S.step E sops op ≠ .error .excluded → S.step E C.ops op = .ok (S', out) →
      Stack E C sops ((S', LRA.pendingAfter op d) :: rest) U
  | theory {S U d S' U' d'} : Stack E C sops [(S, d)] U → S.dead = false → C.Call S U S' U' → (d' = true ∨ U' = U ∧ d' = d) → Stack E C sops [(S', d')] U'
  | push {S c U rest} : Stack E C sops ((S, false) :: rest) U → S.dead = false → S.propQ = [] → (∀ p ∈ S.decisions, S.value p = some true) →
      Sat.pushTop E C.ops (S :: rest.map Prod.fst) = .ok (c :: S :: rest.map Prod.fst) → Stack E C sops ((c, false) :: (S, false) :: rest) U
  | pop {u S S' U d d' rest} : Stack E C sops ((u, d') :: (S, d) :: rest) U → u.root = true →
      Sat.popTop C.ops (u :: S :: rest.map Prod.fst) = .ok (S' :: rest.map Prod.fst) → Stack E C sops ((S', d) :: rest) U

namespace Sat
variable {T : Type} {O O' : TheoryOps T} {e0 : Err} {E : Env}

theorem guards_copy (h : Guards O O' e0) (s : Sat T) : s.copy E O = .error e0 ∨ s.copy E O = s.copy E O' := by
  unfold copy
  split
  · right; rfl
  · split
    · right; rfl
    · split
      · next s m _ _ =>
        rcases guards_simplify (E := E) h ({ s with reason := fun v => (_ : Option Nat) }) with hp | hp
        · left; rw [hp]
        · right; rw [hp]
      · right; rfl

theorem guards_pushTop (h : Guards O O' e0) : ∀ l : List (Sat T), pushTop E O l = .error e0 ∨ pushTop E O l = pushTop E O' l
  | [] => .inr rfl
  | c :: rest => by
    rcases guards_copy (E := E) h c with hp | hp
    · left; simp only [pushTop, hp]
    · right; simp only [pushTop, hp, h.push]

theorem guards_popTop (h : Guards O O' e0) (l : List (Sat T)) : popTop O l = popTop O' l := by
  unfold popTop
  rw [h.pop]

theorem Pile.base_posted {C : Contract O} {V : Live C} {S0 : Sat T} {d0 : Bool} : ∀ {top : List (Sat T × Bool)} {S d rest}, Pile V ((S, d) :: rest) → (S, d) :: rest = top ++ [(S0, d0)] →
    (∀ D ∈ S0.posted, D ∈ S.posted) ∧ S0.nvars ≤ S.nvars
  | [], S, d, rest, _, e => by
    simp at e
    obtain ⟨⟨rfl, -⟩, -⟩ := e
    exact ⟨fun _ h => h, Nat.le_refl _⟩
  | [a], S, d, rest, h, e => by
    simp at e
    obtain ⟨rfl, rfl⟩ := e
    cases h with
    | on _ _ _ _ k n => exact ⟨fun D hD => k D (by simp [hD]), n⟩
  | a :: b :: top, S, d, rest, h, e => by
    simp at e
    obtain ⟨rfl, rfl⟩ := e
    obtain ⟨S1, d1⟩ := b
    cases h with
    | on h1 _ _ _ k n =>
      obtain ⟨x, y⟩ := Pile.base_posted (S0 := S0) (d0 := d0) (top := (S1, d1) :: top) h1 (by simp)
      exact ⟨fun D hD => k D (by simp [x D hD]), y.trans n⟩

end Sat

namespace Duty
variable {T : Type} {E : Env} {C : Comp T} {D : Duty C} {S S' : Sat T} {U U' : C.Dat} {d : Bool} {rest l : List (Sat T × Bool)} {α : Asg} {x : C.Val}

/-- The theories as the cores above the core `S` find them. -/
def floor (D : Duty C) (S : Sat T) (U : C.Dat) (hk : D.Ok (D.sg S.th)) : Live (D.con (D.sg S.th)) := (D.live _ hk).with (C.firmAt U (C.reg S.th)) D.guards

/-- What holds in the sessions. -/
def Stacked (E : Env) (D : Duty C) (l : List (Sat T × Bool)) (U : C.Dat) : Prop :=
  ∃ top S0 d0, l = top ++ [(S0, d0)] ∧ Held E D S0 U d0 ∧ (top ≠ [] → S0.dead = false ∧ ∃ hk, Sat.Pile (D.floor S0 U hk) l)

theorem Held.pile (h : Held E D S U d) (hd : S.dead = false) : ∃ hk, Sat.Pile (D.floor S U hk) [(S, d)] := by
  obtain ⟨hk, hL⟩ := h.alive hd
  have ff := h.faith.resolve_left (by rw [hd]; simp)
  exact ⟨hk, .base ⟨h.rinv, .inr (hL.with (C.to_at ff.calm))⟩⟩

/-- The core at the bottom is found again as it was. -/
theorem Held.again {hk : D.Ok (D.sg S.th)} (h : Held E D S U d) (hd : S.dead = false) (e : S' = { S with th := S'.th, notes := S'.notes }) (hf : S'.Fine (D.floor S U hk) d) : Held E D S' U d := by
  have hd' : S'.dead = false := by rw [e]; exact hd
  have hL := hf.alive hd'
  have eg : D.sg S'.th = D.sg S.th := D.ti_sg hf.rinv.inv.ti
  have ff := h.faith.resolve_left (by rw [hd]; simp)
  have hn : S'.nvars = S.nvars := by rw [e]
  have hp : S'.posted = S.posted := by rw [e]
  refine ⟨?_, .inr (Alive.at eg (h := hk) hL.sole), .inr ?_⟩
  · refine D.move h.si eg ?_ (Nat.le_of_eq hn.symm) (fun _ _ _ k => k) (fun α h0 hp' _ _ => ⟨fun D hD => hp' D (by rw [hp]; exact hD), trivial⟩)
    rw [eg]
    exact hf.rinv.retheory (C' := (D.con (D.sg S.th)).restrict anyAsg) (t := S'.th) S'.bounds (fun _ k => k.1) hf.rinv.inv.ti
  · have hli : (C.firmAt U (C.reg S.th)).LI S'.th S.nvars S.bounds S.dl S.tru (fun q => q ∈ S.propQ) := by
      have := hL.live.li.2
      rw [e] at this
      exact this
    have k := (C.to_at ff.calm).aside (n := S'.notes) hli
    rw [← e] at k
    obtain ⟨k1, k2⟩ := C.of_at k
    have o : Sat.Onw S S' := by
      rw [e]
      exact ⟨Nat.le_refl _, fun _ h => h, fun _ h => h⟩
    exact ⟨k1, ff.vow.onw o (by rw [e]), C.inv_onw ff.inv o k2⟩

/-- Every variable of the top core has a value and nothing is pending: what the theories report satisfies the network. -/
theorem floor_fin (h : Held E D S U d) {hk : D.Ok (D.sg S.th)} {l : List (Sat T)} {d' : Bool} (hf : S'.Fine (Sat.tower (D.floor S U hk) l).2 d') (hd : S'.dead = false) (hq : S'.propQ = [])
    (hdn : (Sat.tower (D.floor S U hk) l).2.Done S'.th) (hall : ∀ v, v < S'.nvars → S'.assigns v ≠ none) :
    ∃ δ0 : ℚ, 0 < δ0 ∧ ∀ δ, 0 < δ → δ ≤ δ0 → (∃ x, C.Rep S' δ x) ∧ ∀ x, C.Rep S' δ x → D.Net S.th U (fun v => S'.assigns v = some true) x := by
  have hli := (hf.alive hd).live.li
  have e : (fun q => q ∈ S'.propQ) = fun _ => False := by funext q; rw [hq]; simp
  rw [e] at hli
  obtain ⟨nv', b', n', A', k1, k2, -, k3⟩ := Sat.tower_li l hli
  rw [Sat.tower_done] at hdn
  have hw := hf.rinv.inv.wf
  obtain ⟨er, δ0, h0, g⟩ := C.ends (s := S') k3 hdn.2 hw.fv (fun q => by rw [k2]; exact hw.tru_iff q) (fun v hv => hall v (hv.trans_le k1))
  exact ⟨δ0, h0, fun δ h1 h2 => ⟨(g δ h1 h2).1, fun x hx => D.net_of h.si _ x (C.holds_ext (C.ext_reg er) ((g δ h1 h2).2 x hx))⟩⟩

/-- The top core of a session. -/
structure Seat (D : Duty C) (S : Sat T) (U : C.Dat) (d : Bool) {K : Contract D.sops} (V : Live K) : Prop where
  rinv : S.RInv K
  fine : S.dead = false → S.Fine V d
  exc : ∀ e, V.F e → e = .excluded ∧ ∃ g h e, (D.live g h).F e
  sg : ∀ {t n A}, K.TI t n A → D.sg t = D.sg S.th
  th : ∀ α x, D.Model S U α x → K.Th S.th α
  net : ∀ α, α 0 = false → K.Th S.th α → ∃ x, D.Net S.th U α x
  loc : ∀ (α β : Asg) x, Asg.agree S.nvars α β → D.Net S.th U α x → D.Net S.th U β x
  tell : ∀ α x, D.Model S U α x → (∀ q, S.tru S.dl q → α.sat q) → D.Tell S.th (S.tru S.dl) x
  fin : ∀ {S' : Sat T} {d'}, S'.Fine V d' → S'.dead = false → S'.propQ = [] → V.Done S'.th → (∀ v, v < S'.nvars → S'.assigns v ≠ none) →
    ∃ δ0 : ℚ, 0 < δ0 ∧ ∀ δ, 0 < δ → δ ≤ δ0 → (∃ x, C.Rep S' δ x) ∧ ∀ x, C.Rep S' δ x → D.Net S.th U (fun v => S'.assigns v = some true) x

theorem Held.seat (h : Held E D S U d) : Seat D S U d (D.floor S U (D.ok h.si)) := by
  refine ⟨h.rinv, fun hd => ?_, fun _ he => ⟨D.exc he, _, _, _, he⟩, D.ti_sg, fun α x hm => (h.sol hm).2.2, fun α h0 hα => D.nt_of h.si α h0 ((D.con_th _ _ _).mp hα), D.loc h.si,
    fun α x hm hA => D.tell h.si h.rinv.inv.ti α x hm.zero hm.posted hm.net trivial hA, fun hf => floor_fin h (l := []) hf⟩
  obtain ⟨hk, p⟩ := h.pile hd
  exact p.top

theorem Stacked.seat (h : Stacked E D ((S, d) :: rest) U) : ∃ (K : Contract D.sops) (V : Live K), Seat D S U d V := by
  obtain ⟨top, S0, d0, e, h0, hp⟩ := h
  cases top with
  | nil =>
    simp at e
    obtain ⟨⟨rfl, rfl⟩, -⟩ := e
    exact ⟨_, _, h0.seat⟩
  | cons a top =>
    obtain ⟨hd, hk, p⟩ := hp (by simp)
    obtain ⟨k1, k2⟩ := p.base_posted e
    have f := p.top
    have eg : D.sg S.th = D.sg S0.th := by
      obtain ⟨n, A, h, -⟩ := Sat.tower_ti _ f.rinv.inv.ti
      exact D.ti_sg h
    have th : ∀ α, (Sat.tower (D.floor S0 U hk) (rest.map Prod.fst)).1.Th S.th α ↔ D.Th S.th α := fun α => by rw [Sat.tower_th]; exact D.con_th _ _ _
    refine ⟨_, _, f.rinv, fun _ => f, fun e he => ?_, fun ht => ?_, fun α x hm => ?_, fun α h0' hα => ?_, fun α β x hab hx => ?_, fun α x hm hA => ?_, fun hf e1 e2 e3 e4 => ?_⟩
    · rw [Sat.tower_F] at he
      exact ⟨D.exc (h := hk) he, _, hk, _, he⟩
    · obtain ⟨n, A, h, -⟩ := Sat.tower_ti _ ht
      exact (D.ti_sg h).trans eg.symm
    · exact (th α).mpr (D.th_sg eg.symm (D.th_of h0.si α x hm.zero (fun D hD => hm.posted D (k1 D hD)) (D.net_sg eg hm.net) trivial))
    · obtain ⟨x, hx⟩ := D.nt_of h0.si α h0' (D.th_sg eg ((th α).mp hα))
      exact ⟨x, D.net_sg eg.symm hx⟩
    · exact D.net_sg eg.symm (D.loc h0.si α β x (fun v hv => hab v (hv.trans_le k2)) (D.net_sg eg hx))
    · obtain ⟨n, A, h, e⟩ := Sat.tower_ti _ f.rinv.inv.ti
      rw [← e] at hA ⊢
      exact D.tell h0.si h α x hm.zero (fun D hD => hm.posted D (k1 D hD)) hm.net trivial hA
    · obtain ⟨δ0, j0, j⟩ := floor_fin h0 hf e1 e2 e3 e4
      exact ⟨δ0, j0, fun δ j1 j2 => ⟨(j δ j1 j2).1, fun x hx => D.net_sg eg.symm ((j δ j1 j2).2 x hx)⟩⟩

theorem Stacked.step {op : Sat.Op} {out : Sat.Out} (h : Stacked E D ((S, d) :: rest) U) (hl : S.Legal op) (hm : LRA.MayCall op d) (hs : S.step E D.sops op = .ok (S', out)) :
    Stacked E D ((S', LRA.pendingAfter op d) :: rest) U := by
  obtain ⟨top, S0, d0, e, h0, hp⟩ := h
  cases top with
  | nil =>
    simp at e
    obtain ⟨⟨rfl, rfl⟩, rfl⟩ := e
    exact ⟨[], S', _, rfl, h0.step hl hm hs, fun h => absurd rfl h⟩
  | cons a top =>
    obtain ⟨hd, hk, p⟩ := hp (by simp)
    obtain ⟨rfl, rfl⟩ : (S, d) = a ∧ rest = top ++ [(S0, d0)] := by simpa using e
    refine ⟨(S', LRA.pendingAfter op d) :: top, S0, d0, rfl, h0, fun _ => ⟨hd, hk, ?_⟩⟩
    rcases p.step (E := E) hl (by cases op <;> exact hm) with ⟨e, -, h1⟩ | ⟨s', o, h1, -, h2⟩
    · rw [hs] at h1; cases h1
    · rw [hs] at h1
      injection h1 with h1; injection h1 with e1 e2
      subst e1
      cases op <;> exact h2

theorem Stacked.push (h : Stacked E D ((S, false) :: rest) U) (hd : S.dead = false) (hq : S.propQ = []) (hdec : ∀ p ∈ S.decisions, S.value p = some true) :
    ∃ c, Sat.pushTop E C.ops (S :: rest.map Prod.fst) = .ok (c :: S :: rest.map Prod.fst) ∧ c.root = true ∧ c.propQ = [] ∧ c.dead = false ∧ c.posted = S.decisions.map (fun p => [p]) ++ S.posted ∧ c.nvars = S.nvars ∧
      c.assigns = S.assigns ∧ c.exprs = S.exprs ∧ Stacked E D ((c, false) :: (S, false) :: rest) U := by
  obtain ⟨top, S0, d0, e, h0, hp⟩ := h
  have key : S0.dead = false ∧ ∃ hk, Sat.Pile (D.floor S0 U hk) ((S, false) :: rest) := by
    cases top with
    | nil =>
      simp at e
      obtain ⟨⟨rfl, rfl⟩, rfl⟩ := e
      exact ⟨hd, h0.pile hd⟩
    | cons a top => exact hp (by simp)
  obtain ⟨hd0, hk, p⟩ := key
  obtain ⟨c, h1, h2, h3⟩ := p.push (E := E) hd rfl hq hdec
  refine ⟨c, ?_, h2.root, h2.queue, h2.dead, h2.posted, h2.nv, h2.assigns, h2.exprs, (c, false) :: top, S0, d0, by rw [e]; rfl, h0, fun _ => ⟨hd0, hk, h3⟩⟩
  exact ((Sat.guards_pushTop (E := E) D.guards _).resolve_left (by rw [h1]; simp)).symm.trans h1

theorem Stacked.pop {u : Sat T} {d' : Bool} (h : Stacked E D ((u, d') :: (S, d) :: rest) U) (hr : u.root = true) :
    ∃ S', Sat.popTop C.ops (u :: S :: rest.map Prod.fst) = .ok (S' :: rest.map Prod.fst) ∧ S' = { S with th := S'.th, notes := S'.notes } ∧ D.sg S'.th = D.sg S.th ∧ Stacked E D ((S', d) :: rest) U := by
  obtain ⟨top, S0, d0, e, h0, hp⟩ := h
  cases top with
  | nil => simp at e
  | cons a top =>
    obtain ⟨hd, hk, p⟩ := hp (by simp)
    obtain ⟨s', h1, h2, h3⟩ := p.pop hr
    have sgs : ∀ {s b l}, Sat.Pile (D.floor S0 U hk) ((s, b) :: l) → D.sg s.th = D.sg S0.th := fun h => by
      obtain ⟨n, A, h, -⟩ := Sat.tower_ti _ h.top.rinv.inv.ti
      exact D.ti_sg h
    have e1 := sgs h3
    have e2 : D.sg S.th = D.sg S0.th := by
      cases p with
      | on p _ _ _ _ _ => exact sgs p
    refine ⟨s', by rw [← Sat.guards_popTop D.guards]; exact h1, h2, e1.trans e2.symm, ?_⟩
    obtain ⟨rfl, e⟩ : (u, d') = a ∧ (S, d) :: rest = top ++ [(S0, d0)] := by simpa using e
    cases top with
    | nil =>
      simp at e
      obtain ⟨⟨rfl, rfl⟩, rfl⟩ := e
      exact ⟨[], s', d, rfl, h0.again hd h2 h3.top, fun h => absurd rfl h⟩
    | cons b top =>
      obtain ⟨rfl, rfl⟩ : (S, d) = b ∧ rest = top ++ [(S0, d0)] := by simpa using e
      exact ⟨(s', d) :: top, S0, d0, rfl, h0, fun _ => ⟨hd, hk, h3⟩⟩

theorem stacked (h : Comp.Stack E C D.sops l U) : Stacked E D l U := by
  induction h with
  | init h => exact ⟨[], _, _, rfl, held (.init h), fun h => absurd rfl h⟩
  | step _ hl hm ha hs ih => exact ih.step hl hm ((safe_eq ha).trans hs)
  | theory _ hd hc hd' ih =>
    obtain ⟨top, S0, d0, e, h0, -⟩ := ih
    cases top with
    | nil =>
      simp at e
      obtain ⟨rfl, rfl⟩ := e
      exact ⟨[], _, _, rfl, (h0.call hd hc hd').1, fun h => absurd rfl h⟩
    | cons a top => simp at e
  | push _ hd hq hdec hs ih =>
    obtain ⟨c, h1, -, -, -, -, -, -, -, h2⟩ := ih.push hd hq hdec
    rw [hs] at h1
    injection h1 with h1; injection h1 with h1 _
    subst h1
    exact h2
  | pop _ hr hs ih =>
    obtain ⟨S', h1, -, -, h2⟩ := ih.pop hr
    rw [hs] at h1
    injection h1 with h1; injection h1 with h1 _
    subst h1
    exact h2

/-! ### What follows -/

/-- A call of the core, made on the top core as its contract allows, succeeds, unless the theories are asked for one of the propagations they cannot answer for. -/
theorem stack_total (h : Comp.Stack E C D.sops ((S, d) :: rest) U) {op : Sat.Op} (hl : S.Legal op) (hm : LRA.MayCall op d) :
    (S.step E D.sops op = .error .excluded ∧ ∃ g h e, (D.live g h).F e) ∨ ∃ S' out, S.step E C.ops op = .ok (S', out) ∧ Comp.Stack E C D.sops ((S', LRA.pendingAfter op d) :: rest) U := by
  obtain ⟨K, V, s⟩ := (stacked h).seat
  rcases (s.fine hl.1).step (E := E) hl (by cases op <;> exact hm) with ⟨e, he, h1⟩ | ⟨S', out, h1, -, -⟩
  · obtain ⟨rfl, hx⟩ := s.exc e he
    exact .inl ⟨h1, hx⟩
  · have ha : S.step E D.sops op ≠ .error .excluded := by rw [h1]; simp
    have hs := (safe_eq ha).symm.trans h1
    exact .inr ⟨S', out, hs, .step h hl hm ha hs⟩

/-- `push` succeeds; the new core has the same values, all at its root level, and the decisions of the core below among its clauses. -/
theorem stack_push (h : Comp.Stack E C D.sops ((S, false) :: rest) U) (hd : S.dead = false) (hq : S.propQ = []) (hdec : ∀ p ∈ S.decisions, S.value p = some true) :
    ∃ c, Sat.pushTop E C.ops (S :: rest.map Prod.fst) = .ok (c :: S :: rest.map Prod.fst) ∧ c.root = true ∧ c.propQ = [] ∧ c.dead = false ∧ c.posted = S.decisions.map (fun p => [p]) ++ S.posted ∧ c.nvars = S.nvars ∧
      c.assigns = S.assigns ∧ c.exprs = S.exprs ∧ Comp.Stack E C D.sops ((c, false) :: (S, false) :: rest) U := by
  obtain ⟨c, h1, a, b, c', d, e, f, g, -⟩ := (stacked h).push hd hq hdec
  exact ⟨c, h1, a, b, c', d, e, f, g, .push h hd hq hdec h1⟩

/-- `pop` with no decision open succeeds, also when a contradiction was found in the core that is dropped; the core below is as it was, the theories mean what they meant, and the session goes on. -/
theorem stack_pop {u : Sat T} {d' : Bool} (h : Comp.Stack E C D.sops ((u, d') :: (S, d) :: rest) U) (hr : u.root = true) :
    ∃ S', Sat.popTop C.ops (u :: S :: rest.map Prod.fst) = .ok (S' :: rest.map Prod.fst) ∧ S' = { S with th := S'.th, notes := S'.notes } ∧ (∀ α x, D.Net S'.th U α x ↔ D.Net S.th U α x) ∧
      Comp.Stack E C D.sops ((S', d) :: rest) U := by
  obtain ⟨S', h1, h2, h3, -⟩ := (stacked h).pop hr
  exact ⟨S', h1, h2, fun α x => ⟨D.net_sg h3, D.net_sg h3.symm⟩, .pop h hr h1⟩

/-- What the top core concludes is right: its clauses and the literals true in it follow from the clauses posted to it (those of the cores below and their decisions included) and the networks of the theories, and when it found a
contradiction there is no solution. -/
theorem stack_sound (h : Comp.Stack E C D.sops ((S, d) :: rest) U) :
    (∀ c ∈ S.constrs, ∀ α x, D.Model S U α x → α.clause (S.db c)) ∧
    (∀ q, S.value q = some true → ∀ α x, D.Model S U α x → α.all (S.decUpTo (S.level q.var)) → α.sat q) ∧
    (S.dead = true → ∀ α x, ¬ D.Model S U α x) := by
  obtain ⟨K, V, s⟩ := (stacked h).seat
  have sol : ∀ α x, D.Model S U α x → S.Sol K.Th α := fun α x hm => ⟨hm.zero, hm.posted, s.th α x hm⟩
  exact ⟨fun c hc α x hm => s.rinv.inv.sem.cls c hc α (sol α x hm), fun q hq α x hm hd => s.rinv.inv.sem.val q hq α (sol α x hm) hd, fun hd α x hm => s.rinv.dead hd α (sol α x hm)⟩

/-- What the theories report on the top core holds in every solution compatible with its decisions. -/
theorem stack_tell (h : Comp.Stack E C D.sops ((S, d) :: rest) U) : ∀ α x, D.Model S U α x → α.all S.decisions → D.Tell S.th (fun q => S.value q = some true) x := by
  obtain ⟨K, V, s⟩ := (stacked h).seat
  intro α x hm hd
  have e : S.tru S.dl = fun q => S.value q = some true := by
    funext q
    exact propext (s.rinv.inv.wf.tru_iff q)
  have := s.tell α x hm (fun q hq => s.rinv.inv.sem.val q ((s.rinv.inv.wf.tru_iff q).1 hq) α ⟨hm.zero, hm.posted, s.th α x hm⟩ (fun l hl => hd l (List.mem_of_mem_drop hl)))
  rw [e] at this
  exact this

/-- The answer false of `propagate` and of `assume` is definitive. -/
theorem stack_definitive (h : Comp.Stack E C D.sops ((S, d) :: rest) U) :
    (S.step E D.sops .propagate ≠ .error .excluded → S.propagate E C.ops = .ok (S', false) → ∀ α x, ¬ D.Model S U α x) ∧
    (∀ p, S.step E D.sops (.assume p) ≠ .error .excluded → S.assume E C.ops p = .ok (S', false) → ∀ α x, D.Model S U α x → ¬ α.all (p :: S.decisions)) := by
  obtain ⟨K, V, s⟩ := (stacked h).seat
  have sol : ∀ α x, D.Model S U α x → S.Sol K.Th α := fun α x hm => ⟨hm.zero, hm.posted, s.th α x hm⟩
  refine ⟨fun ha hs α x hm => ?_, fun p ha hs α x hm hd => ?_⟩
  · have hs' : S.propagate E D.sops = .ok (S', false) := by
      refine ((Sat.guards_propagate (E := E) D.guards S).resolve_left (fun e => ha ?_)).trans hs
      simp only [Sat.step, e]
      rfl
    exact ((Sat.propagate_spec s.rinv.inv hs').bad rfl).2.2 α (sol α x hm)
  · have hs' : S.assume E D.sops p = .ok (S', false) := by
      refine ((Sat.guards_assume (E := E) D.guards S p).resolve_left (fun e => ha ?_)).trans hs
      simp only [Sat.step, e]
      rfl
    exact ((Sat.assume_spec s.rinv.inv hs').facts s.rinv.inv).jump (Or.inr rfl) α (sol α x hm) hd

/-- A total assignment of the top core, with the values that the theories report, is a solution. -/
theorem Seat.model {K : Contract D.sops} {V : Live K} (s : Seat D S U d V) {S' : Sat T} (hf : S'.Fine V false) (hp : ∀ D ∈ S.posted, D ∈ S'.posted)
    (hd : S'.dead = false) (hq : S'.propQ = []) (hdn : V.Done S'.th) (hall : ∀ v, v < S'.nvars → S'.assigns v ≠ none) :
    ∃ δ0 : ℚ, 0 < δ0 ∧ ∀ δ, 0 < δ → δ ≤ δ0 → (∃ x, C.Rep S' δ x) ∧ ∀ x, C.Rep S' δ x → D.Model S U (fun v => S'.assigns v = some true) x := by
  obtain ⟨h1, -⟩ := hf.total hd hq hall
  obtain ⟨δ0, h0, g⟩ := s.fin hf hd hq hdn hall
  exact ⟨δ0, h0, fun δ j1 j2 => ⟨(g δ j1 j2).1, fun x hx => ⟨by simp [hf.rinv.inv.wf.fv], fun D hD => h1 D (hp D hD), (g δ j1 j2).2 x hx⟩⟩⟩

/-- When a call that propagates answers true and every variable has a value, the assignment and the values that the theories report are a solution. -/
theorem stack_complete (h : Comp.Stack E C D.sops ((S, d) :: rest) U) {op : Sat.Op} (hl : S.Legal op) (hm : LRA.MayCall op d) (hop : LRA.Propagates op) (hd : d = false ∨ op = .propagate ∨ op = .simplify)
    (ha : S.step E D.sops op ≠ .error .excluded) (hs : S.step E C.ops op = .ok (S', .bool true)) (hall : ∀ v, v < S'.nvars → S'.assigns v ≠ none) :
    ∃ δ0 : ℚ, 0 < δ0 ∧ ∀ δ, 0 < δ → δ ≤ δ0 → (∃ x, C.Rep S' δ x) ∧ ∀ x, C.Rep S' δ x → D.Model S' U (fun v => S'.assigns v = some true) x := by
  have hs' := (safe_eq ha).trans hs
  obtain ⟨K, V, s⟩ := (stacked h).seat
  have f := s.fine hl.1
  obtain ⟨q1, q2⟩ := f.quiet hl (by cases op <;> exact hop) hs'
  have e : LRA.pendingAfter op d = false := by
    rcases hd with rfl | rfl | rfl
    · cases op <;> rfl
    · rfl
    · rfl
  rcases f.step (E := E) hl (by cases op <;> exact hm) with ⟨e, -, h1⟩ | ⟨u, o, h1, h2, h3⟩
  · rw [hs'] at h1; cases h1
  rw [hs'] at h1
  injection h1 with h1; injection h1 with e1 e2
  subst e1 e2
  have hdn : V.Done S'.th := by cases op <;> first | exact h2 rfl | exact hop.elim
  have f' : S'.Fine V false := by rw [← e]; cases op <;> exact h3
  obtain ⟨h1, -⟩ := f'.total q2 q1 hall
  obtain ⟨δ0, h0, g⟩ := s.fin f' q2 q1 hdn hall
  have eg : D.sg S'.th = D.sg S.th := s.sg f'.rinv.inv.ti
  exact ⟨δ0, h0, fun δ j1 j2 => ⟨(g δ j1 j2).1, fun x hx => ⟨by simp [f'.rinv.inv.wf.fv], h1, D.net_sg eg.symm ((g δ j1 j2).2 x hx)⟩⟩⟩

/-- On the top core of a stack too, the client that decides until every variable is assigned gets the right answer within the given number of decisions. -/
theorem stack_decides (h : Comp.Stack E C D.sops ((S, d) :: rest) U) (hd : S.dead = false) {pick : Sat T → Option Lit} (hh : Sat.Heuristic pick) {k : Nat} (hk : (S.nvars + 2) ^ (S.dl + S.nvars + 1) ≤ k)
    (ha : (∀ g h e, ¬ (D.live g h).F e) ∨ Sat.solve E D.sops pick k S ≠ .error .excluded) :
    ∃ S' b, Sat.solve E C.ops pick k S = .ok (S', b) ∧
      (b = true → (∀ v, v < S.nvars → S'.assigns v ≠ none) ∧ ∃ δ0 : ℚ, 0 < δ0 ∧ ∀ δ, 0 < δ → δ ≤ δ0 →
        (∃ x, C.Rep S' δ x) ∧ ∀ x, C.Rep S' δ x → D.Model S U (fun v => S'.assigns v = some true) x) ∧
      (b = false → ¬ ∃ α x, D.Model S U α x) := by
  obtain ⟨K, V, s⟩ := (stacked h).seat
  rcases (s.fine hd).solve (E := E) hd hh hk with ⟨e, he, h1⟩ | ⟨S', b, h1, h2, h3, h4, h5, h6⟩
  · obtain ⟨rfl, g, hg, e, he⟩ := s.exc e he
    exact (ha.elim (fun k => k g hg e he) (fun k => k h1)).elim
  · have hs : Sat.solve E C.ops pick k S = .ok (S', b) := ((Sat.guards_solve (E := E) D.guards pick k S).resolve_left (by rw [h1]; simp)).symm.trans h1
    refine ⟨S', b, hs, fun hb => ?_, fun hb ⟨α, x, hm⟩ => h6 hb α ⟨hm.zero, hm.posted, s.th α x hm⟩⟩
    obtain ⟨a1, a2, a3, a4, a5⟩ := h5 hb
    exact ⟨fun v hv => a5 v (by rw [h3]; exact hv), s.model a1 (fun D hD => by rw [h2]; exact hD) a2 a3 a4 a5⟩

end Duty
end Semitone
