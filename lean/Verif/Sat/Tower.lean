import Verif.Sat.Under
import Verif.Sat.Copy
import Verif.Sat.View

/-!
# Stacks of cores whose theories are live: `push` and `pop`
-/
namespace Semitone
namespace Sat
variable {T : Type} {O : TheoryOps T} {C : Contract O} {V : Live C} {E : Env} {s : Sat T}

/-- The copy of a core before it is simplified (`sat_core.cpp:18-36`). -/
structure Mid (s y : Sat T) : Prop where
  wf : y.WF noEx
  assigns : y.assigns = s.assigns
  level : ∀ v, y.level v = 0
  queue : y.propQ = []
  root : y.root = true
  dec : y.decisions = []
  posted : y.posted = s.decisions.map (fun d => [d]) ++ s.posted
  nv : y.nvars = s.nvars
  exprs : y.exprs = s.exprs
  dead : y.dead = s.dead
  bounds : y.bounds = s.bounds
  th : y.th = s.th
  cls : ∀ c ∈ y.constrs, ∃ d ∈ s.constrs, y.db c = s.db d
  sub : ∀ D, s.HasSub D → y.HasSub D

theorem copy_mid (hw : s.WF noEx) (hq : s.propQ = []) : ∃ y, Mid s y ∧ s.copy E O = (match y.simplifyDb E O with
    | .error e => .error e
    | .ok (s, _) => .ok s) := by
  unfold copy
  rw [if_neg (by simp [hq])]
  obtain ⟨z, hz⟩ : ∃ z : Sat T, z = s.copyBase := ⟨_, rfl⟩
  rw [← hz]
  have hzw : z.WF noEx := by
    subst hz
    unfold copyBase
    constructor
    case nv => exact hw.nv
    case fv => exact hw.fv
    case rng => exact hw.rng
    case wat => intro c m; simp [noEx]
    all_goals simp
  obtain ⟨x, m, h1, M⟩ := copyClauses_spec (orig := s) s.constrs z (fun _ => none) hzw hw.cnd (by
    intro c hc
    refine ⟨hw.cln c hc, ?_, hw.cnc c hc⟩
    subst hz; exact hw.crng c hc)
  rw [h1]
  simp only
  have hzc : z.constrs = [] := by rw [hz]; rfl
  have hnew : ∀ d ∈ x.constrs, ∃ c ∈ s.constrs, x.db d = s.db c := by
    intro d hd
    rcases M.new d hd with h2 | h2
    · rw [hzc] at h2; cases h2
    · exact h2
  have hall : s.reasonsMapped m = true := by
    unfold reasonsMapped
    rw [List.all_eq_true]
    intro v _
    match hv : s.reason v with
    | none => rfl
    | some c =>
      obtain ⟨d, hd, -⟩ := M.map c (hw.rsn v c hv).1
      simp [hd]
  rw [if_pos hall]
  refine ⟨{ x with reason := fun v => (s.reason v).bind m }, ?_, rfl⟩
  have hxt : x.trail = [] := by rw [M.fr, hz]; rfl
  have hxa : x.assigns = s.assigns := by rw [M.fr, hz]; rfl
  exact {
    wf := {
      nv := M.wf.nv
      fv := M.wf.fv
      fvt := M.wf.fvt
      rng := M.wf.rng
      tval := M.wf.tval
      tnd := M.wf.tnd
      off := M.wf.off
      rsn := fun v d hd => by
        have hd : (s.reason v).bind m = some d := hd
        match hv : s.reason v with
        | none => rw [hv] at hd; cases hd
        | some c =>
          rw [hv] at hd
          have hd : m c = some d := hd
          obtain ⟨hc, b, rest, hb, hdb⟩ := hw.rsn v c hv
          obtain ⟨d', e1, e2, e3⟩ := M.map c hc
          have : d' = d := by rw [hd] at e1; injection e1 with e1; exact e1.symm
          subst this
          refine ⟨e2, b, rest, ?_, by show x.db d' = _; rw [e3, hdb]⟩
          show x.assigns v = some b
          rw [hxa]; exact hb
      trs := fun p tr htr => by
        have : (p :: tr) <:+ x.trail := htr
        rw [hxt] at this
        simp at this
      tlv := M.wf.tlv
      tdc := fun p tr htr => by
        have : (p :: tr) <:+ x.trail := htr
        rw [hxt] at this
        simp at this
      lims := M.wf.lims
      limle := M.wf.limle
      dec := M.wf.dec
      que := M.wf.que
      cnd := M.wf.cnd
      clt := M.wf.clt
      cln := M.wf.cln
      crng := M.wf.crng
      cnc := M.wf.cnc
      wat := M.wf.wat }
    assigns := hxa
    level := fun v => by rw [M.fr, hz]; rfl
    queue := by rw [M.fr, hz]; rfl
    root := by rw [M.fr, hz]; rfl
    dec := by rw [M.fr, hz]; rfl
    posted := by rw [M.fr, hz]; rfl
    nv := by rw [M.fr, hz]; rfl
    exprs := by rw [M.fr, hz]; rfl
    dead := by rw [M.fr, hz]; rfl
    bounds := by rw [M.fr, hz]; rfl
    th := by rw [M.fr, hz]; rfl
    cls := hnew
    sub := by
      rintro D ⟨c, hc, hD⟩
      obtain ⟨d, -, e2, e3⟩ := M.map c hc
      exact ⟨d, e2, by show ∀ l ∈ x.db d, _; rw [e3]; exact hD⟩ }

theorem Mid.value {y : Sat T} (M : Mid s y) : y.value = s.value := by funext p; simp only [Sat.value, M.assigns]

theorem Mid.fix {y : Sat T} (M : Mid s y) (hF : s.Fix s.okQ) (hq : s.propQ = []) : y.Fix y.okQ := by
  refine ⟨?_, ?_⟩
  · intro c hc
    obtain ⟨d, hd, e⟩ := M.cls c hc
    rw [e]
    exact (hF.nd d hd).mono (fun a _ ha => ⟨by rw [M.value]; exact ha.1, M.level _⟩)
  · intro c hc w w' r hd hv
    obtain ⟨d, hd', e⟩ := M.cls c hc
    rw [e] at hd
    rw [M.value] at hv
    rcases hF.fx d hd' w w' r hd hv with h2 | h2
    · simp [okQ, hq] at h2
    · right; rw [M.value, M.level, M.level]; exact ⟨h2.1, Nat.le_refl _⟩

/-- What is true in the copy at its root is what is true in the original. -/
theorem Mid.tru_zero {y : Sat T} (M : Mid s y) (hw : s.WF noEx) (q : Lit) : y.tru 0 q ↔ s.tru s.dl q := by
  rw [hw.tru_iff]
  unfold tru
  rw [M.value, M.level]
  simp

/-- The copy of a core sees its theories as a core that stands on the levels of the original. -/
theorem Mid.rinv {y : Sat T} (M : Mid s y) (h : s.RInv C) (hdec : ∀ d ∈ s.decisions, s.value d = some true) : y.RInv (C.under s.dl s.tru s.th) := by
  have hsol : ∀ α, y.Sol C.Th α → s.Sol C.Th α ∧ α.all s.decisions := by
    intro α hα
    refine ⟨⟨hα.1, fun D hD => hα.2.1 D (by rw [M.posted]; simp [hD]), by rw [← M.th]; exact hα.2.2⟩, ?_⟩
    intro d hd
    obtain ⟨l, hl, hs⟩ := hα.2.1 [d] (by rw [M.posted]; simp [hd])
    have : l = d := by simpa using hl
    exact this ▸ hs
  have hlow : ∀ i q, s.tru i q → y.tru 0 q := fun i q hq => (M.tru_zero h.inv.wf q).2 ((h.inv.wf.tru_iff q).2 hq.1)
  refine ⟨⟨M.wf, ⟨?_, ?_⟩, ⟨fun i _ q hq => hlow i q hq, ?_, fun α => by rw [M.th]⟩, fun _ => M.queue, ?_, ?_⟩, ?_, ?_⟩
  · intro c hc α hα
    obtain ⟨d, hd, e⟩ := M.cls c hc
    rw [e]
    exact h.inv.sem.cls d hd α (hsol α hα).1
  · intro q hqv α hα _
    rw [M.value] at hqv
    refine h.inv.sem.val q hqv α (hsol α hα).1 ?_
    intro l hl
    exact (hsol α hα).2 l (List.mem_of_mem_drop hl)
  · rw [M.th, (root_iff y).1 M.root, Nat.zero_add]
    refine C.mono _ _ _ _ h.inv.ti (fun i hi q hq => ?_)
    by_cases hx : i < s.dl
    · rw [lift_lt hx]; exact hq
    · have e : i = 0 + s.dl := by omega
      rw [e, lift_add]; exact hlow _ _ hq
  · intro D hD l hl
    rw [M.posted, List.mem_append] at hD
    rw [M.nv]
    rcases hD with hD | hD
    · obtain ⟨d, hd, rfl⟩ := List.mem_map.1 hD
      have : l = d := by simpa using hl
      subst this
      exact h.inv.wf.rng _ (by rw [(value_true _ _).1 (hdec l hd)]; simp)
    · exact h.inv.prng D hD l hl
  · intro k ls r hm
    rw [M.exprs] at hm
    obtain ⟨a, b, c⟩ := h.inv.cache k ls r hm
    exact ⟨by rw [M.nv]; exact a, by rw [M.nv]; exact b, fun α hα => c α (hsol α hα).1⟩
  · intro hd α hα
    rw [M.dead] at hd
    exact h.dead hd α (hsol α hα).1
  · rw [M.dead, M.posted]
    rcases h.link with hd | hl
    · exact .inl hd
    · refine .inr (fun D hD => ?_)
      rw [List.mem_append] at hD
      rcases hD with hD | hD
      · obtain ⟨d, hd, rfl⟩ := List.mem_map.1 hD
        exact .inl ⟨d, by simp, by rw [M.value]; exact hdec d hd, M.level _⟩
      · rcases hl D hD with ⟨l, h1, h2, -⟩ | h2 | h2
        · exact .inl ⟨l, h1, by rw [M.value]; exact h2, M.level _⟩
        · exact .inr (.inl h2)
        · exact .inr (.inr (M.sub D h2))

/-- What the theories promise to the core pushed on `s`. -/
def conOn (C : Contract O) (s : Sat T) : Contract O := C.under (s.dl + 1) s.tru s.th

/-- The liveness of the theories for the core pushed on `s`. -/
def liveOn (V : Live C) (s : Sat T) : Live (conOn C s) := V.under (s.dl + 1) s.nvars s.tru s.bounds s.th (Nat.succ_pos _)

/-- What `push` makes of the top core `s`. -/
structure Pushed (V : Live C) (s c : Sat T) : Prop where
  rinv : c.RInv (conOn C s)
  live : c.LiveOk (liveOn V s)
  root : c.root = true
  queue : c.propQ = []
  dead : c.dead = false
  posted : c.posted = s.decisions.map (fun d => [d]) ++ s.posted
  nv : c.nvars = s.nvars
  assigns : c.assigns = s.assigns
  exprs : c.exprs = s.exprs

/-- `push` succeeds when nothing is pending. -/
theorem push_live (h : s.RInv C) (hd : s.dead = false) (hL : s.LiveOk V) (hq : s.propQ = []) (hdec : ∀ d ∈ s.decisions, s.value d = some true) (rest : List (Sat T)) :
    ∃ c, pushTop E O (s :: rest) = .ok (c :: s :: rest) ∧ Pushed V s c := by
  obtain ⟨y, M, hc⟩ := copy_mid (E := E) (O := O) h.inv.wf hq
  have hw := h.inv.wf
  have hli := hL.live.li
  obtain ⟨t', r, h1, h2, h3⟩ := V.check hli h.inv.ti (by rw [hq]; simp) hw.tru_iff (fun q => value_neg s q)
  obtain ⟨k1, k2, k3⟩ := checkAll_spec C hw.tru_iff (fun q => value_neg s q) _ h.inv.ti h1
  have hr : r = none := by
    cases r with
    | none => rfl
    | some cl =>
      obtain ⟨α, a1, a2⟩ := hL.con
      obtain ⟨q, q1, q2⟩ := (k3 cl rfl).1 α a1
      exact absurd q2 ((Asg.sat_neg α q).1 (a2 _ ((k3 cl rfl).2 q q1)))
  subst hr
  obtain ⟨l1, -, α, l2, l3⟩ := h2 rfl
  have hrc : runChecks O O.ids y = .ok ({ y with th := t' }, none) := runChecks_all _ (by rw [M.th, M.value]; exact h1)
  have hprop : y.propagate E O = .ok ({ y with th := t' }, true) := by
    obtain ⟨n, hn⟩ : ∃ n, y.propFuel = n + 1 := ⟨y.propFuel - 1, by
      have : 0 < y.propFuel := Nat.mul_pos (Nat.succ_pos _) (by omega)
      omega⟩
    unfold propagate
    rw [hn]
    simp only [propLoop, M.queue, hrc]
  have yF := M.fix hL.live.fix hq
  have ry := M.rinv h hdec
  obtain ⟨r1, r2, r3, x', g1, g2, S⟩ := simplify_core (s := { y with th := t' }) (M.wf.congr rfl rfl rfl rfl rfl rfl rfl rfl rfl rfl rfl rfl) M.root M.queue ⟨yF.nd, yF.fx⟩
  have hsimp : y.simplifyDb E O = .ok ({ x' with constrs := r2 }, true) := by
    unfold simplifyDb
    rw [if_neg (by simp [M.root]), hprop]
    simp only [g1, g2]
  have ru : ({ x' with constrs := r2 } : Sat T).RInv (C.under s.dl s.tru s.th) := by
    refine step_rinv (E := E) (op := .simplify) (out := .bool true) ry (fun _ u hu => ?_) (by simp only [step, hsimp]; rfl)
    rw [hprop] at hu
    injection hu with hu; injection hu with e1 _; subst e1
    exact ⟨yF.nd, yF.fx⟩
  rw [hsimp] at hc
  simp only at hc
  have hfix := S.fix
  have hfr := S.fr
  generalize ({ x' with constrs := r2 } : Sat T) = u at hc ru hfix hfr
  refine ⟨u.retheory (O.push u.th) u.bounds, by simp only [pushTop, hc]; rfl, ?_⟩
  have uth : u.th = t' := by rw [hfr]
  have ua : u.assigns = s.assigns := by rw [hfr]; exact M.assigns
  have uv : u.value = s.value := by funext p; simp only [Sat.value, ua]
  have ul : ∀ v, u.level v = 0 := fun v => by rw [hfr]; exact M.level v
  have ub : u.bounds = s.bounds := by rw [hfr]; exact M.bounds
  have un : u.nvars = s.nvars := by rw [hfr]; exact M.nv
  have uq : u.propQ = [] := by rw [hfr]; exact M.queue
  have ur : u.root = true := by rw [hfr]; exact M.root
  have ud : u.dl = 0 := (root_iff u).1 ur
  have ut : ∀ q, u.tru 0 q ↔ s.tru s.dl q := fun q => by
    rw [hw.tru_iff]
    unfold tru
    rw [uv, ul]
    simp
  have hup : ∀ i q, s.tru i q → u.tru 0 q := fun i q hq => (ut q).2 ((hw.tru_iff q).2 hq.1)
  have hA : ∀ i, i ≤ s.dl → lift (s.dl + 1) s.tru u.tru i = s.tru i := fun i hi => lift_lt (by omega)
  have hA1 : lift (s.dl + 1) s.tru u.tru (s.dl + 1) = u.tru 0 := by
    have := lift_add (k := s.dl + 1) (B := s.tru) (A := u.tru) (n := 0)
    rw [Nat.zero_add] at this; exact this
  have hti : C.TI u.th s.dl (lift (s.dl + 1) s.tru u.tru) := by
    rw [uth]
    exact C.mono _ _ _ _ k1 (fun i hi q hq => by rw [hA i hi]; exact hq)
  have hpush := C.push u.th s.dl _ hti (fun q hq => by rw [hA _ (Nat.le_refl _)] at hq; rw [hA1]; exact hup _ q hq)
  have hth0 : ∀ α, C.Th (O.push u.th) α ↔ C.Th s.th α := fun α => (hpush.2 α).trans (by rw [uth]; exact k2 α)
  refine { rinv := ?_, live := ?_, root := ur, queue := uq, dead := ?_, posted := ?_, nv := un, assigns := ua, exprs := ?_ }
  · refine ru.retheory (C' := conOn C s) (t := O.push u.th) u.bounds (fun α ha => (hpush.2 α).1 ha) ⟨fun i _ q hq => hup i q hq, ?_, hth0⟩
    rw [ud, Nat.zero_add]
    exact hpush.1
  · have hcon : ∀ q, u.tru 0 q → α.sat q := fun q hq => l3 q ((ut q).1 hq)
    refine ⟨⟨hfix.retheory _ _, ?_, fun i hi => ?_⟩, α, (hpush.2 α).2 (by rw [uth]; exact l2), ?_⟩
    · show UnderLI V (s.dl + 1) s.nvars s.tru s.bounds (O.push u.th) u.nvars u.bounds u.dl u.tru (fun q => q ∈ u.propQ)
      rw [ud]
      refine ⟨Nat.le_of_eq un.symm, fun i hi q hq => ?_, .inl ⟨fun _ => False, fun _ h => h.elim, fun v => .inl (by rw [ub]), ?_⟩⟩
      · obtain rfl : i = 0 := by omega
        exact hq
      · have l1' : V.LI u.th s.nvars s.bounds s.dl (lift (s.dl + 1) s.tru u.tru) (fun _ => False) := by
          rw [uth]
          refine V.adv l1 (Nat.le_refl _) (fun i q hi hq => by rw [hA i hi]; exact hq) (fun i q hi hq => by rw [hA i (by omega)] at hq; exact hq) (fun q hq => ?_) (fun _ h => h)
          rw [hA _ (Nat.le_refl _)] at hq
          exact .inl hq
        rw [Nat.zero_add]
        exact V.push l1' (fun _ h => h) (fun q => by rw [hA1, hA _ (Nat.le_refl _)]; exact ut q)
    · have : i < u.dl := hi
      omega
    · intro q hq
      have hq : u.tru u.dl q := hq
      rw [ud] at hq
      exact hcon q hq
  · show u.dead = false
    rw [hfr]; exact M.dead.trans hd
  · show u.posted = _
    rw [hfr]; exact M.posted
  · show u.exprs = _
    rw [hfr]; exact M.exprs

/-- A core in order: whatever is concluded is right, and either a contradiction was found or the theories are live. -/
structure Fine (V : Live C) (s : Sat T) (d : Bool) : Prop where
  rinv : s.RInv C
  live : s.Gone V ∨ s.LiveD V d

theorem Fine.alive {d : Bool} (h : s.Fine V d) (hd : s.dead = false) : s.LiveD V d := h.live.resolve_left (fun g => by have := g.1; rw [hd] at this; cases this)

/-- `pop` of the top core, at its root level, succeeds (also when a contradiction was found there), and the core below is as it was. -/
theorem pop_fine {u : Sat T} {d d' : Bool} (h : s.RInv C) (hL : s.LiveD V d) (hu : u.Fine (liveOn V s) d') (hr : u.root = true) (hq : s.propQ = []) (rest : List (Sat T)) :
    ∃ s', popTop O (u :: s :: rest) = .ok (s' :: rest) ∧ s' = { s with th := s'.th, notes := s'.notes } ∧ s'.RInv C ∧ s'.LiveD V d ∧ ∀ α, C.Th s'.th α ↔ C.Th s.th α := by
  have h0 : u.dl = 0 := (root_iff u).1 hr
  have hli : ∃ P, V.LI u.th s.nvars s.bounds (s.dl + 1) (lift (s.dl + 1) s.tru u.tru) P := by
    have : ∃ P, UnderLI V (s.dl + 1) s.nvars s.tru s.bounds u.th u.nvars u.bounds u.dl u.tru P := by
      rcases hu.live with g | g
      · exact g.2
      · exact ⟨_, g.live.li⟩
    obtain ⟨P, -, -, g⟩ := this
    rw [h0, Nat.zero_add] at g
    rcases g with ⟨P0, -, -, g⟩ | ⟨-, -, g⟩
    · exact ⟨P0, g⟩
    · exact g
  obtain ⟨P, hli⟩ := hli
  obtain ⟨t', p1, p2⟩ := V.pop hli
  have hA : ∀ i, i ≤ s.dl → lift (s.dl + 1) s.tru u.tru i = s.tru i := fun i hi => lift_lt (by omega)
  have hti := hu.rinv.inv.ti
  have hti1 : C.TI u.th (s.dl + 1) (lift (s.dl + 1) s.tru u.tru) := by
    have := hti.2.1
    rw [h0, Nat.zero_add] at this
    exact this
  obtain ⟨q1, q2⟩ := C.pop _ _ _ _ hti1 p1
  have hth : ∀ α, C.Th t' α ↔ C.Th s.th α := fun α => (q2 α).trans (hti.2.2 α)
  refine ⟨_, by simp only [popTop, p1]; rfl, rfl, ?_, ?_, hth⟩
  · have k := h.retheory (C' := C) (t := t') s.bounds (fun α => (hth α).1) (C.mono _ _ _ _ q1 (fun i hi q hq => by rw [hA i hi] at hq; exact hq))
    exact k.congr ⟨k.inv.wf.congr rfl rfl rfl rfl rfl rfl rfl rfl rfl rfl rfl rfl, ⟨k.inv.sem.cls, k.inv.sem.val⟩, k.inv.ti, k.inv.qr, k.inv.prng, k.inv.cache⟩
      rfl (fun _ h => h) Or.inl id (fun _ h => h)
  · refine ⟨⟨⟨hL.live.fix.nd, hL.live.fix.fx⟩, ?_, fun i hi => ?_⟩, fun e e' => ?_⟩
    · show V.LI t' s.nvars s.bounds s.dl s.tru (fun q => q ∈ s.propQ)
      exact V.adv p2 (Nat.le_refl _) (fun i q hi hq => by rw [hA i hi] at hq; exact hq) (fun i q hi hq => by rw [hA i (by omega)]; exact hq)
        (fun q hq => .inl (by rw [hA _ (Nat.le_refl _)]; exact hq)) (fun _ h => h.elim)
    · obtain ⟨α, a, b⟩ := hL.live.cons i hi
      exact ⟨α, (hth α).2 a, b⟩
    · obtain ⟨α, a, b⟩ := hL.con e e'
      exact ⟨α, (hth α).2 a, b⟩

/-- A legal call of the top core. -/
theorem Fine.step {d : Bool} {op : Op} (h : s.Fine V d) (hl : s.Legal op)
    (hop : match op with
      | .assume _ | .check _ => d = false
      | .bind _ _ => False
      | _ => True) :
    (∃ e, V.F e ∧ s.step E O op = .error e) ∨ ∃ s' out, s.step E O op = .ok (s', out) ∧
      (match op with
        | .propagate | .assume _ | .next | .simplify => out = .bool true → V.Done s'.th
        | _ => True) ∧
      s'.Fine V (match op with
        | .propagate | .simplify => false
        | _ => d) := by
  have hL := h.alive hl.1
  have hsf : op = .simplify → ∀ u, s.propagate E O = .ok (u, true) → u.Fix u.okQ := fun _ u hu => by
    rcases propagate_live (E := E) h.rinv.inv hL.live with ⟨e, -, h1⟩ | ⟨u', b, h1, h2, -⟩
    · rw [hu] at h1; cases h1
    · rw [hu] at h1
      injection h1 with h1; injection h1 with e1 e2
      subst e1 e2
      exact (h2 rfl).1.live.fix
  rcases step_gone (E := E) h.rinv.inv hL hl hop with ⟨e, he, h1⟩ | ⟨s', out, h1, h2, h3⟩
  · exact .inl ⟨e, he, h1⟩
  · exact .inr ⟨s', out, h1, h2, step_rinv h.rinv hsf h1, h3⟩

end Sat
end Semitone
