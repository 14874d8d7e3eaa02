import Verif.Sat.Spec
import Mathlib.Tactic.Common

/-!
# Structural invariant of the core and its preservation by the primitive updates

This file is about helper invariants only; the property theorems are in `Props*.lean`.
-/
namespace Semitone

@[simp] theorem upd_self {α β : Type} [DecidableEq α] (f : α → β) (a : α) (b : β) : upd f a b a = b := by simp [upd]
theorem upd_ne {α β : Type} [DecidableEq α] (f : α → β) {a x : α} (b : β) (h : x ≠ a) : upd f a b x = f x := by
  simp [upd, h]

/-- Number of watched positions of a clause that are triggered when `m` becomes true. -/
def wc (c : List Lit) (m : Lit) : Nat :=
  match c with
  | l0 :: l1 :: _ => (if l0 = m.neg then 1 else 0) + (if l1 = m.neg then 1 else 0)
  | _ => 0

namespace Sat
variable {T : Type}

/-- `q` is true and not on the trail: the constant, or an assignment inherited by a copied core. -/
def Fixed (s : Sat T) (q : Lit) : Prop := s.value q = some true ∧ ∀ x ∈ s.trail, x.var ≠ q.var

/-- Structural invariant. `ex` are watchers temporarily removed from the lists (the vector `tmp` of `propagate`). -/
structure WF (s : Sat T) (ex : Lit → List Nat) : Prop where
  nv : 0 < s.nvars
  fv : s.assigns 0 = some false
  fvt : ∀ q ∈ s.trail, q.var ≠ 0
  rng : ∀ v, s.assigns v ≠ none → v < s.nvars
  tval : ∀ q ∈ s.trail, s.assigns q.var = some q.sign
  tnd : (s.trail.map Lit.var).Nodup
  off : ∀ v, (∀ q ∈ s.trail, q.var ≠ v) → s.level v = 0
  rsn : ∀ v c, s.reason v = some c → c ∈ s.constrs ∧ ∃ b rest, s.assigns v = some b ∧ s.db c = ⟨v, b⟩ :: rest
  trs : ∀ p tr, (p :: tr) <:+ s.trail → ∀ c rest, s.reason p.var = some c → s.db c = p :: rest →
    ∀ q ∈ rest, q.neg ∈ tr ∨ s.Fixed q.neg
  tlv : ∀ p tr, (p :: tr) <:+ s.trail → s.level p.var = s.trailLim.countP (fun l => decide (l ≤ tr.length))
  tdc : ∀ p tr, (p :: tr) <:+ s.trail → s.reason p.var = none → s.level p.var = 0 ∨ tr.length ∈ s.trailLim
  lims : s.trailLim.Pairwise (fun a b => b ≤ a)
  limle : ∀ l ∈ s.trailLim, l ≤ s.trail.length
  dec : s.decisions.length = s.trailLim.length
  que : ∀ p ∈ s.propQ, p ∈ s.trail ∧ s.level p.var = s.dl
  cnd : s.constrs.Nodup
  clt : ∀ c ∈ s.constrs, c < s.ncls
  cln : ∀ c ∈ s.constrs, ∃ l0 l1 r, s.db c = l0 :: l1 :: r
  crng : ∀ c ∈ s.constrs, ∀ l ∈ s.db c, l.var < s.nvars
  cnc : ∀ c ∈ s.constrs, ∀ l ∈ s.db c, l.neg ∉ s.db c
  wat : ∀ c m, (s.watches m).count c + (ex m).count c = if c ∈ s.constrs then wc (s.db c) m else 0

/-- No watchers are removed. -/
def noEx : Lit → List Nat := fun _ => []
/-- The remaining watchers `cs` of `p` are being visited. -/
def exAt (p : Lit) (cs : List Nat) : Lit → List Nat := fun m => if m = p then cs else []

theorem value_eq (s : Sat T) (p : Lit) (b : Bool) : s.value p = some b ↔ s.assigns p.var = some (b == p.sign) := by
  unfold value
  cases h : s.assigns p.var with
  | none => simp
  | some x => simp; cases x <;> cases b <;> cases p.sign <;> simp
theorem value_true (s : Sat T) (p : Lit) : s.value p = some true ↔ s.assigns p.var = some p.sign := by
  rw [value_eq]; simp
theorem value_false (s : Sat T) (p : Lit) : s.value p = some false ↔ s.assigns p.var = some (!p.sign) := by
  rw [value_eq]; cases p.sign <;> simp
theorem value_none (s : Sat T) (p : Lit) : s.value p = none ↔ s.assigns p.var = none := by
  simp [value]
theorem value_neg (s : Sat T) (p : Lit) : s.value p.neg = (s.value p).map not := by
  unfold value
  rw [Lit.neg_var, Lit.neg_sign]
  cases s.assigns p.var with
  | none => simp
  | some x => cases x <;> cases p.sign <;> simp
theorem value_neg_true (s : Sat T) (p : Lit) : s.value p.neg = some true ↔ s.value p = some false := by
  rw [value_neg]; cases s.value p <;> simp
theorem value_neg_false (s : Sat T) (p : Lit) : s.value p.neg = some false ↔ s.value p = some true := by
  rw [value_neg]; cases s.value p <;> simp

theorem WF.trail_true {s : Sat T} {ex} (h : s.WF ex) {q : Lit} (hq : q ∈ s.trail) : s.value q = some true := by
  rw [value_true]; exact h.tval q hq

theorem WF.true_cases {s : Sat T} {ex} (h : s.WF ex) {q : Lit} (hq : s.value q = some true) :
    q ∈ s.trail ∨ s.Fixed q := by
  by_cases hx : ∃ x ∈ s.trail, x.var = q.var
  · obtain ⟨x, hx, hv⟩ := hx
    left
    have h1 := h.tval x hx
    have h2 := (value_true s q).1 hq
    rw [hv, h2] at h1
    have : x = q := by cases x; cases q; simp_all
    exact this ▸ hx
  · right; exact ⟨hq, fun x hx' he => hx ⟨x, hx', he⟩⟩

theorem WF.fixed_level {s : Sat T} {ex} (h : s.WF ex) {q : Lit} (hq : s.Fixed q) : s.level q.var = 0 := h.off _ hq.2

theorem mem_suffix {q : Lit} {l : List Lit} (h : q ∈ l) : ∃ tr, (q :: tr) <:+ l := by
  obtain ⟨a, b, rfl⟩ := List.append_of_mem h
  exact ⟨b, a, by simp⟩

theorem WF.level_le {s : Sat T} {ex} (h : s.WF ex) (v : Nat) : s.level v ≤ s.dl := by
  by_cases hx : ∃ x ∈ s.trail, x.var = v
  · obtain ⟨x, hx, rfl⟩ := hx
    obtain ⟨tr, htr⟩ := mem_suffix hx
    rw [h.tlv x tr htr]; exact List.countP_le_length
  · rw [h.off v (fun q hq he => hx ⟨q, hq, he⟩)]; exact Nat.zero_le _

/-- The state with different watch bookkeeping outside of the model's reach: fields not constrained by `WF`. -/
theorem WF.congr {s s' : Sat T} {ex} (h : s.WF ex)
    (e1 : s'.nvars = s.nvars) (e2 : s'.assigns = s.assigns) (e3 : s'.trail = s.trail) (e4 : s'.level = s.level)
    (e5 : s'.reason = s.reason) (e6 : s'.db = s.db) (e7 : s'.trailLim = s.trailLim)
    (e8 : s'.decisions = s.decisions) (e9 : s'.propQ = s.propQ) (e10 : s'.constrs = s.constrs)
    (e11 : s'.ncls = s.ncls) (e12 : s'.watches = s.watches) : s'.WF ex := by
  have hv : s'.value = s.value := by funext p; simp [value, e2]
  constructor <;> simp only [Fixed, dl, hv, e1, e2, e3, e4, e5, e6, e7, e8, e9, e10, e11, e12]
  exacts [h.nv, h.fv, h.fvt, h.rng, h.tval, h.tnd, h.off, h.rsn, h.trs, h.tlv, h.tdc, h.lims, h.limle, h.dec, h.que,
    h.cnd, h.clt, h.cln, h.crng, h.cnc, h.wat]

theorem WF.clearQ {s : Sat T} {ex} (h : s.WF ex) : ({ s with propQ := [] } : Sat T).WF ex := by
  constructor <;> simp only [Fixed, dl, value] <;> first
    | exact h.nv | exact h.fv | exact h.fvt | exact h.rng | exact h.tval | exact h.tnd | exact h.off | exact h.rsn
    | exact h.trs | exact h.tlv | exact h.tdc | exact h.lims | exact h.limle | exact h.dec
    | exact h.cnd | exact h.clt | exact h.cln | exact h.crng | exact h.cnc | exact h.wat
    | (intro p hp; simp at hp)

theorem suffix_cons_cases {p x : Lit} {tr l : List Lit} (h : (p :: tr) <:+ (x :: l)) :
    (p = x ∧ tr = l) ∨ (p :: tr) <:+ l := by
  rcases List.suffix_cons_iff.1 h with h | h
  · left; simpa using h
  · right; exact h

theorem suffix_len {p : Lit} {tr l : List Lit} (h : (p :: tr) <:+ l) : tr.length < l.length := by
  have := h.length_le; simp at this; omega

theorem suffix_mem {p : Lit} {tr l : List Lit} (h : (p :: tr) <:+ l) : p ∈ l := h.subset (by simp)

/-! ### `enqueue` -/

/-- The state after a successful `enqueue` of an unassigned literal. -/
def enq (s : Sat T) (p : Lit) (c : Option Nat) : Sat T :=
  { s with
      assigns := upd s.assigns p.var (some p.sign)
      level := upd s.level p.var s.dl
      reason := upd s.reason p.var c
      trail := p :: s.trail
      propQ := s.propQ ++ [p]
      notes := (s.listening p.var).map (fun l => (l, p.var, some p.sign)) ++ s.notes
      listening := if s.root then upd s.listening p.var [] else s.listening }

theorem enqueue_none {s : Sat T} {p : Lit} {c} (h : s.value p = none) : s.enqueue p c = (s.enq p c, true) := by
  simp [enqueue, h, enq]
theorem enqueue_some {s : Sat T} {p : Lit} {c b} (h : s.value p = some b) : s.enqueue p c = (s, b) := by
  simp [enqueue, h]

theorem enq_value_of {s : Sat T} {p q : Lit} {c b} (hp : s.value p = none) (hq : s.value q = some b) :
    (s.enq p c).value q = some b := by
  rw [value_eq] at hq ⊢
  have : q.var ≠ p.var := by intro e; rw [value_none] at hp; rw [e, hp] at hq; cases hq
  simp [enq, upd_ne _ _ this, hq]

theorem enq_value_self (s : Sat T) (p : Lit) (c) : (s.enq p c).value p = some true := by
  rw [value_true]; simp [enq]

theorem enq_value_ne {s : Sat T} {p q : Lit} {c} (h : q.var ≠ p.var) : (s.enq p c).value q = s.value q := by
  simp [value, enq, upd_ne _ _ h]

theorem WF.enq {s : Sat T} {ex} (h : s.WF ex) {p : Lit} {c : Option Nat} (hp : s.value p = none) (hr : p.var < s.nvars)
    (hc : ∀ x, c = some x → x ∈ s.constrs ∧ ∃ rest, s.db x = p :: rest ∧ ∀ q ∈ rest, s.value q = some false)
    (hn : c = none → s.trailLim = [] ∨ s.trailLim.head? = some s.trail.length) :
    (s.enq p c).WF ex := by
  have hpa : s.assigns p.var = none := (value_none s p).1 hp
  have hpt : ∀ q ∈ s.trail, q.var ≠ p.var := by
    intro q hq e; have := h.tval q hq; rw [e, hpa] at this; cases this
  have hfix : ∀ q, s.Fixed q → (s.enq p c).Fixed q := by
    intro q hq
    refine ⟨enq_value_of hp hq.1, ?_⟩
    intro x hx
    simp [Sat.enq] at hx
    rcases hx with rfl | hx
    · intro e
      have := hq.1; rw [value_true, ← e, hpa] at this; cases this
    · exact hq.2 x hx
  have hp0 : p.var ≠ 0 := by intro e; rw [e, h.fv] at hpa; cases hpa
  constructor
  case nv => exact h.nv
  case fv => simp [Sat.enq, upd_ne _ _ hp0.symm, h.fv]
  case fvt =>
    intro q hq; simp [Sat.enq] at hq
    rcases hq with rfl | hq
    · exact hp0
    · exact h.fvt q hq
  case rng =>
    intro v hv
    by_cases e : v = p.var
    · exact e ▸ hr
    · simp [Sat.enq, upd_ne _ _ e] at hv; exact h.rng v hv
  case tval =>
    intro q hq; simp [Sat.enq] at hq ⊢
    rcases hq with rfl | hq
    · simp
    · rw [upd_ne _ _ (hpt q hq)]; exact h.tval q hq
  case tnd =>
    simp only [Sat.enq, List.map_cons, List.nodup_cons]
    refine ⟨?_, h.tnd⟩
    intro hm
    obtain ⟨q, hq, e⟩ := List.mem_map.1 hm
    exact hpt q hq e
  case off =>
    intro v hv
    have e : v ≠ p.var := by intro e; exact hv p (by simp [Sat.enq]) e.symm
    simp only [Sat.enq, upd_ne _ _ e]
    exact h.off v (fun q hq => hv q (by simp [Sat.enq, hq]))
  case rsn =>
    intro v x hx
    by_cases e : v = p.var
    · subst e
      simp [Sat.enq] at hx ⊢
      obtain ⟨h1, rest, h2, h3⟩ := hc x hx
      exact ⟨h1, rest, by rw [h2]⟩
    · simp [Sat.enq, upd_ne _ _ e] at hx ⊢
      simpa using h.rsn v x hx
  case trs =>
    intro q tr hs x rest hx hdb y hy
    rcases suffix_cons_cases hs with ⟨rfl, rfl⟩ | hs
    · simp [Sat.enq] at hx hdb
      obtain ⟨h1, rest', h2, h3⟩ := hc x hx
      rw [h2] at hdb
      have : rest' = rest := by simpa using hdb
      subst this
      have hf := h3 y hy
      rw [← value_neg_true] at hf
      rcases h.true_cases hf with ht | ht
      · exact Or.inl ht
      · exact Or.inr (hfix _ ht)
    · have e : q.var ≠ p.var := hpt q (suffix_mem hs)
      simp only [Sat.enq, upd_ne _ _ e] at hx hdb
      rcases h.trs q tr hs x rest hx hdb y hy with ht | ht
      · exact Or.inl ht
      · exact Or.inr (hfix _ ht)
  case tlv =>
    intro q tr hs
    rcases suffix_cons_cases hs with ⟨rfl, rfl⟩ | hs
    · simp only [Sat.enq, upd_self, dl]
      rw [List.countP_eq_length.2]
      intro l hl; simpa using h.limle l hl
    · have e : q.var ≠ p.var := hpt q (suffix_mem hs)
      simp only [Sat.enq, upd_ne _ _ e]
      exact h.tlv q tr hs
  case tdc =>
    intro q tr hs hr
    rcases suffix_cons_cases hs with ⟨rfl, rfl⟩ | hs
    · simp only [Sat.enq, upd_self, dl] at hr ⊢
      rcases hn hr with e | e
      · left; rw [e]; rfl
      · right; exact List.mem_of_head? e
    · have e : q.var ≠ p.var := hpt q (suffix_mem hs)
      simp only [Sat.enq, upd_ne _ _ e] at hr ⊢
      exact h.tdc q tr hs hr
  case lims => exact h.lims
  case limle => intro l hl; have := h.limle l hl; simp [Sat.enq]; omega
  case dec => exact h.dec
  case que =>
    intro q hq
    simp [Sat.enq] at hq
    rcases hq with hq | rfl
    · have := h.que q hq
      refine ⟨by simp [Sat.enq, this.1], ?_⟩
      simp only [Sat.enq, upd_ne _ _ (hpt q this.1)]
      exact this.2
    · simp [Sat.enq, dl]
  case cnd => exact h.cnd
  case clt => exact h.clt
  case cln => exact h.cln
  case crng => exact h.crng
  case cnc => exact h.cnc
  case wat => exact h.wat

/-! ### `pop_one`, `pop` -/

theorem WF.popOne {s : Sat T} {ex} (h : s.WF ex) (hq : s.propQ = [])
    (hl : ∀ l ∈ s.trailLim, l < s.trail.length ∨ s.trail = []) : s.popOne.WF ex := by
  match htr : s.trail with
  | [] => simpa [Sat.popOne, htr] using h
  | p :: tr =>
    have hs : s.popOne = { s with
        assigns := upd s.assigns p.var none
        level := upd s.level p.var 0
        reason := upd s.reason p.var none
        trail := tr
        notes := (s.listening p.var).map (fun l => (l, p.var, none)) ++ s.notes } := by
      simp [Sat.popOne, htr]
    have hnd := h.tnd
    rw [htr] at hnd
    simp only [List.map_cons, List.nodup_cons] at hnd
    have hpt : ∀ q ∈ tr, q.var ≠ p.var := by
      intro q hq e; exact hnd.1 (List.mem_map.2 ⟨q, hq, e⟩)
    have hsub : ∀ {q : Lit} {t : List Lit}, (q :: t) <:+ tr → (q :: t) <:+ s.trail := by
      intro q t ht; rw [htr]; exact ht.trans (List.suffix_cons p tr)
    have hpm : p ∈ s.trail := by rw [htr]; simp
    have hfix : ∀ q, s.Fixed q → s.popOne.Fixed q := by
      intro q hq
      have e : q.var ≠ p.var := fun e => hq.2 p hpm e.symm
      refine ⟨?_, ?_⟩
      · have := hq.1; rw [value_true] at this ⊢; simp [hs, upd_ne _ _ e, this]
      · intro x hx; exact hq.2 x (by rw [htr]; simp [hs] at hx; simp [hx])
    have hp0 := h.fvt p hpm
    constructor
    case nv => rw [hs]; exact h.nv
    case fv => simp [hs, upd_ne _ _ hp0.symm, h.fv]
    case fvt => intro q hq'; simp [hs] at hq'; exact h.fvt q (by rw [htr]; simp [hq'])
    case rng =>
      intro v hv
      by_cases e : v = p.var
      · simp [hs, e] at hv
      · simp [hs, upd_ne _ _ e] at hv; rw [hs]; exact h.rng v hv
    case tval =>
      intro q hq'; simp [hs] at hq' ⊢
      rw [upd_ne _ _ (hpt q hq')]; exact h.tval q (by rw [htr]; simp [hq'])
    case tnd => rw [hs]; exact hnd.2
    case off =>
      intro v hv
      by_cases e : v = p.var
      · simp [hs, e]
      · simp only [hs, upd_ne _ _ e]
        apply h.off v
        intro q hq'
        rw [htr] at hq'
        simp at hq'
        rcases hq' with rfl | hq'
        · exact fun e' => e e'.symm
        · exact hv q (by simp [hs, hq'])
    case rsn =>
      intro v x hx
      by_cases e : v = p.var
      · simp [hs, e] at hx
      · simp [hs, upd_ne _ _ e] at hx ⊢
        simpa using h.rsn v x hx
    case trs =>
      intro q t hst x rest hx hdb y hy
      simp only [hs] at hst
      have e : q.var ≠ p.var := hpt q (suffix_mem hst)
      simp only [hs, upd_ne _ _ e] at hx hdb
      rcases h.trs q t (hsub hst) x rest hx hdb y hy with ht | ht
      · exact Or.inl ht
      · exact Or.inr (hfix _ ht)
    case tlv =>
      intro q t hst
      simp only [hs] at hst
      have e : q.var ≠ p.var := hpt q (suffix_mem hst)
      simp only [hs, upd_ne _ _ e]
      exact h.tlv q t (hsub hst)
    case tdc =>
      intro q t hst hr
      simp only [hs] at hst
      have e : q.var ≠ p.var := hpt q (suffix_mem hst)
      simp only [hs, upd_ne _ _ e] at hr ⊢
      exact h.tdc q t (hsub hst) hr
    case lims => rw [hs]; exact h.lims
    case limle =>
      intro l hl'
      simp only [hs] at hl' ⊢
      have := hl l hl'
      rw [htr] at this; simp at this; omega
    case dec => rw [hs]; exact h.dec
    case que => rw [hs]; simp only [hq]; intro p hp; simp at hp
    case cnd => rw [hs]; exact h.cnd
    case clt => rw [hs]; exact h.clt
    case cln => rw [hs]; exact h.cln
    case crng => rw [hs]; exact h.crng
    case cnc => rw [hs]; exact h.cnc
    case wat => rw [hs]; exact h.wat

end Sat
end Semitone
