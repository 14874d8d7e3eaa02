import Verif.OV.Props

/-!
# Object variables: listeners

`ov_theory::listen` and `ov_value_listener`. An object listener is a listener of the core: when it is told that the propositional variable `v` has changed, it calls
`ov_value_change(x)` for every object variable `x` in `is_contained_in[v]` (`ov_value_listener.h:23-27`).
-/
namespace Semitone

namespace Sat
variable {T : Type}

/-- `l` is registered on `v`, or was until the value became definitive. -/
def Reg (s : Sat T) (l v : Nat) : Prop := l ∈ s.listening v ∨ s.log l v ≠ []

/-- `l` knows the current value of `v`: it is registered, or the value is definitive. -/
def Told (s : Sat T) (l v : Nat) : Prop := s.Reg l v ∨ (s.assigns v ≠ none ∧ s.level v = 0)

/-- What a call does to what a listener knows: reports are added, values that are definitive do not change, registrations are kept. -/
structure Tells (s s' : Sat T) : Prop where
  notes : ∃ N, s'.notes = N ++ s.notes
  fin : ∀ v, s.assigns v ≠ none → s.level v = 0 → s'.assigns v = s.assigns v ∧ s'.level v = 0
  reg : ∀ l v, s.Reg l v → s'.Reg l v

theorem Tells.refl (s : Sat T) : Tells s s := ⟨⟨[], rfl⟩, fun _ _ h => ⟨rfl, h⟩, fun _ _ h => h⟩

theorem Tells.trans {s1 s2 s3 : Sat T} (h1 : Tells s1 s2) (h2 : Tells s2 s3) : Tells s1 s3 := by
  obtain ⟨⟨N1, a1⟩, b1, c1⟩ := h1
  obtain ⟨⟨N2, a2⟩, b2, c2⟩ := h2
  refine ⟨⟨N2 ++ N1, by rw [a2, a1, List.append_assoc]⟩, fun v h1 h2 => ?_, fun l v ht => c2 l v (c1 l v ht)⟩
  obtain ⟨q1, q2⟩ := b1 v h1 h2
  obtain ⟨q3, q4⟩ := b2 v (by rw [q1]; exact h1) q2
  exact ⟨q3.trans q1, q4⟩

theorem Tells.told {s s' : Sat T} (t : Tells s s') {l v : Nat} (h : s.Told l v) : s'.Told l v := by
  rcases h with h | ⟨h1, h2⟩
  · exact Or.inl (t.reg l v h)
  · obtain ⟨a, b⟩ := t.fin v h1 h2
    exact Or.inr ⟨by rw [a]; exact h1, b⟩

theorem log_enq {s : Sat T} (h : s.NInv) (p : Lit) (c) (l v : Nat) :
    (s.enq p c).log l v = if p.var = v ∧ l ∈ s.listening p.var then some p.sign :: s.log l v else s.log l v :=
  log_append (h.nd p.var) p.var (some p.sign) s.notes l v

theorem Mic.tells {s s' : Sat T} (m : Mic s s') (h : s.NInv) : Tells s s' := by
  induction m with
  | @still s s' e =>
    obtain ⟨e1, e2, e3, e4, e5⟩ := e
    have hl : ∀ l v, s'.log l v = s.log l v := fun l v => by unfold Sat.log; rw [e3]
    refine ⟨⟨[], by rw [e3]; rfl⟩, fun v h1 h2 => ⟨by rw [e1], by rw [e4 v h1, h2]⟩, fun l v ht => ?_⟩
    unfold Reg at ht ⊢
    rw [e2, hl]
    exact ht
  | @enq s p c hp =>
    rw [value_none] at hp
    have hne : ∀ v, s.assigns v ≠ none → v ≠ p.var := fun v hv e => hv (e ▸ hp)
    have ha : ∀ v, v ≠ p.var → (s.enq p c).assigns v = s.assigns v := fun v hv => upd_ne _ _ hv
    have hlv : ∀ v, v ≠ p.var → (s.enq p c).level v = s.level v := fun v hv => upd_ne _ _ hv
    refine ⟨⟨_, rfl⟩, fun v h1 h2 => ⟨ha v (hne v h1), by rw [hlv v (hne v h1)]; exact h2⟩, fun l v ht => ?_⟩
    unfold Reg at ht ⊢
    rw [log_enq h]
    rcases ht with ht | ht
    · by_cases hv : v = p.var
      · subst hv
        right
        rw [if_pos ⟨rfl, ht⟩]
        simp
      · left
        show l ∈ (if s.root then upd s.listening p.var [] else s.listening) v
        split
        · rw [upd_ne _ _ hv]; exact ht
        · exact ht
    · right
      split
      · simp
      · exact ht
  | @pop s p tr htr hpl hpv =>
    have hs := popOne_eq htr
    have hl : ∀ l v, s.popOne.log l v = if p.var = v ∧ l ∈ s.listening p.var then none :: s.log l v else s.log l v := by
      intro l v
      rw [hs]
      exact log_append (h.nd p.var) p.var none s.notes l v
    have hoth : ∀ v, v ≠ p.var → s.popOne.assigns v = s.assigns v ∧ s.popOne.level v = s.level v := by
      intro v hv; rw [hs]; exact ⟨upd_ne _ _ hv, upd_ne _ _ hv⟩
    have hne : ∀ v, s.level v = 0 → v ≠ p.var := fun v hv e => by rw [← e, hv] at hpl; exact Nat.lt_irrefl _ hpl
    refine ⟨⟨_, by rw [hs]⟩, fun v h1 h2 => ⟨(hoth v (hne v h2)).1, by rw [(hoth v (hne v h2)).2]; exact h2⟩, fun l v ht => ?_⟩
    unfold Reg at ht ⊢
    rw [hl]
    rcases ht with ht | ht
    · left; rw [hs]; exact ht
    · right
      split
      · simp
      · exact ht
  | @trans s1 s2 s3 m1 m2 ih1 ih2 => exact (ih1 h).trans (ih2 (h.mic m1))

theorem listen_tells (s : Sat T) (w m : Nat) : Tells s (s.listen w m) := by
  unfold Sat.listen
  split
  · refine ⟨⟨[], rfl⟩, fun v _ h => ⟨rfl, h⟩, fun l v h => ?_⟩
    rcases h with h | h
    · left
      show l ∈ upd s.listening w (m :: (s.listening w).erase m) v
      unfold upd
      split
      · next e =>
        by_cases hml : l = m
        · simp [hml]
        · exact List.mem_cons_of_mem _ ((List.mem_erase_of_ne hml).2 (e ▸ h))
      · exact h
    · exact Or.inr h
  · exact Tells.refl s

theorem listen_same (s : Sat T) (v l : Nat) : (s.listen v l).notes = s.notes ∧ (s.listen v l).assigns = s.assigns ∧ (s.listen v l).level = s.level := by
  unfold Sat.listen
  split <;> exact ⟨rfl, rfl, rfl⟩

theorem told_listen {s : Sat T} (v l : Nat) (h : s.assigns v ≠ none → s.level v = 0) : (s.listen v l).Told l v := by
  by_cases hv : s.assigns v = none
  · left; left
    unfold Sat.listen
    rw [if_pos hv]
    show l ∈ upd s.listening v _ v
    rw [upd_self]
    exact List.mem_cons_self
  · right
    unfold Sat.listen
    rw [if_neg hv]
    exact ⟨hv, h hv⟩

/-- If the value of `v` has changed, the listener has been told in between. -/
theorem Tells.report {s s' : Sat T} (t : Tells s s') (h : s.NInv) (h' : s'.NInv) {l v : Nat} (ht : s.Told l v) (hne : s'.assigns v ≠ s.assigns v) :
    ∃ N, s'.notes = N ++ s.notes ∧ ∃ b, (l, v, b) ∈ N := by
  obtain ⟨N, hN⟩ := t.notes
  refine ⟨N, hN, ?_⟩
  apply Classical.byContradiction
  intro hno
  have hlog : s'.log l v = s.log l v := by
    unfold Sat.log
    rw [hN, List.filter_append]
    have : N.filter (fun n => n.1 == l && n.2.1 == v) = [] := by
      rw [List.filter_eq_nil_iff]
      intro n hn hc
      simp only [Bool.and_eq_true, beq_iff_eq] at hc
      obtain ⟨n1, n2, n3⟩ := n
      obtain ⟨rfl, rfl⟩ := hc
      exact hno ⟨n3, hn⟩
    rw [this]; rfl
  rcases ht with h1 | ⟨h1, h2⟩
  · exact hne (by rw [← h'.mir l v (t.reg l v h1), hlog, h.mir l v h1])
  · exact hne (t.fin v h1 h2).1

end Sat

namespace OV
variable {T V : Type} [DecidableEq V]

/-- `ov_theory::listen(x, l)` (`ov_theory.cpp:126-134`); the order in which the variables are registered does not matter. -/
def listen (s : Sat T) (o : OV V) (x l : Nat) : Sat T :=
  if 1 < (OV.value s o x).length then (OV.value s o x).foldl (fun t a => t.listen (o.allows x a).var l) s else s

/-- `ov_value_change(x)` is called on the listener `l` while the reports `N` are made (`ov_value_listener.h:23-27`). -/
def Hears (o : OV V) (N : List (Nat × Nat × Option Bool)) (l x : Nat) : Prop := ∃ v b, (l, v, b) ∈ N ∧ x ∈ o.cont v

variable {E : Env} {O : TheoryOps T} {C : Contract O} {i : Nat} {D : OEnv V} {s s' : Sat T} {o o' : OV V}

/-! ### The calls -/

theorem fresh_mn (id : Nat) : ∀ (items : List V) (s : Sat T) (m : List (V × Lit)) (c : Nat → List Nat), Sat.MN s (fresh i id items s m c).1
  | [], s, _, _ => Sat.MN.refl s
  | a :: as, s, m, c => by
    refine ((Sat.newVar_mn s).trans ?_).trans (fresh_mn id as _ _ _)
    intro h
    exact ⟨.still ⟨rfl, rfl, rfl, fun _ _ => rfl, rfl⟩, h⟩

theorem newVar_mn {items : List V} {enf : Bool} {x : Nat} (h : OV.newVar E i s o items enf = .ok (s', o', x)) : Sat.MN s s' := by
  unfold OV.newVar at h
  split at h
  · cases h
  · injection h with h; injection h with e1 h; subst e1; exact Sat.MN.refl _
  · simp only at h
    split at h
    · split at h
      · cases h
      · next s1 r h1 =>
        split at h
        · cases h
        · cases h
        · next s2 h2 =>
          injection h with h; injection h with e1 h; subst e1
          exact ((fresh_mn _ _ _ _ _).trans (Sat.newEXO_mn h1)).trans (Sat.newClause_mn h2)
    · injection h with h; injection h with e1 h; subst e1
      exact fresh_mn _ _ _ _ _

theorem newEqOrd_mn {l r : Nat} {q : Lit} (h : newEqOrd E D s o l r = .ok (s', o', q)) : Sat.MN s s' := by
  unfold newEqOrd at h
  split at h
  · injection h with h; injection h with e1 h; subst e1; exact Sat.MN.refl _
  · split at h
    · injection h with h; injection h with e1 h; subst e1; exact Sat.MN.refl _
    · simp only at h
      split at h
      · cases h
      · cases h
      · next s2 h2 =>
        injection h with h; injection h with e1 h; subst e1
        exact (Sat.newVar_mn s).trans (Sat.postAll_mn _ h2)

theorem newEq_mn {x y : Nat} {q : Lit} (h : OV.newEq E D s o x y = .ok (s', o', q)) : Sat.MN s s' := by
  rcases newEq_ord h with ⟨rfl, rfl, rfl, rfl⟩ | ⟨l, r, hlr, hr, hor, ho⟩
  · exact Sat.MN.refl _
  · exact newEqOrd_mn ho

/-- A call keeps the invariant of the notifications, and tells the listeners. -/
theorem OCall.tells {a b : Sat T × OV V} (hc : OCall E C i D a b) (h : OInv C a.1 a.2) (hn : a.1.NInv) : b.1.NInv ∧ Sat.Tells a.1 b.1 := by
  have hnv := h.rinv.inv.wf.nvv
  have key : ∀ {s' : Sat T}, Sat.Mic a.1 s' → s'.NInv ∧ Sat.Tells a.1 s' := fun m => ⟨hn.mic m, m.tells hn⟩
  cases hc with
  | @step s s' o op out hsf hs =>
    by_cases hl : ∃ v l, op = .listen v l
    · obtain ⟨v, l, rfl⟩ := hl
      injection hs with hs; injection hs with e1 e2; subst e1
      exact ⟨hn.listen v l, Sat.listen_tells s v l⟩
    · exact key (Sat.step_mic h.rinv.inv (fun v l e => hl ⟨v, l, e⟩) hs)
  | theory _ _ => exact ⟨⟨hn.nd, hn.chg, hn.mir, hn.off⟩, ⟨⟨[], rfl⟩, fun _ _ h => ⟨rfl, h⟩, fun _ _ h => h⟩⟩
  | newVar h1 => exact key (newVar_mn h1 hnv).1
  | newVarLits _ _ => exact ⟨hn, Sat.Tells.refl _⟩
  | newEq h1 => exact key (newEq_mn h1 hnv).1

theorem OReach.ninv {a : Sat T × OV V} (h : OReach E C i D a) : a.1.NInv := by
  induction h with
  | init _ => exact ⟨fun _ => List.nodup_nil, fun _ _ => trivial, fun _ _ h => by simp [Sat.init, Sat.newVar, Sat.log] at h, fun _ _ _ h => by simp [Sat.init, Sat.newVar, Sat.log] at h⟩
  | call hr hc ih => exact (hc.tells hr.inv ih).1

theorem OCalls.tells {a b : Sat T × OV V} (hc : OCalls E C i D a b) (h : OReach E C i D a) : Sat.Tells a.1 b.1 := by
  induction hc with
  | refl => exact Sat.Tells.refl _
  | tail h1 h2 ih => exact ih.trans (h2.tells (h.calls h1).inv (h.calls h1).ninv).2

/-! ### `is_contained_in` -/

theorem contain_mem (c : Nat → List Nat) (v id w : Nat) : (∀ x, x ∈ c w → x ∈ contain c v id w) ∧ id ∈ contain c v id v := by
  unfold contain
  constructor
  · intro x hx
    unfold upd
    split
    · next e =>
      subst e
      split
      · exact hx
      · exact List.mem_cons_of_mem _ hx
    · exact hx
  · rw [upd_self]
    split
    · assumption
    · exact List.mem_cons_self

theorem fresh_cont (id : Nat) : ∀ (items : List V) (s : Sat T) (m : List (V × Lit)) (c : Nat → List Nat), (∀ p ∈ m, id ∈ c p.2.var) →
    (∀ p ∈ (fresh i id items s m c).2.1, id ∈ (fresh i id items s m c).2.2 p.2.var) ∧ (∀ w x, x ∈ c w → x ∈ (fresh i id items s m c).2.2 w)
  | [], s, m, c, h => ⟨h, fun _ _ h => h⟩
  | a :: as, s, m, c, h => by
    obtain ⟨h1, h2⟩ := fresh_cont id as (s.newVar.1.bind s.newVar.2 i) (emplace m a ⟨s.newVar.2, true⟩) (contain c s.newVar.2 id) (by
      intro p hp
      rcases emplace_mem hp with hp | rfl
      · exact (contain_mem c _ _ _).1 _ (h p hp)
      · exact (contain_mem c _ _ 0).2)
    exact ⟨h1, fun w x hx => h2 w x ((contain_mem c _ _ w).1 x hx)⟩

theorem foldl_contain (id : Nat) : ∀ (lits : List Lit) (c : Nat → List Nat),
    (∀ l ∈ lits, id ∈ lits.foldl (fun c l => contain c l.var id) c l.var) ∧ (∀ w x, x ∈ c w → x ∈ lits.foldl (fun c l => contain c l.var id) c w)
  | [], c => ⟨fun _ h => (by cases h), fun _ _ h => h⟩
  | l :: ls, c => by
    obtain ⟨h1, h2⟩ := foldl_contain id ls (contain c l.var id)
    refine ⟨fun l' hl' => ?_, fun w x hx => h2 w x ((contain_mem c _ _ w).1 x hx)⟩
    rcases List.mem_cons.mp hl' with rfl | hl'
    · exact h2 _ _ (contain_mem c _ _ 0).2
    · exact h1 l' hl'

/-- Every object variable is recorded for the variables of its literals (the constants apart). -/
def ContOK (o : OV V) : Prop := ∀ x, x < o.doms.length → ∀ p ∈ o.dom x, p.2.var ≠ 0 → x ∈ o.cont p.2.var

theorem ContOK.snoc {o o' : OV V} (h : ContOK o) {m : List (V × Lit)} (hd : o'.doms = o.doms ++ [m]) (hc : ∀ w x, x ∈ o.cont w → x ∈ o'.cont w)
    (hm : ∀ p ∈ m, p.2.var ≠ 0 → o.doms.length ∈ o'.cont p.2.var) : ContOK o' := by
  intro x hx p hp hp0
  rw [hd, List.length_append, List.length_singleton] at hx
  by_cases hxl : x < o.doms.length
  · have : o'.dom x = o.dom x := by unfold OV.dom; rw [hd, List.getElem?_append_left hxl]
    rw [this] at hp
    exact hc _ _ (h x hxl p hp hp0)
  · have hxe : x = o.doms.length := by omega
    subst hxe
    rw [dom_last m hd] at hp
    exact hm p hp hp0

theorem OCall.cont {a b : Sat T × OV V} (hc : OCall E C i D a b) (h : ContOK a.2) : ContOK b.2 ∧ ∀ w x, x ∈ a.2.cont w → x ∈ b.2.cont w := by
  cases hc with
  | step _ _ => exact ⟨h, fun _ _ h => h⟩
  | theory _ _ => exact ⟨h, fun _ _ h => h⟩
  | @newVar s s' o o' items enf x hn =>
    unfold OV.newVar at hn
    split at hn
    · cases hn
    · injection hn with hn; injection hn with e1 hn; injection hn with e2 e3; subst e2
      refine ⟨h.snoc (m := [(_, TRUE_lit)]) rfl (fun _ _ h => h) ?_, fun _ _ h => h⟩
      intro p hp hp0
      rw [List.mem_singleton] at hp
      subst hp
      exact absurd rfl hp0
    · have hf := fresh_cont (i := i) o.doms.length items s [] o.cont (fun _ h => by cases h)
      have main : ContOK { o with doms := o.doms ++ [(fresh i o.doms.length items s [] o.cont).2.1], cont := (fresh i o.doms.length items s [] o.cont).2.2 } :=
        h.snoc rfl hf.2 (fun p hp _ => hf.1 p hp)
      simp only at hn
      split at hn
      · split at hn
        · cases hn
        · split at hn
          · cases hn
          · cases hn
          · injection hn with hn; injection hn with e1 hn; injection hn with e2 e3; subst e2
            exact ⟨main, hf.2⟩
      · injection hn with hn; injection hn with e1 hn; injection hn with e2 e3; subst e2
        exact ⟨main, hf.2⟩
  | @newVarLits s o o' lits vals x hv hn =>
    have hm := newVarLits_made hv hn
    obtain ⟨-, -, m, hd, -, -, h5⟩ := hm
    unfold OV.newVarLits at hn
    split at hn
    · cases hn
    · injection hn with hn; injection hn with e1 e2
      obtain ⟨f1, f2⟩ := foldl_contain o.doms.length lits o.cont
      have hc : o'.cont = lits.foldl (fun c l => contain c l.var o.doms.length) o.cont := by rw [← e1]
      refine ⟨h.snoc hd (fun w x hx => by rw [hc]; exact f2 w x hx) (fun p hp _ => ?_), fun w x hx => by rw [hc]; exact f2 w x hx⟩
      rw [hc]
      exact f1 _ (List.of_mem_zip (h5 p hp)).2
  | @newEq s s' o o' x y q hn =>
    have hcd : o'.cont = o.cont ∧ o'.doms = o.doms := by
      rcases newEq_ord hn with ⟨-, -, rfl, -⟩ | ⟨l, r, -, -, -, ho⟩
      · exact ⟨rfl, rfl⟩
      · unfold newEqOrd at ho
        split at ho
        · injection ho with ho; injection ho with e1 ho; injection ho with e2 e3; subst e2; exact ⟨rfl, rfl⟩
        · split at ho
          · injection ho with ho; injection ho with e1 ho; injection ho with e2 e3; subst e2; exact ⟨rfl, rfl⟩
          · simp only at ho
            split at ho
            · cases ho
            · cases ho
            · injection ho with ho; injection ho with e1 ho; injection ho with e2 e3; subst e2; exact ⟨rfl, rfl⟩
    refine ⟨?_, fun w x hx => by rw [hcd.1]; exact hx⟩
    intro x hx p hp hp0
    have : o'.dom x = o.dom x := by unfold OV.dom; rw [hcd.2]
    rw [this] at hp
    rw [hcd.1]
    rw [hcd.2] at hx
    exact h x hx p hp hp0

theorem OReach.cont {a : Sat T × OV V} (h : OReach E C i D a) : ContOK a.2 := by
  induction h with
  | init _ => intro x hx; cases hx
  | call _ hc ih => exact (hc.cont ih).1

/-! ### Registration -/

theorem foldl_listen (o : OV V) (x l : Nat) : ∀ (as : List V) (s : Sat T),
    OCalls E C i D (s, o) (as.foldl (fun t a => t.listen (o.allows x a).var l) s, o) ∧
    (as.foldl (fun t a => t.listen (o.allows x a).var l) s).assigns = s.assigns ∧ (as.foldl (fun t a => t.listen (o.allows x a).var l) s).level = s.level ∧
    ((∀ a ∈ as, s.assigns (o.allows x a).var ≠ none → s.level (o.allows x a).var = 0) →
      ∀ a ∈ as, (as.foldl (fun t a => t.listen (o.allows x a).var l) s).Told l (o.allows x a).var) ∧ Sat.Tells s (as.foldl (fun t a => t.listen (o.allows x a).var l) s)
  | [], s => ⟨.refl, rfl, rfl, fun _ _ h => (by cases h), Sat.Tells.refl s⟩
  | a :: as, s => by
    obtain ⟨h1, h2, h3, h4, h5⟩ := foldl_listen o x l as (s.listen (o.allows x a).var l)
    have hcall : OCall E C i D (s, o) (s.listen (o.allows x a).var l, o) := .step (op := .listen (o.allows x a).var l) (fun e => by cases e) rfl
    have hs := Sat.listen_same s (o.allows x a).var l
    refine ⟨?_, h2.trans hs.2.1, h3.trans hs.2.2, fun hh b hb => ?_, (Sat.listen_tells s _ _).trans h5⟩
    · have app : ∀ {b c : Sat T × OV V}, OCalls E C i D b c → ∀ a, OCalls E C i D a b → OCalls E C i D a c := by
        intro b c h
        induction h with
        | refl => exact fun _ h => h
        | tail _ h2 ih => exact fun a h => .tail (ih a h) h2
      exact app h1 _ (.tail .refl hcall)
    · rcases List.mem_cons.mp hb with rfl | hb
      · exact h5.told (Sat.told_listen _ _ (hh _ List.mem_cons_self))
      · exact h4 (fun c hc => by rw [hs.2.1, hs.2.2]; exact hh c (List.mem_cons_of_mem _ hc)) b hb

theorem listen_calls (s : Sat T) (o : OV V) (x l : Nat) : OCalls E C i D (s, o) (OV.listen s o x l, o) := by
  unfold OV.listen
  split
  · exact (foldl_listen o x l _ s).1
  · exact .refl

/-! ### C52 -/

/-- C52: a listener registered on `x` while at least two values are possible and no value is decided but for good (at root level: always) is told in every later call that
changes the domain of `x`. -/
theorem C52_hears (h : OReach E C i D (s, o)) {x l : Nat} (hx : x < o.doms.length) (h2 : 1 < (OV.value s o x).length)
    (hd : ∀ a, s.value (o.allows x a) ≠ none → s.level (o.allows x a).var = 0) {s1 s2 : Sat T} {o1 o2 : OV V}
    (hl : OCalls E C i D (OV.listen s o x l, o) (s1, o1)) (hc : OCall E C i D (s1, o1) (s2, o2)) (hne : ¬ ∀ a, a ∈ OV.value s1 o1 x ↔ a ∈ OV.value s2 o2 x) :
    ∃ N, s2.notes = N ++ s1.notes ∧ Hears o1 N l x := by
  have h0 : OReach E C i D (OV.listen s o x l, o) := h.calls (listen_calls s o x l)
  have h1 : OReach E C i D (s1, o1) := h0.calls hl
  have h2' : OReach E C i D (s2, o2) := h1.call hc
  have g1 := (hl.inv h0.inv).2
  have g2 := (hc.inv h1.inv).2
  have hx1 : x < o1.doms.length := Nat.lt_of_lt_of_le hx g1.doms.length_le
  have hx2 : x < o2.doms.length := Nat.lt_of_lt_of_le hx1 g2.doms.length_le
  -- every literal of the domain is known to the listener
  have hk := (h.inv.dom _ (dom_mem hx)).key
  have told0 : ∀ p ∈ o.dom x, (OV.listen s o x l).Told l p.2.var := by
    intro p hp
    have hal : o.allows x p.1 = p.2 := by unfold OV.allows; rw [mem_lookup hk hp]; rfl
    unfold OV.listen
    rw [if_pos h2]
    obtain ⟨-, e2, e3, e4, e5⟩ := foldl_listen (E := E) (C := C) (i := i) (D := D) o x l (OV.value s o x) s
    by_cases hf : s.value p.2 = some false
    · apply e5.told
      right
      refine ⟨fun hn => ?_, ?_⟩
      · rw [(Sat.value_none _ _).mpr hn] at hf; cases hf
      · have := hd p.1
        rw [hal, hf] at this
        exact this (by simp)
    · have hm : p.1 ∈ OV.value s o x := by
        unfold OV.value
        exact List.mem_map.mpr ⟨p, List.mem_filter.mpr ⟨hp, decide_eq_true hf⟩, rfl⟩
      have := e4 (fun a _ hn => hd a (fun hv => hn ((Sat.value_none _ _).mp hv))) p.1 hm
      rw [hal] at this
      exact this
  have t1 := hl.tells h0
  have t2 := (hc.tells h1.inv h1.ninv).2
  -- some literal has changed
  have hd1 : o1.dom x = o.dom x := g1.dom hx
  have hd2 : o2.dom x = o.dom x := (g2.dom hx1).trans hd1
  have : ∃ p ∈ o.dom x, s2.assigns p.2.var ≠ s1.assigns p.2.var := by
    apply Classical.byContradiction
    intro hno
    push Not at hno
    apply hne
    intro a
    unfold OV.value
    rw [hd1, hd2]
    have hval : ∀ p ∈ o.dom x, s1.value p.2 = s2.value p.2 := by
      intro p hp
      unfold Sat.value
      rw [hno p hp]
    have hf : (o.dom x).filter (fun p => decide (s1.value p.2 ≠ some false)) = (o.dom x).filter (fun p => decide (s2.value p.2 ≠ some false)) := by
      apply List.filter_congr
      intro p hp
      rw [hval p hp]
    rw [hf]
  obtain ⟨p, hp, hpne⟩ := this
  obtain ⟨N, hN, b, hb⟩ := t2.report h1.ninv h2'.ninv (t1.told (told0 p hp)) hpne
  refine ⟨N, hN, p.2.var, b, hb, ?_⟩
  have hp0 : p.2.var ≠ 0 := by
    intro e
    apply hpne
    rw [e, h1.inv.rinv.inv.wf.fv, h2'.inv.rinv.inv.wf.fv]
  exact h1.cont x hx1 p (by rw [hd1]; exact hp) hp0

/-- C52: registration at root level. -/
theorem C52_root (h : OReach E C i D (s, o)) (hr : s.root = true) {x l : Nat} (hx : x < o.doms.length) (h2 : 1 < (OV.value s o x).length) {s1 s2 : Sat T} {o1 o2 : OV V}
    (hl : OCalls E C i D (OV.listen s o x l, o) (s1, o1)) (hc : OCall E C i D (s1, o1) (s2, o2)) (hne : ¬ ∀ a, a ∈ OV.value s1 o1 x ↔ a ∈ OV.value s2 o2 x) :
    ∃ N, s2.notes = N ++ s1.notes ∧ Hears o1 N l x :=
  C52_hears h hx h2 (fun _ _ => h.inv.rinv.inv.wf.root_level hr _) hl hc hne

/-- C52: when at root level only one value is possible, nothing is registered, and the domain of a variable created by `new_var(items)` never changes again, as long as there is a
solution. -/
theorem C52_single (h : OReach E C i D (s, o)) {items : List V} {x l : Nat} (hn : OV.newVar E i s o items true = .ok (s', o', x)) {s1 s2 : Sat T} {o1 o2 : OV V}
    (h1 : OCalls E C i D (s', o') (s1, o1)) (hr : s1.root = true) (hone : (OV.value s1 o1 x).length ≤ 1) (hl : OCalls E C i D (OV.listen s1 o1 x l, o1) (s2, o2))
    {α : Asg} (hα : s2.Sol C.Th α) (hd : α.all s2.decisions) : OV.listen s1 o1 x l = s1 ∧ ∀ a, a ∈ OV.value s1 o1 x ↔ a ∈ OV.value s2 o2 x := by
  have e : OV.listen s1 o1 x l = s1 := by
    unfold OV.listen
    rw [if_neg (by omega)]
  rw [e] at hl
  refine ⟨e, fun a => ?_⟩
  have hr' : OReach E C i D (s', o') := h.call (.newVar hn)
  have hr1 := hr'.calls h1
  have hr2 := hr1.calls hl
  have app : ∀ {b c : Sat T × OV V}, OCalls E C i D b c → ∀ a, OCalls E C i D a b → OCalls E C i D a c := by
    intro b c h
    induction h with
    | refl => exact fun _ h => h
    | tail _ h2 ih => exact fun a h => .tail (ih a h) h2
  have h12 := app hl _ h1
  have hx' : x < o'.doms.length := by
    have k := newVar_made h.inv.rinv hn
    obtain ⟨m, hd, -⟩ := k.dom
    rw [hd, k.x]; simp
  have hx1 : x < o1.doms.length := Nat.lt_of_lt_of_le hx' (h1.inv hr'.inv).2.doms.length_le
  have hal : ∀ a, o2.allows x a = o1.allows x a := allows_later (hl.inv hr1.inv).2 hx1
  have t := hl.tells hr1
  have sub : ∀ b, b ∈ OV.value s2 o2 x → b ∈ OV.value s1 o1 x := by
    intro b hb
    rw [C51_value_items h hn h12] at hb
    rw [C51_value_items h hn h1]
    refine ⟨hb.1, fun hf => hb.2 ?_⟩
    have ha : s1.assigns (o1.allows x b).var ≠ none := fun hv => by rw [(Sat.value_none _ _).mpr hv] at hf; cases hf
    have := (t.fin _ ha (hr1.inv.rinv.inv.wf.root_level hr _)).1
    rw [hal]
    unfold Sat.value at hf ⊢
    rw [this]
    exact hf
  obtain ⟨b, hb, hs, -⟩ := C49_exactly_one h hn h12 hα
  have hb2 := C51_contains hr2 (Nat.lt_of_lt_of_le hx1 (hl.inv hr1.inv).2.doms.length_le) hα hd hs
  have hb1 := sub b hb2
  match hv : OV.value s1 o1 x, hone, hb1 with
  | [], _, hb1 => cases hb1
  | [c], _, hb1 =>
    rw [List.mem_singleton] at hb1
    rw [List.mem_singleton]
    constructor
    · rintro rfl; rw [← hb1]; exact hb2
    · intro ha
      have := sub a ha
      rw [hv, List.mem_singleton] at this
      exact this
  | c :: d :: r, hone, _ => simp at hone

end OV
end Semitone
