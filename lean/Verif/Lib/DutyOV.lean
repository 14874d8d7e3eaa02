import Verif.Lib.DutyInst

/-!
# The duties of object variables
-/
namespace Semitone
namespace OV
variable {V : Type} [DecidableEq V] {E : Env} {D : OEnv V} {Z Z' : Asg → Prop} {s s' : Sat (OV V)} {o : OV V} {d : Bool}

/-- The theory never restricts the truth assignments: everything it says is in the clauses of the core. -/
def ovCon (g : OV V) : Contract (ops (V := V)) where
  Th := fun _ _ => True
  TI := fun t _ _ => t = g
  mono := fun _ _ _ _ h _ => h
  prop := fun _ _ _ _ _ _ h _ _ _ => .ok h (fun _ => Iff.rfl)
  check := fun _ _ _ _ _ _ _ h _ _ hk => by
    have hk : Except.ok (_, Option.none) = Except.ok (_, _) := hk
    injection hk with hk; injection hk with e1 e2; subst e1 e2
    exact ⟨h, fun _ => Iff.rfl, fun _ e => by cases e⟩
  push := fun _ _ _ h _ => ⟨h, fun _ => Iff.rfl⟩
  pop := fun _ _ _ _ h hp => by injection hp with hp; subst hp; exact ⟨h, fun _ => Iff.rfl⟩

/-- Every variable is bound at most to this theory, once. -/
def Solo (b : Nat → List Nat) : Prop := ∀ v, b v = [] ∨ b v = [0]

theorem Solo.unbind {b : Nat → List Nat} (h : Solo b) (w : Nat) : Solo (upd b w []) := fun v => by
  by_cases e : v = w
  · rw [e, upd_self]; exact .inl rfl
  · rw [upd_ne _ _ e]; exact h v

theorem Solo.bind {b : Nat → List Nat} (h : Solo b) (w : Nat) : Solo (upd b w (0 :: (b w).erase 0)) := fun v => by
  by_cases e : v = w
  · rw [e, upd_self]
    rcases h w with k | k
    · rw [k]; exact .inr rfl
    · rw [k]; exact .inr rfl
  · rw [upd_ne _ _ e]; exact h v

def ovLive (g : OV V) : Live (ovCon g) where
  F := fun _ => False
  Done := fun _ => True
  LI := fun _ _ b _ _ _ => Solo b
  adv := fun h _ _ _ _ _ => h
  pop := fun h => ⟨_, rfl, h⟩
  push := fun h _ _ => h
  prop := fun {t nv b n A P P1 val p} h _ _ _ _ _ => by
    rcases h p.var with e | e
    · exact .inl ⟨e, h⟩
    · exact .inr ⟨0, e, .ok ⟨h, fun _ => h.unbind _⟩⟩
  check := fun {t nv b n A P val} h _ _ hA hC => by
    refine ⟨t, none, rfl, fun _ => ⟨h, trivial, fun v => decide (val ⟨v, true⟩ = some true), trivial, fun q hq => ?_⟩, fun _ e => by cases e⟩
    have hv := (hA q).mp hq
    obtain ⟨v, sg⟩ := q
    unfold Asg.sat
    cases sg with
    | true => simpa using hv
    | false =>
      have := hC ⟨v, false⟩
      rw [hv] at this
      have : val ⟨v, true⟩ = some false := this
      simp [this]

/-- What a call does to the core: nothing is retracted, the clauses stay watched, the variables stay bound to this theory only. -/
structure Soft (s s' : Sat (OV V)) : Prop where
  mild : s.Mild s'
  fix : s.Fix s.okQ → s'.Fix s'.okQ
  one : Solo s.bounds → Solo s'.bounds

theorem Soft.refl (s : Sat (OV V)) : Soft s s := ⟨.refl s, id, id⟩

theorem Soft.trans {s1 s2 s3 : Sat (OV V)} (h1 : Soft s1 s2) (h2 : Soft s2 s3) : Soft s1 s3 := ⟨h1.mild.trans h2.mild, h2.fix ∘ h1.fix, h2.one ∘ h1.one⟩

theorem Soft.setTh (h : Soft s s') (o : OV V) : Soft s { s' with th := o } :=
  ⟨⟨h.mild.dl, h.mild.nv, h.mild.up, h.mild.low, h.mild.new, h.mild.pen⟩, fun k => ⟨(h.fix k).nd, (h.fix k).fx⟩, h.one⟩

variable {C : Contract (ops (V := V))}

theorem soft_newVar (h : s.Inv C) : Soft s s.newVar.1 :=
  ⟨Sat.newVar_mild h.wf, (Sat.newVar_defd h).fix, fun k => by rw [(Sat.newVar_defd h).bounds]; exact k⟩

theorem soft_bind (h : s.Inv C) : Soft s (s.newVar.1.bind s.newVar.2 0) :=
  (soft_newVar h).trans ⟨.of_eq rfl (Nat.le_refl _) rfl rfl rfl, fun k => ⟨k.nd, k.fx⟩, fun k => k.bind _⟩

theorem soft_step (h : s.Inv C) (hr : s.root = true) (R : Sat.RStep s s') (hq : Sat.Quiet s s') (hf : s.Fix s.okQ → s'.Fix s'.okQ) (hb : s'.bounds = s.bounds) : Soft s s' :=
  ⟨R.mild hq h.wf hr, hf, fun k => by rw [hb]; exact k⟩

theorem soft_fresh (id : Nat) : ∀ (items : List V) (s : Sat (OV V)) (m : List (V × Lit)) (c : Nat → List Nat), s.RInv C → Soft s (fresh 0 id items s m c).1
  | [], s, _, _, _ => .refl s
  | a :: as, s, m, c, h => by
    have h1 : s.newVar.1.RInv C := Sat.step_rinv (E := stdEnv) (O := ops) h (fun e => by cases e) (op := .newVar) rfl
    have h2 : (s.newVar.1.bind s.newVar.2 0).RInv C := Sat.step_rinv (E := stdEnv) (O := ops) h1 (fun e => by cases e) (op := .bind s.newVar.2 0) rfl
    exact (soft_bind h.inv).trans (soft_fresh id as _ _ _ h2)

theorem soft_newEXO (h : s.Inv C) {ls r} (hn : s.newEXO E ls = .ok (s', r)) : Soft s s' :=
  soft_step h (Sat.newEXO_pre hn).1 (Sat.newEXO_defd h hn).rstep (Sat.newEXO_quiet hn) (Sat.newEXO_defd h hn).fix (Sat.newEXO_defd h hn).bounds

theorem soft_newClause (h : s.Inv C) {ls b} (hn : s.newClause E ls = .ok (s', b)) : Soft s s' := by
  have k := Sat.newClause_spec h hn
  exact soft_step h k.root k.rstep (Sat.newClause_quiet hn) k.fix k.bounds

theorem soft_postAll : ∀ (cls : List (List Lit)) {s s' : Sat (OV V)} {b : Bool}, s.Inv C → s.postAll E cls = .ok (s', b) → Soft s s'
  | [], s, s', b, h, hn => by
    injection hn with hn; injection hn with e1 e2; subst e1
    exact .refl s
  | c :: cls, s, s', b, h, hn => by
    unfold Sat.postAll at hn
    split at hn
    · cases hn
    · next s1 h1 =>
      injection hn with hn; injection hn with e1 e2; subst e1
      exact soft_newClause h h1
    · next s1 h1 => exact (soft_newClause h h1).trans (soft_postAll cls (Sat.newClause_spec h h1).inv hn)

theorem soft_ovNewVar {items : List V} {enf : Bool} {x : Nat} (h : s.RInv C) (hn : OV.newVar E 0 s s.th items enf = .ok (s', o, x)) : Soft s s' := by
  unfold OV.newVar at hn
  split at hn
  · cases hn
  · injection hn with hn; injection hn with e1 hn; subst e1
    exact .refl s
  · obtain ⟨r1, -⟩ := fresh_spec (C := C) (i := 0) s.th.doms.length items s [] s.th.cont s.nvars h (Nat.le_refl _) ⟨by simp, by simp, by simp⟩
    have r2 := soft_fresh s.th.doms.length items s [] s.th.cont h
    simp only at hn
    generalize fresh 0 s.th.doms.length items s [] s.th.cont = f at r1 r2 hn
    obtain ⟨s1, m, c⟩ := f
    simp only at r1 r2 hn
    split at hn
    · split at hn
      · cases hn
      · next s2 r h2 =>
        split at hn
        · cases hn
        · cases hn
        · next s3 h3 =>
          injection hn with hn; injection hn with e1' hn; subst e1'
          exact r2.trans ((soft_newEXO r1.inv h2).trans (soft_newClause (Sat.newEXO_defd r1.inv h2).inv h3))
    · injection hn with hn; injection hn with e1' hn; subst e1'
      exact r2

theorem soft_newEqOrd {l r : Nat} {q : Lit} (h : s.RInv C) (hn : newEqOrd E D s s.th l r = .ok (s', o, q)) : Soft s s' := by
  unfold newEqOrd at hn
  split at hn
  · injection hn with hn; injection hn with e1 hn; subst e1
    exact .refl s
  · split at hn
    · injection hn with hn; injection hn with e1 hn; subst e1
      exact .refl s
    · simp only at hn
      split at hn
      · cases hn
      · cases hn
      · next s2 h2 =>
        injection hn with hn; injection hn with e1 hn; subst e1
        exact (soft_newVar h.inv).trans (soft_postAll _ (Sat.newVar_defd h.inv).inv h2)

theorem soft_newEq {x y : Nat} {q : Lit} (h : s.RInv C) (hn : OV.newEq E D s s.th x y = .ok (s', o, q)) : Soft s s' := by
  rcases newEq_ord hn with ⟨-, e, -, -⟩ | ⟨l, r, -, -, -, ho⟩
  · rw [e]; exact .refl s
  · exact soft_newEqOrd h ho

/-- What holds in the sessions. -/
structure DSI (Z : Asg → Prop) (s : Sat (OV V)) : Prop where
  oinv : OInv ((ovCon s.th).restrict Z) s s.th
  zloc : ∀ α β : Asg, Asg.agree s.nvars α β → Z α → Z β

theorem OInv.holds {O : TheoryOps (OV V)} {C : Contract O} (h : OInv C s s.th) (α : Asg) (h0 : α 0 = false) :
    Holds s.th α (fun v => ((s.th.dom v).filter (fun p => decide (α.sat p.2))).map Prod.fst) := by
  intro v hv
  have hk := (h.dom _ (dom_mem hv)).key
  refine ⟨hk.sublist (List.filter_sublist.map _), fun a => ?_⟩
  rw [← sel_iff h0]
  simp only [List.mem_map, List.mem_filter, decide_eq_true_eq]
  constructor
  · rintro ⟨p, ⟨hp, hq⟩, rfl⟩
    exact ⟨p.2, mem_lookup hk hp, hq⟩
  · rintro ⟨l, hl, hs⟩
    exact ⟨(a, l), ⟨lookup_some_mem hl, hs⟩, rfl⟩

theorem DSI.fin (h : DSI Z s) (hi : OInv ((ovCon s.th).restrict Z) s' o) (hg : OGrows ((ovCon s.th).restrict Z) s s.th s' o) (hs : Soft s s') (hl : ∃ _ : True, s.LiveD (ovLive s.th) d) :
    DSI Z { s' with th := o } ∧ (∀ α x, α 0 = false → (∀ D ∈ s'.posted, α.clause D) → Z α → Holds o α x → Holds s.th α x ∧ ∀ D ∈ s.posted, α.clause D) ∧ s.Mild { s' with th := o } ∧
    (s'.dead = true ∨ (∃ _ : True, ({ s' with th := o } : Sat (OV V)).LiveD (ovLive o) true) ∧ (() = () → ∃ _ : True, ({ s' with th := o } : Sat (OV V)).LiveD (ovLive o) d)) := by
  obtain ⟨-, hl⟩ := hl
  have k : Kin s.th o := ⟨hg.doms, hg.exprs⟩
  have hZ : ∀ α, ((ovCon o).restrict Z).Th o α → ((ovCon s.th).restrict Z).Th s'.th α := fun α h => ⟨trivial, h.2⟩
  have ss := hs.setTh o
  have hcon : ∀ i, ({ s' with th := o } : Sat (OV V)).Cons (ovCon o) i := fun i => by
    refine ⟨fun v => decide (s'.assigns v = some true), trivial, fun q hq => ?_⟩
    have hq : s'.value q = some true := hq.1
    obtain ⟨v, sg⟩ := q
    unfold Sat.value at hq
    simp only [Asg.sat] at hq ⊢
    cases hv : s'.assigns v with
    | none => rw [hv] at hq; simp at hq
    | some b => rw [hv] at hq; cases b <;> cases sg <;> simp_all
  have hL : ({ s' with th := o } : Sat (OV V)).LiveD (ovLive o) d := ⟨⟨ss.fix hl.live.fix, ss.one hl.live.li, fun i _ => hcon i⟩, fun _ _ => hcon _⟩
  refine ⟨⟨⟨hi.rinv.theory (C' := (ovCon o).restrict Z) hZ rfl, fun m hm => ⟨(hi.dom m hm).ne, (hi.dom m hm).key, (hi.dom m hm).rng⟩, fun l r q hq => ?_⟩, fun α β hab hz => h.zloc α β (fun v hv => hab v (hv.trans_le hs.mild.nv)) hz⟩,
    fun α x h0 hp hz hx => ⟨(comp stdEnv ⟨id, fun _ => .refl _⟩).holds_ext k hx, fun D hD => hp D (hg.grows.posted D hD)⟩, ss.mild, .inr ⟨⟨trivial, hL.weak⟩, fun _ => ⟨trivial, hL⟩⟩⟩
  obtain ⟨a, b, c, e, f⟩ := hi.eq l r q hq
  exact ⟨a, b, c, e, fun α hα => f α ⟨hα.1, hα.2.1, hZ α hα.2.2⟩⟩

theorem Act.duty {u u' : Unit} (h : DSI Z s) (hl : ∃ _ : True, s.LiveD (ovLive s.th) d) (hc : Act E D s u s' u') :
    DSI Z s' ∧ (∀ α x, α 0 = false → (∀ D ∈ s'.posted, α.clause D) → Z α → Holds s'.th α x → Holds s.th α x ∧ ∀ D ∈ s.posted, α.clause D) ∧ s.Mild s' ∧
    (s'.dead = true ∨ (∃ _ : True, s'.LiveD (ovLive s'.th) true) ∧ (() = () → ∃ _ : True, s'.LiveD (ovLive s'.th) d)) := by
  cases hc with
  | @newVar s1 o x items enf hn =>
    have k := newVar_made h.oinv.rinv hn
    obtain ⟨m, hd, h1, h2, h3, h4, h5, -⟩ := k.dom
    have og : OGrows ((ovCon s.th).restrict Z) s s.th s1 o := ⟨k.grows, by rw [hd]; exact List.prefix_append _ _, fun k' q hq => by rw [k.exprs]; exact hq⟩
    refine h.fin (h.oinv.grow k.rinv og (fun m' hm => ?_) k.exprs) og (soft_ovNewVar h.oinv.rinv hn) hl
    rw [hd, List.mem_append, List.mem_singleton] at hm
    rcases hm with hm | rfl
    · exact .inl hm
    · exact .inr ⟨h1, h2, h5⟩
  | @newVarLits o x lits vals hv hn =>
    obtain ⟨hx, he, m, hd, hm, -⟩ := newVarLits_made hv hn
    have og : OGrows ((ovCon s.th).restrict Z) s s.th s o := ⟨Sat.Grows.refl _ _, by rw [hd]; exact List.prefix_append _ _, fun k' q hq => by rw [he]; exact hq⟩
    refine h.fin (h.oinv.grow h.oinv.rinv og (fun m' hm' => ?_) he) og (.refl s) hl
    rw [hd, List.mem_append, List.mem_singleton] at hm'
    rcases hm' with hm' | rfl
    · exact .inl hm'
    · exact .inr hm
  | @newEq s1 o x y q hn =>
    obtain ⟨a, b⟩ := newEq_inv h.oinv hn
    exact h.fin a b (soft_newEq h.oinv.rinv hn) hl

/-- The duties of object variables. -/
def duty (E : Env) (D : OEnv V) : Duty (OV.comp E D) where
  sops := ops
  guards := .refl _ _
  Sg := OV V
  sg := id
  con := ovCon
  Th := fun _ _ => True
  con_th := fun _ _ _ => Iff.rfl
  ti_sg := fun h => h
  th_sg := fun _ h => h
  own := fun _ _ => False
  mix := fun _ _ _ _ _ _ _ => trivial
  Ok := fun _ => True
  live := fun g _ => ovLive g
  exc := fun h => h.elim
  Net := fun t _ α x => Holds t α x
  net_sg := fun {t t' U α x} e h => by
    have e : t' = t := e
    subst e; exact h
  SI := fun Z s _ => DSI Z s
  rinv := fun h => h.oinv.rinv
  zloc := fun h => h.zloc
  loc := fun {Z s U} h α β x hab hx v hv => ⟨(hx v hv).1, fun a => by
    have hk : (s.th.allows v a).var < s.nvars := by
      unfold OV.allows
      match hm : (s.th.dom v).lookup a with
      | none => exact h.oinv.rinv.inv.wf.nv
      | some l => exact (h.oinv.dom _ (dom_mem hv)).rng _ (lookup_some_mem hm)
    rw [(hx v hv).2 a]
    unfold Asg.sat
    rw [hab _ hk]⟩
  rng := fun _ _ h => h.elim
  ok := fun _ => trivial
  th_of := fun _ _ _ _ _ _ _ => trivial
  nt_of := fun h α h0 _ => ⟨_, h.oinv.holds α h0⟩
  net_of := fun _ α x hx => hx
  move := fun {Z Z' s s' U} h e hr hn hz hk => by
    have e : s'.th = s.th := e
    refine ⟨⟨hr, fun m hm => ?_, fun l r q hq => ?_⟩, hz⟩
    · rw [e] at hm
      exact (h.oinv.dom m hm).mono hn
    · have ex : ∀ α, α 0 = false → ∃ x, Holds s'.th α x := fun α h0 => by rw [e]; exact ⟨_, h.oinv.holds α h0⟩
      rw [e] at hq ⊢
      obtain ⟨a, b, c, d, f⟩ := h.oinv.eq l r q hq
      refine ⟨a, b, c.trans_le hn, d, fun α hα => ?_⟩
      obtain ⟨k1, k2⟩ := hk α hα.1 hα.2.1 hα.2.2.2 (ex α hα.1)
      exact f α ⟨hα.1, k1, trivial, k2⟩
  start := fun {t} h => by
    have h : t = OV.init := h
    subst h
    exact ⟨⟨(Sat.Reach.init (E := E) (C := (ovCon (OV.init : OV V)).restrict anyAsg) rfl).rinv, fun m hm => (by cases hm), fun l r q hq => (by cases hq)⟩, fun _ _ _ h => h⟩
  live0 := fun {t} h _ => by
    have h : t = OV.init := h
    subst h
    have hcon : ∀ i, (Sat.init (OV.init : OV V)).Cons (ovCon OV.init) i := fun i => by
      refine ⟨fun v => decide ((Sat.init (OV.init : OV V)).assigns v = some true), trivial, fun q hq => ?_⟩
      have hq : (Sat.init (OV.init : OV V)).value q = some true := hq.1
      obtain ⟨v, sg⟩ := q
      unfold Sat.value at hq
      simp only [Asg.sat] at hq ⊢
      cases hv : (Sat.init (OV.init : OV V)).assigns v with
      | none => rw [hv] at hq; simp at hq
      | some b => rw [hv] at hq; cases b <;> cases sg <;> simp_all
    exact ⟨⟨⟨fun c hc => (by cases hc), fun c hc => (by cases hc)⟩, fun _ => .inl rfl, fun i _ => hcon i⟩, fun _ _ => hcon _⟩
  call := fun h _ _ hl hc => by
    obtain ⟨a, b, c, d⟩ := Act.duty h hl hc
    exact ⟨a, b, c, fun _ hv => hv.elim, d⟩
  Rpt := fun s x => ∀ v, v < s.th.doms.length → ∀ a ∈ x v, a ∈ OV.value s s.th v
  rpt := fun {Z s U} h α x h0 hp hx hz hd v hv a ha => by
    have hs := ((hx v hv).2 a).mp ha
    rw [← sel_iff h0] at hs
    obtain ⟨l, hl, hs⟩ := hs
    unfold OV.value
    simp only [List.mem_map, List.mem_filter, decide_eq_true_eq]
    refine ⟨(a, l), ⟨lookup_some_mem hl, fun hf => ?_⟩, rfl⟩
    have : s.value l.neg = some true := by rw [Sat.value_neg, hf]; rfl
    exact (Asg.sat_neg α l).mp (h.oinv.rinv.inv.sem.val _ this α ⟨h0, hp, trivial, hz⟩ (fun l hl => hd l (List.mem_of_mem_drop hl))) hs
  Tell := fun t B x => ∀ v, v < t.doms.length → ∀ a ∈ x v, ∃ l, (a, l) ∈ t.dom v ∧ ¬ B l.neg
  tell := fun {Z s U t n A} _ _ α x h0 _ hx _ hA v hv a ha => by
    have hs := ((hx v hv).2 a).mp ha
    rw [← sel_iff h0] at hs
    obtain ⟨l, hl, hs⟩ := hs
    exact ⟨l, lookup_some_mem hl, fun hB => (Asg.sat_neg α l).mp (hA _ hB) hs⟩

end OV
end Semitone
