import Verif.Mix.Vow

/-!
# Any number of theories on one core

`sat_core` keeps a vector of theories (`sat_core.h:167`). A `Comp` is a theory (or a family of theories) with the calls that its clients may make, what it has to keep (`Firm`), and what is true of the values it
reports; two of them on the same core are again one (`Comp.prod`). What is proved here of the sessions of a `Comp` therefore holds of any number of theories attached to the core, in any order.
-/
namespace Semitone

/-- A theory, or a family of theories, with its clients. -/
structure Comp (T : Type) where
  ops : TheoryOps T
  /-- The number of theories. -/
  m : Nat
  ids : ∀ i ∈ ops.ids, i < m
  /-- The theory when it is attached to a new core. -/
  Start : T → Prop
  /-- What the client has imposed. -/
  Dat : Type
  d0 : Dat
  firm : Dat → Firm ops
  start : ∀ {t}, Start t → (Sat.init t).Calm (firm d0)
  /-- The calls of the client on the theory. -/
  Call : Sat T → Dat → Sat T → Dat → Prop
  /-- What the calls of the core do not change. -/
  Reg : Type
  reg : T → Reg
  firmAt : Dat → Reg → Firm ops
  to_at : ∀ {s : Sat T} {U}, s.Calm (firm U) → s.Calm (firmAt U (reg s.th))
  of_at : ∀ {s : Sat T} {U r}, s.Calm (firmAt U r) → s.Calm (firm U) ∧ reg s.th = r
  done_at : ∀ {t U r}, (firmAt U r).Done t → (firm U).Done t
  /-- Nothing is forgotten. -/
  Ext : T → T → Prop
  ext_trans : ∀ {t1 t2 t3}, Ext t1 t2 → Ext t2 t3 → Ext t1 t3
  ext_reg : ∀ {t t'}, reg t' = reg t → Ext t t'
  /-- What the theory expects of the assignments that the core can end with. -/
  Inv : Sat T → Prop
  inv_start : ∀ {t}, Start t → Inv (Sat.init t)
  inv_onw : ∀ {s s' : Sat T}, Inv s → Sat.Onw s s' → reg s'.th = reg s.th → Inv s'
  call : ∀ {s s' : Sat T} {U U'}, s.Calm (firm U) → s.Vow → Inv s → s.dead = false → Call s U s' U' →
    s'.dead = true ∨ (s'.Calm (firm U') ∧ s'.Vow ∧ Inv s' ∧ Sat.Onw s s' ∧ s.Mild s' ∧ (∀ v, v < s.nvars → s'.bounds v = s.bounds v) ∧ Ext s.th s'.th)
  bnd : ∀ {s : Sat T} {U}, s.Calm (firm U) → (∀ v, ∀ i ∈ s.bounds v, i < m) ∧ ∀ v, s.nvars ≤ v → s.bounds v = []
  /-- What the theory reports. -/
  Val : Type
  Holds : T → Asg → Val → Prop
  holds_ext : ∀ {t t' α x}, Ext t t' → Holds t' α x → Holds t α x
  /-- The values reported, the infinitesimal being given the value `δ`. -/
  Rep : Sat T → ℚ → Val → Prop
  final : ∀ {s : Sat T} {U}, s.Calm (firm U) → Inv s → s.propQ = [] → (firm U).Done s.th → (∀ v, v < s.nvars → s.assigns v ≠ none) →
    ∃ δ0 : ℚ, 0 < δ0 ∧ ∀ δ, 0 < δ → δ ≤ δ0 → (∃ x, Rep s δ x) ∧ ∀ x, Rep s δ x → Holds s.th (fun v => s.assigns v = some true) x
  /-- The same where the levels of the theories are not those of the core. -/
  ends : ∀ {s : Sat T} {U r nv b n A}, (firmAt U r).LI s.th nv b n A (fun _ => False) → (firmAt U r).Done s.th → s.assigns 0 = some false → (∀ q, A n q ↔ s.value q = some true) → (∀ v, v < nv → s.assigns v ≠ none) →
    reg s.th = r ∧ ∃ δ0 : ℚ, 0 < δ0 ∧ ∀ δ, 0 < δ → δ ≤ δ0 → (∃ x, Rep s δ x) ∧ ∀ x, Rep s δ x → Holds s.th (fun v => s.assigns v = some true) x

namespace Sat
variable {T T' T1 T2 : Type}

theorem Onw.view {s s' : Sat T} {t t' : T'} {b b'} (h : Onw s s') : Onw (s.retheory t b) (s'.retheory t' b') := ⟨h.nv, h.post, h.lit⟩

theorem Mild.view {s s' : Sat T} {t t' : T'} {b b'} (h : Mild s s') : Mild (s.retheory t b) (s'.retheory t' b') := ⟨h.dl, h.nv, h.up, h.low, h.new, h.pen⟩

end Sat

namespace Comp
variable {T T' T1 T2 : Type}

/-- The calls on two families of theories: each is made on one of them, which sees the core and its own state. -/
inductive Calls (C1 : Comp T1) (C2 : Comp T2) (S : Sat (T1 × T2)) (U : C1.Dat × C2.Dat) : Sat (T1 × T2) → C1.Dat × C2.Dat → Prop
  | left {s u} : C1.Call (S.left C1.m) U.1 s u → Calls C1 C2 S U (S.putL C1.m s) (u, U.2)
  | right {s u} : C2.Call (S.right C1.m) U.2 s u → Calls C1 C2 S U (S.putR C1.m s) (U.1, u)

/-- Two families of theories on one core. -/
def prod (C1 : Comp T1) (C2 : Comp T2) : Comp (T1 × T2) where
  ops := C1.ops.prod C1.m C2.ops
  m := C1.m + C2.m
  ids := fun i hi => by
    have hi : i ∈ C1.ops.ids ++ C2.ops.ids.map (· + C1.m) := hi
    rcases List.mem_append.1 hi with h | h
    · have := C1.ids i h; omega
    · obtain ⟨j, hj, rfl⟩ := List.mem_map.1 h
      have := C2.ids j hj; omega
  Start := fun t => C1.Start t.1 ∧ C2.Start t.2
  Dat := C1.Dat × C2.Dat
  d0 := (C1.d0, C2.d0)
  firm := fun U => (C1.firm U.1).prod C1.m (C2.firm U.2) C1.ids
  start := fun {t} h => by
    refine Sat.init_calm ⟨?_, ?_, fun v => .inl rfl, Sat.tru_rising _ _⟩
    · have hc := (C1.start h.1).li
      exact (C1.firm C1.d0).adv hc (Nat.le_refl _) (fun _ _ _ h => h) (fun _ _ _ h => h) (fun _ h => .inl h) (fun q hq => (by cases hq))
    · have hc := (C2.start h.2).li
      exact (C2.firm C2.d0).adv hc (Nat.le_refl _) (fun _ _ _ h => h) (fun _ _ _ h => h) (fun _ h => .inl h) (fun q hq => (by cases hq))
  Call := Calls C1 C2
  Reg := C1.Reg × C2.Reg
  reg := fun t => (C1.reg t.1, C2.reg t.2)
  firmAt := fun U r => (C1.firmAt U.1 r.1).prod C1.m (C2.firmAt U.2 r.2) C1.ids
  to_at := fun h => h.sound.calm ⟨(C1.to_at h.left).li, (C2.to_at h.right).li, h.li.2.2⟩
  of_at := fun h => by
    obtain ⟨a1, a2⟩ := C1.of_at h.left
    obtain ⟨b1, b2⟩ := C2.of_at h.right
    exact ⟨h.sound.calm ⟨a1.li, b1.li, h.li.2.2⟩, Prod.ext a2 b2⟩
  done_at := fun h => ⟨C1.done_at h.1, C2.done_at h.2⟩
  Ext := fun t t' => C1.Ext t.1 t'.1 ∧ C2.Ext t.2 t'.2
  ext_trans := fun h1 h2 => ⟨C1.ext_trans h1.1 h2.1, C2.ext_trans h1.2 h2.2⟩
  ext_reg := fun h => ⟨C1.ext_reg (congrArg Prod.fst h), C2.ext_reg (congrArg Prod.snd h)⟩
  Inv := fun S => C1.Inv (S.left C1.m) ∧ C2.Inv (S.right C1.m)
  inv_start := fun h => ⟨C1.inv_onw (C1.inv_start h.1) ⟨Nat.le_refl _, fun _ h => h, fun _ h => h⟩ rfl, C2.inv_onw (C2.inv_start h.2) ⟨Nat.le_refl _, fun _ h => h, fun _ h => h⟩ rfl⟩
  inv_onw := fun h o e => ⟨C1.inv_onw h.1 o.view (congrArg Prod.fst e), C2.inv_onw h.2 o.view (congrArg Prod.snd e)⟩
  call := fun {S S' U U'} hc hv hi hd h => by
    cases h with
    | @left s u h =>
      rcases C1.call hc.left hv.view hi.1 hd h with k | ⟨k1, k2, k3, k4, k5, k6, k7⟩
      · exact .inl k
      · have b1 := C1.bnd k1
        have b2 := C2.bnd hc.right
        have hlv : ∀ v, v < S.nvars → (S.putL C1.m s).bounds v = S.bounds v := fun v hvv => by
          have e : s.bounds v = bl C1.m S.bounds v := k6 v hvv
          show bj C1.m s.bounds (br C1.m S.bounds) v = _
          unfold bj
          rw [e]
          rcases hc.li.2.2.1 v with h0 | h0
          · rw [h0, only_right h0]; rfl
          · rw [h0, ← only_left h0]; simpa using fun a ha => by simpa using (List.mem_filter.mp ha).2
        have e1 : bl C1.m (bj C1.m s.bounds (br C1.m S.bounds)) = s.bounds := by
          rw [bl_bj]
          funext v
          exact List.filter_eq_self.mpr (fun i hi => by simpa using b1.1 v i hi)
        refine .inr ⟨hc.putL k1 k5 k6 b1.1 b2.2, k2.view, ⟨?_, ?_⟩, ⟨k4.nv, k4.post, k4.lit⟩, ⟨k5.dl, k5.nv, k5.up, k5.low, k5.new, k5.pen⟩, hlv, k7, C2.ext_reg rfl⟩
        · exact C1.inv_onw k3 ⟨Nat.le_refl _, fun _ h => h, fun _ h => h⟩ rfl
        · exact C2.inv_onw hi.2 ⟨k4.nv, k4.post, k4.lit⟩ rfl
    | @right s u h =>
      rcases C2.call hc.right hv.view hi.2 hd h with k | ⟨k1, k2, k3, k4, k5, k6, k7⟩
      · exact .inl k
      · have b1 := C1.bnd hc.left
        have hlv : ∀ v, v < S.nvars → (S.putR C1.m s).bounds v = S.bounds v := fun v hvv => by
          have e : s.bounds v = br C1.m S.bounds v := k6 v hvv
          show bj C1.m (bl C1.m S.bounds) s.bounds v = _
          unfold bj
          rw [e]
          rcases hc.li.2.2.1 v with h0 | h0
          · rw [h0, only_right h0]; rfl
          · rw [h0, ← only_left h0]; simpa using fun a ha => by simpa using (List.mem_filter.mp ha).2
        refine .inr ⟨hc.putR k1 k5 k6 b1.2, k2.view, ⟨?_, ?_⟩, ⟨k4.nv, k4.post, k4.lit⟩, ⟨k5.dl, k5.nv, k5.up, k5.low, k5.new, k5.pen⟩, hlv, C1.ext_reg rfl, k7⟩
        · exact C1.inv_onw hi.1 ⟨k4.nv, k4.post, k4.lit⟩ rfl
        · exact C2.inv_onw k3 ⟨Nat.le_refl _, fun _ h => h, fun _ h => h⟩ rfl
  bnd := fun {S U} h => by
    have b1 := C1.bnd h.left
    have b2 := C2.bnd h.right
    refine ⟨fun v i hi => ?_, fun v hv => bl_br_nil (b1.2 v hv) (b2.2 v hv)⟩
    rcases h.li.2.2.1 v with h0 | h0
    · rw [only_right h0] at hi
      obtain ⟨j, hj, rfl⟩ := List.mem_map.1 hi
      have := b2.1 v j hj; omega
    · rw [← only_left h0] at hi
      have := b1.1 v i hi; omega
  Val := C1.Val × C2.Val
  Holds := fun t α x => C1.Holds t.1 α x.1 ∧ C2.Holds t.2 α x.2
  holds_ext := fun h hx => ⟨C1.holds_ext h.1 hx.1, C2.holds_ext h.2 hx.2⟩
  Rep := fun S δ x => C1.Rep (S.left C1.m) δ x.1 ∧ C2.Rep (S.right C1.m) δ x.2
  final := fun hc hi hq hd hall => by
    obtain ⟨d1, p1, f1⟩ := C1.final hc.left hi.1 hq hd.1 hall
    obtain ⟨d2, p2, f2⟩ := C2.final hc.right hi.2 hq hd.2 hall
    refine ⟨min d1 d2, lt_min p1 p2, fun δ h0 h1 => ?_⟩
    obtain ⟨⟨x, hx⟩, g1⟩ := f1 δ h0 (h1.trans (min_le_left _ _))
    obtain ⟨⟨y, hy⟩, g2⟩ := f2 δ h0 (h1.trans (min_le_right _ _))
    exact ⟨⟨(x, y), hx, hy⟩, fun z hz => ⟨g1 _ hz.1, g2 _ hz.2⟩⟩
  ends := fun {S U r nv b n A} hl hd h0 hA hall => by
    obtain ⟨e1, d1, p1, f1⟩ := C1.ends (s := S.left C1.m) hl.1 hd.1 h0 hA hall
    obtain ⟨e2, d2, p2, f2⟩ := C2.ends (s := S.right C1.m) hl.2.1 hd.2 h0 hA hall
    refine ⟨Prod.ext e1 e2, min d1 d2, lt_min p1 p2, fun δ h0 h1 => ?_⟩
    obtain ⟨⟨x, hx⟩, g1⟩ := f1 δ h0 (h1.trans (min_le_left _ _))
    obtain ⟨⟨y, hy⟩, g2⟩ := f2 δ h0 (h1.trans (min_le_right _ _))
    exact ⟨⟨(x, y), hx, hy⟩, fun z hz => ⟨g1 _ hz.1, g2 _ hz.2⟩⟩

/-! ### Sessions -/

/-- One call: of the core, or of one of the theories. -/
inductive Turn (E : Env) (C : Comp T) (S : Sat T) (U : C.Dat) : Sat T → C.Dat → Prop
  | step {S' op out} : S.Legal op → DL.MayCall op → S.step E C.ops op = .ok (S', out) → Turn E C S U S' U
  | theory {S' U'} : S.dead = false → C.Call S U S' U' → Turn E C S U S' U'

/-- Any number of calls. -/
inductive Later (E : Env) (C : Comp T) (S : Sat T) (U : C.Dat) : Sat T → C.Dat → Prop
  | refl : Later E C S U S U
  | call {S1 U1 S2 U2} : Later E C S U S1 U1 → Turn E C S1 U1 S2 U2 → Later E C S U S2 U2

/-- Sessions: the states of a core with these theories that sequences of legal calls lead to, as long as no call fails; `U`: what the client has imposed on the theories. -/
def Play (E : Env) (C : Comp T) (S : Sat T) (U : C.Dat) : Prop := ∃ t, C.Start t ∧ Later E C (Sat.init t) C.d0 S U

variable {E : Env} {C : Comp T} {C' : Comp T'} {S S' : Sat T} {U U' : C.Dat}

theorem Turn.dead (h : Turn E C S U S' U') : S.dead = false := by
  cases h with
  | step hl _ _ => exact hl.1
  | theory h _ => exact h

theorem Later.alive (hl : Later E C S U S' U') (h : S'.dead = false) : S.dead = false := by
  induction hl with
  | refl => exact h
  | call _ hc ih => exact ih hc.dead

theorem Later.trans {S1 S2 : Sat T} {U1 U2 : C.Dat} (h1 : Later E C S U S1 U1) (h2 : Later E C S1 U1 S2 U2) : Later E C S U S2 U2 := by
  induction h2 with
  | refl => exact h1
  | call _ hc ih => exact .call ih hc

theorem Play.later (h : Play E C S U) (hl : Later E C S U S' U') : Play E C S' U' := by
  obtain ⟨t, h1, h2⟩ := h
  exact ⟨t, h1, h2.trans hl⟩

/-- Calm and faithful. -/
structure Faith (C : Comp T) (U : C.Dat) (S : Sat T) : Prop where
  calm : S.Calm (C.firm U)
  vow : S.Vow
  inv : C.Inv S

/-- Nothing is forgotten, neither by the core nor by the theories. -/
structure Onw (C : Comp T) (S S' : Sat T) : Prop extends Sat.Onw S S' where
  ext : C.Ext S.th S'.th

theorem Onw.refl (S : Sat T) : Onw C S S := ⟨.refl S, C.ext_reg rfl⟩

theorem Onw.trans {S1 S2 S3 : Sat T} (h1 : Onw C S1 S2) (h2 : Onw C S2 S3) : Onw C S1 S3 := ⟨h1.toOnw.trans h2.toOnw, C.ext_trans h1.ext h2.ext⟩

theorem step_onw {op : Sat.Op} {out} (h : Faith C U S) (hl : S.Legal op) (hm : DL.MayCall op) (hs : S.step E C.ops op = .ok (S', out)) : S'.dead = true ∨ (Faith C U S' ∧ Onw C S S') := by
  have hb : ∀ v i, op ≠ .bind v i := fun v i e => by rw [e] at hm; exact hm
  rcases Sat.step_onw h.calm h.vow hl hb hs with hd | ⟨a, b, c⟩
  · exact .inl hd
  by_cases hd : S'.dead = true
  · exact .inl hd
  have e := (C.of_at ((Sat.step_calm (C.to_at h.calm) hl hb hs).1.resolve_left hd)).2
  exact .inr ⟨⟨a, c, C.inv_onw h.inv b e⟩, b, C.ext_reg e⟩

theorem Turn.onw (h : Faith C U S) (hc : Turn E C S U S' U') : S'.dead = true ∨ (Faith C U' S' ∧ Onw C S S') := by
  cases hc with
  | step a b c => exact step_onw h a b c
  | theory a b => exact (C.call h.calm h.vow h.inv a b).imp_right (fun ⟨k1, k2, k3, k4, _, _, k7⟩ => ⟨⟨k1, k2, k3⟩, k4, k7⟩)

theorem Later.onw (h : Faith C U S) (hl : Later E C S U S' U') : S'.dead = true ∨ (Faith C U' S' ∧ Onw C S S') := by
  induction hl with
  | refl => exact .inr ⟨h, .refl _⟩
  | call _ hc ih =>
    obtain ⟨a, b⟩ := ih.resolve_left (by rw [hc.dead]; simp)
    exact (hc.onw a).imp_right (fun x => ⟨x.1, b.trans x.2⟩)

theorem Play.faith (h : Play E C S U) : S.dead = true ∨ Faith C U S := by
  obtain ⟨t, ht, hl⟩ := h
  exact (hl.onw ⟨C.start ht, Sat.init_vow, C.inv_start ht⟩).imp_right (·.1)

/-- A call that propagates returns true. -/
theorem Faith.quiet (h : Faith C U S) {op : Sat.Op} (hl : S.Legal op) (hop : LRA.Propagates op) (hs : S.step E C.ops op = .ok (S', .bool true)) :
    Faith C U S' ∧ Onw C S S' ∧ S'.propQ = [] ∧ (C.firm U).Done S'.th := by
  have hp : Sat.Propagating op := by cases op <;> exact hop
  obtain ⟨c1, c2, c3, c4, c5⟩ := Sat.quiet_onw h.calm h.vow hl hp hs
  have e := (C.of_at ((Sat.step_calm (C.to_at h.calm) hl (fun v i e => by rw [e] at hop; exact hop) hs).2 hp rfl).1).2
  exact ⟨⟨c1, c5, C.inv_onw h.inv c4 e⟩, ⟨c4, C.ext_reg e⟩, c2, c3⟩

/-! ### One theory among the others -/

/-- `C` is one of the theories of `C'`. -/
inductive Within {T : Type} (C : Comp T) : {T' : Type} → Comp T' → Type 1
  | here : Within C C
  | left {T1 T2 : Type} {C1 : Comp T1} {C2 : Comp T2} : Within C C1 → Within C (C1.prod C2)
  | right {T1 T2 : Type} {C1 : Comp T1} {C2 : Comp T2} : Within C C2 → Within C (C1.prod C2)

namespace Within

/-- What it sees of the core. -/
def view {T : Type} {C : Comp T} : {T' : Type} → {C' : Comp T'} → Within C C' → Sat T' → Sat T
  | _, _, .here, S => S
  | _, _, .left (C1 := C1) w, S => w.view (S.left C1.m)
  | _, _, .right (C1 := C1) w, S => w.view (S.right C1.m)

/-- The state after it has acted on what it sees. -/
def put {T : Type} {C : Comp T} : {T' : Type} → {C' : Comp T'} → Within C C' → Sat T' → Sat T → Sat T'
  | _, _, .here, _, s => s
  | _, _, .left (C1 := C1) w, S, s => S.putL C1.m (w.put (S.left C1.m) s)
  | _, _, .right (C1 := C1) w, S, s => S.putR C1.m (w.put (S.right C1.m) s)

/-- Its state. -/
def th {T : Type} {C : Comp T} : {T' : Type} → {C' : Comp T'} → Within C C' → T' → T
  | _, _, .here, t => t
  | _, _, .left w, t => w.th t.1
  | _, _, .right w, t => w.th t.2

/-- What was imposed on it. -/
def dat {T : Type} {C : Comp T} : {T' : Type} → {C' : Comp T'} → Within C C' → C'.Dat → C.Dat
  | _, _, .here, U => U
  | _, _, .left w, U => w.dat U.1
  | _, _, .right w, U => w.dat U.2

/-- Something else is imposed on it. -/
def setDat {T : Type} {C : Comp T} : {T' : Type} → {C' : Comp T'} → Within C C' → C'.Dat → C.Dat → C'.Dat
  | _, _, .here, _, u => u
  | _, _, .left w, U, u => (w.setDat U.1 u, U.2)
  | _, _, .right w, U, u => (U.1, w.setDat U.2 u)

theorem view_eq {T : Type} {C : Comp T} : {T' : Type} → {C' : Comp T'} → (w : Within C C') → (S : Sat T') → ∃ b, w.view S = S.retheory (w.th S.th) b
  | _, _, .here, S => ⟨S.bounds, rfl⟩
  | _, _, .left (C1 := C1) w, S => by
    obtain ⟨b, h⟩ := w.view_eq (S.left C1.m)
    exact ⟨b, h⟩
  | _, _, .right (C1 := C1) w, S => by
    obtain ⟨b, h⟩ := w.view_eq (S.right C1.m)
    exact ⟨b, h⟩

theorem put_eq {T : Type} {C : Comp T} : {T' : Type} → {C' : Comp T'} → (w : Within C C') → (S : Sat T') → (s : Sat T) → ∃ t b, w.put S s = s.retheory t b ∧ w.th t = s.th
  | _, _, .here, S, s => ⟨s.th, s.bounds, rfl, rfl⟩
  | _, _, .left (C1 := C1) w, S, s => by
    obtain ⟨t, b, h, e⟩ := w.put_eq (S.left C1.m) s
    exact ⟨(t, S.th.2), bj C1.m b (br C1.m S.bounds), by rw [put, h]; rfl, e⟩
  | _, _, .right (C1 := C1) w, S, s => by
    obtain ⟨t, b, h, e⟩ := w.put_eq (S.right C1.m) s
    exact ⟨(S.th.1, t), bj C1.m (bl C1.m S.bounds) b, by rw [put, h]; rfl, e⟩

theorem calm {T : Type} {C : Comp T} : {T' : Type} → {C' : Comp T'} → (w : Within C C') → {S : Sat T'} → {U : C'.Dat} → S.Calm (C'.firm U) → (w.view S).Calm (C.firm (w.dat U))
  | _, _, .here, _, _, h => h
  | _, _, .left (C1 := C1) w, _, _, h => w.calm (Sat.Calm.left (hm := C1.ids) h)
  | _, _, .right (C1 := C1) w, _, _, h => w.calm (Sat.Calm.right (hm := C1.ids) h)

theorem inv {T : Type} {C : Comp T} : {T' : Type} → {C' : Comp T'} → (w : Within C C') → {S : Sat T'} → C'.Inv S → C.Inv (w.view S)
  | _, _, .here, _, h => h
  | _, _, .left w, _, h => w.inv h.1
  | _, _, .right w, _, h => w.inv h.2

theorem done {T : Type} {C : Comp T} : {T' : Type} → {C' : Comp T'} → (w : Within C C') → {t : T'} → {U : C'.Dat} → (C'.firm U).Done t → (C.firm (w.dat U)).Done (w.th t)
  | _, _, .here, _, _, h => h
  | _, _, .left w, _, _, h => w.done h.1
  | _, _, .right w, _, _, h => w.done h.2

theorem ext {T : Type} {C : Comp T} : {T' : Type} → {C' : Comp T'} → (w : Within C C') → {t t' : T'} → C'.Ext t t' → C.Ext (w.th t) (w.th t')
  | _, _, .here, _, _, h => h
  | _, _, .left w, _, _, h => w.ext h.1
  | _, _, .right w, _, _, h => w.ext h.2

theorem call {T : Type} {C : Comp T} : {T' : Type} → {C' : Comp T'} → (w : Within C C') → {S : Sat T'} → {U : C'.Dat} → {s : Sat T} → {u : C.Dat} → C.Call (w.view S) (w.dat U) s u →
    C'.Call S U (w.put S s) (w.setDat U u)
  | _, _, .here, _, _, _, _, h => h
  | _, _, .left w, _, _, _, _, h => .left (w.call h)
  | _, _, .right w, _, _, _, _, h => .right (w.call h)

theorem dat_set {T : Type} {C : Comp T} : {T' : Type} → {C' : Comp T'} → (w : Within C C') → (U : C'.Dat) → (u : C.Dat) → w.dat (w.setDat U u) = u
  | _, _, .here, _, _ => rfl
  | _, _, .left w, U, u => w.dat_set U.1 u
  | _, _, .right w, U, u => w.dat_set U.2 u

end Within

variable {W : Within C C'} {Z Z' V V' : Sat T'} {X Y : C'.Dat}

theorem Within.view_th (W : Within C C') (Z : Sat T') : (W.view Z).th = W.th Z.th := by
  obtain ⟨b, h⟩ := W.view_eq Z
  rw [h]; rfl

/-- The end of a session that started with `Z`. -/
theorem Later.final (W : Within C C') (hF : Faith C' X Z) (hu : Later E C' Z X V Y) {op : Sat.Op} (hl : V.Legal op) (hop : LRA.Propagates op) (hs : V.step E C'.ops op = .ok (V', .bool true))
    (hall : ∀ v, v < V'.nvars → V'.assigns v ≠ none) :
    Z.Rt (fun v => V'.assigns v = some true) ∧ ∃ δ0 : ℚ, 0 < δ0 ∧ ∀ δ, 0 < δ → δ ≤ δ0 →
      (∃ x, C.Rep (W.view V') δ x) ∧ ∀ x, C.Rep (W.view V') δ x → C.Holds (W.th Z.th) (fun v => V'.assigns v = some true) x := by
  obtain ⟨a, b⟩ := (hu.onw hF).resolve_left (by rw [hl.1]; simp)
  obtain ⟨c1, c2, c3, c4⟩ := a.quiet hl hop hs
  have o : Onw C' Z V' := b.trans c2
  refine ⟨o.rt (c1.calm.rt c3 hall), ?_⟩
  obtain ⟨bb, e⟩ := W.view_eq V'
  have k1 := W.calm c1.calm
  have k2 := W.inv c1.inv
  have k3 := W.done c4
  obtain ⟨δ0, h0, f⟩ := C.final k1 k2 (by rw [e]; exact c3) (by rw [W.view_th]; exact k3) (by rw [e]; exact hall)
  refine ⟨δ0, h0, fun δ h1 h2 => ⟨(f δ h1 h2).1, fun x hx => ?_⟩⟩
  have := (f δ h1 h2).2 x hx
  rw [W.view_th] at this
  have e2 : (W.view V').assigns = V'.assigns := by rw [e]; rfl
  rw [e2] at this
  exact C.holds_ext (W.ext o.ext) this

/-- **What a call of a theory means.** The client calls the theory `C`, one of those attached to the core; `P` holds of the assignments that the core can end with and of the values the theory can then report. After any further
calls, if a call that propagates returns true and every variable is assigned, `P` holds of the assignment and of the values reported, whatever small value is given to the infinitesimal. -/
theorem Play.means (W : Within C C') (h : Play E C' Z X) (hd : Z.dead = false) {s : Sat T} {u : C.Dat} (hc : C.Call (W.view Z) (W.dat X) s u) {P : Asg → C.Val → Prop}
    (hP : Faith C (W.dat X) (W.view Z) → s.dead = true ∨ ∀ α x, s.Rt α → C.Holds s.th α x → P α x) (hu : Later E C' (W.put Z s) (W.setDat X u) V Y) {op : Sat.Op} (hl : V.Legal op) (hop : LRA.Propagates op)
    (hs : V.step E C'.ops op = .ok (V', .bool true)) (hall : ∀ v, v < V'.nvars → V'.assigns v ≠ none) :
    ∃ δ0 : ℚ, 0 < δ0 ∧ ∀ δ, 0 < δ → δ ≤ δ0 → (∃ x, C.Rep (W.view V') δ x) ∧ ∀ x, C.Rep (W.view V') δ x → P (fun v => V'.assigns v = some true) x := by
  have ff := h.faith.resolve_left (by rw [hd]; simp)
  obtain ⟨b, e⟩ := W.view_eq Z
  obtain ⟨t, b', e', et⟩ := W.put_eq Z s
  have alive := hu.alive hl.1
  have f0 : Faith C (W.dat X) (W.view Z) := ⟨W.calm ff.calm, by rw [e]; exact ff.vow.view, W.inv ff.inv⟩
  have sd : s.dead = false := by rw [e'] at alive; exact alive
  have m := (hP f0).resolve_left (by rw [sd]; simp)
  have f1 := ((Turn.theory (E := E) hd (W.call hc)).onw ff).resolve_left (by rw [alive]; simp)
  obtain ⟨r, δ0, h0, f⟩ := hu.final W f1.1 hl hop hs hall
  refine ⟨δ0, h0, fun δ h1 h2 => ⟨(f δ h1 h2).1, fun x hx => m _ x ?_ ?_⟩⟩
  · rw [e'] at r; exact r.ofView
  · have := (f δ h1 h2).2 x hx
    rw [e'] at this
    rw [← et]; exact this

end Comp
end Semitone
