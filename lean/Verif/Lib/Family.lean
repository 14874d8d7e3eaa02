import Verif.Lib.Sess

/-!
# The families of theories that the library can attach to one core
-/
namespace Semitone

/-- The families of theories that the library can attach to one core: any number of theories of linear arithmetic, difference logic (over any number domain `R`) and object variables, in any order (`sat_core.h:167`). -/
inductive Family (E : Env) : {T : Type} → Comp T → Type 1
  | arith (L : LEnv) : Family E (LRA.comp E L)
  | diff (R : Type) [AddCommGroup R] [LinearOrder R] [IsOrderedAddMonoid R] [Dom R] : Family E (DL.comp (W := R) E)
  | object {A : Type} [DecidableEq A] (D : OEnv A) : Family E (OV.comp E D)
  | both {T1 T2 : Type} {C1 : Comp T1} {C2 : Comp T2} : Family E C1 → Family E C2 → Family E (C1.prod C2)

namespace Family
variable {E : Env}

/-- The values `x` satisfy the networks of all the theories when the truth assignment is `α` and the client has imposed `U`. -/
def Net : {T : Type} → {C : Comp T} → Family E C → T → C.Dat → Asg → C.Val → Prop
  | _, _, .arith _, t, U, α, x => LRA.Net t U α x
  | _, _, @Family.diff _ R _ _ _ _, t, _, α, X => DL.Net t α X
  | _, _, @Family.object _ A _ D, t, _, α, y => OV.Holds t α y
  | _, _, .both f g, t, U, α, x => f.Net t.1 U.1 α x.1 ∧ g.Net t.2 U.2 α x.2

/-- What the theories owe to the core. -/
def duty : {T : Type} → {C : Comp T} → Family E C → Duty C
  | _, _, .arith L => LRA.duty E L
  | _, _, @Family.diff _ R _ _ _ _ => DL.duty E
  | _, _, @Family.object _ A _ D => OV.duty E D
  | _, _, .both f g => f.duty.prod g.duty

theorem duty_net : {T : Type} → {C : Comp T} → (f : Family E C) → f.duty.Net = f.Net
  | _, _, .arith _ => rfl
  | _, _, @Family.diff _ R _ _ _ _ => rfl
  | _, _, @Family.object _ A _ D => rfl
  | _, _, .both (T1 := T1) (T2 := T2) (C1 := C1) (C2 := C2) f g => by
    show (fun (t : T1 × T2) (U : C1.Dat × C2.Dat) (α : Asg) (x : C1.Val × C2.Val) => f.duty.Net t.1 U.1 α x.1 ∧ g.duty.Net t.2 U.2 α x.2) = _
    rw [f.duty_net, g.duty_net]
    rfl

/-- The theories, with the propagations of difference logic in unsafe situations (`DL.safe`) turned into the failure `excluded`. -/
def safe {T : Type} {C : Comp T} (f : Family E C) : TheoryOps T := f.duty.sops

/-- No theory of difference logic. -/
def Plain : {T : Type} → {C : Comp T} → Family E C → Prop
  | _, _, .arith _ => True
  | _, _, @Family.diff _ R _ _ _ _ => False
  | _, _, @Family.object _ A _ D => True
  | _, _, .both f g => f.Plain ∧ g.Plain

theorem Plain.safe : {T : Type} → {C : Comp T} → {f : Family E C} → f.Plain → f.safe = C.ops
  | _, _, .arith _, _ => rfl
  | _, _, @Family.diff _ R _ _ _ _, h => h.elim
  | _, _, @Family.object _ A _ D, _ => rfl
  | _, _, .both (C1 := C1) f g, h => by
    show (Family.safe f).prod C1.m (Family.safe g) = _
    rw [Plain.safe h.1, Plain.safe h.2]
    rfl

theorem Plain.clean : {T : Type} → {C : Comp T} → {f : Family E C} → f.Plain → ∀ g h e, ¬ (f.duty.live g h).F e
  | _, _, .arith _, _, _, _, _ => fun k => k
  | _, _, @Family.diff _ R _ _ _ _, h, _, _, _ => h.elim
  | _, _, @Family.object _ A _ D, _, _, _, _ => fun k => k
  | _, _, .both f g, h, i, j, e => fun k => by
    rcases k with k | k
    · exact Plain.clean h.1 _ _ _ k
    · exact Plain.clean h.2 _ _ _ k

/-- A solution of the whole network: a truth assignment that satisfies the posted clauses, and values that satisfy the network of each theory. -/
structure Model {T : Type} {C : Comp T} (f : Family E C) (S : Sat T) (U : C.Dat) (α : Asg) (x : C.Val) : Prop where
  zero : α 0 = false
  posted : ∀ D ∈ S.posted, α.clause D
  net : f.Net S.th U α x

theorem model_iff {T : Type} {C : Comp T} {f : Family E C} {S : Sat T} {U : C.Dat} {α : Asg} {x : C.Val} : f.duty.Model S U α x ↔ f.Model S U α x :=
  ⟨fun h => ⟨h.zero, h.posted, by rw [← duty_net]; exact h.net⟩, fun h => ⟨h.zero, h.posted, by rw [duty_net]; exact h.net⟩⟩

/-- `f` is one of the theories of the family (or a part of it). -/
inductive Has {T : Type} {C : Comp T} (f : Family E C) : {T' : Type} → {C' : Comp T'} → Family E C' → Type 1
  | here : Has f f
  | left {T1 T2 : Type} {C1 : Comp T1} {C2 : Comp T2} {f1 : Family E C1} {f2 : Family E C2} : Has f f1 → Has f (.both f1 f2)
  | right {T1 T2 : Type} {C1 : Comp T1} {C2 : Comp T2} {f1 : Family E C1} {f2 : Family E C2} : Has f f2 → Has f (.both f1 f2)

namespace Has
variable {T : Type} {C : Comp T} {f : Family E C}

/-- Its place. -/
def within : {T' : Type} → {C' : Comp T'} → {g : Family E C'} → Has f g → C.Within C'
  | _, _, _, .here => .here
  | _, _, _, .left w => .left w.within
  | _, _, _, .right w => .right w.within

/-- Its values. -/
def val : {T' : Type} → {C' : Comp T'} → {g : Family E C'} → Has f g → C'.Val → C.Val
  | _, _, _, .here, x => x
  | _, _, _, .left w, x => w.val x.1
  | _, _, _, .right w, x => w.val x.2

/-- Other values for it. -/
def setVal : {T' : Type} → {C' : Comp T'} → {g : Family E C'} → Has f g → C'.Val → C.Val → C'.Val
  | _, _, _, .here, _, y => y
  | _, _, _, .left w, x, y => (w.setVal x.1 y, x.2)
  | _, _, _, .right w, x, y => (x.1, w.setVal x.2 y)

/-- What one of the theories knows: it is right about the truth assignments `Z'` that the others allow. -/
structure Seen {T' : Type} {C' : Comp T'} {g : Family E C'} (w : Has f g) (Z Z' : Asg → Prop) (S : Sat T') (U : C'.Dat) : Prop where
  si : f.duty.SI Z' (w.within.view S) (w.within.dat U)
  old : ∀ α x, Z α → g.duty.Net S.th U α x → Z' α ∧ f.duty.Net (w.within.th S.th) (w.within.dat U) α (w.val x)
  get : ∀ s u α x, Z α → g.duty.Net (w.within.put S s).th (w.within.setDat U u) α x → Z' α ∧ f.duty.Net s.th u α (w.val x)
  put : ∀ s u α β x y, Asg.agree S.nvars α β → g.duty.Net S.th U α x → f.duty.Net s.th u β y → g.duty.Net (w.within.put S s).th (w.within.setDat U u) β (w.setVal x y)
  same : ∀ s u x y, g.duty.Net (w.within.put S s).th (w.within.setDat U u) x y → f.duty.Net (w.within.th S.th) (w.within.dat U) x (w.val y) → g.duty.Net S.th U x y
  live : ∀ d, g.duty.Alive S d → f.duty.Alive (w.within.view S) d

theorem seen : {T' : Type} → {C' : Comp T'} → {g : Family E C'} → (w : Has f g) → (Z : Asg → Prop) → (S : Sat T') → (U : C'.Dat) → g.duty.SI Z S U → ∃ Z', w.Seen Z Z' S U
  | _, _, _, .here, Z, S, U, h => ⟨Z, h, fun _ _ hz hn => ⟨hz, hn⟩, fun _ _ _ _ hz hn => ⟨hz, hn⟩, fun _ _ _ _ _ _ _ _ hn => hn, fun _ _ _ _ _ hn => hn, fun _ h => h⟩
  | _, _, _, .left (C1 := C1) (f1 := f1) (f2 := f2) w, Z, S, U, h => by
    have h : Duty.SIP f1.duty f2.duty Z S U := h
    obtain ⟨Z', k⟩ := w.seen _ _ _ h.l
    refine ⟨Z', k.si, fun α x hz hn => k.old α x.1 ⟨hz, x.2, hn.2⟩ hn.1, fun s u α x hz hn => ?_, fun s u α β x y hab hn hy => ⟨k.put s u α β x.1 y hab hn.1 hy, f2.duty.loc h.r α β x.2 hab hn.2⟩, fun s u α x hn hy => ⟨k.same s u α x.1 hn.1 hy, hn.2⟩, fun d hd => ?_⟩
    · exact k.get s u α x.1 ⟨hz, x.2, hn.2⟩ hn.1
    · obtain ⟨ok, hL⟩ := hd
      exact k.live d ⟨ok.ok1, Sat.LiveD.left (hi := Duty.ids_lt f1.duty) (hj := ok.joins) hL⟩
  | _, _, _, .right (C1 := C1) (f1 := f1) (f2 := f2) w, Z, S, U, h => by
    have h : Duty.SIP f1.duty f2.duty Z S U := h
    obtain ⟨Z', k⟩ := w.seen _ _ _ h.r
    refine ⟨Z', k.si, fun α x hz hn => k.old α x.2 ⟨hz, x.1, hn.1⟩ hn.2, fun s u α x hz hn => ?_, fun s u α β x y hab hn hy => ⟨f1.duty.loc h.l α β x.1 hab hn.1, k.put s u α β x.2 y hab hn.2 hy⟩, fun s u α x hn hy => ⟨hn.1, k.same s u α x.2 hn.2 hy⟩, fun d hd => ?_⟩
    · exact k.get s u α x.2 ⟨hz, x.1, hn.1⟩ hn.2
    · obtain ⟨ok, hL⟩ := hd
      exact k.live d ⟨ok.ok2, Sat.LiveD.right (hi := Duty.ids_lt f1.duty) (hj := ok.joins) hL⟩

end Has

/-! ### Sessions -/

/-- The sessions of a core with any number of theories, as long as no theory of difference logic is told a literal in an unsafe situation (`DL.safe`). `U`: what the client has imposed on the theories; `d`: something was imposed since
the last `propagate()` or `simplify_db()` (decisions wait for it). -/
abbrev Sess {T : Type} {C : Comp T} (f : Family E C) (S : Sat T) (U : C.Dat) (d : Bool) : Prop := Comp.Sess E C f.safe S U d

end Family

/-- The sessions of a core with the theories `C`: a new core with new theories; legal calls of the core; calls of the theories. `U`: what the client has imposed on the theories; `d`: something was imposed since the last `propagate()`
or `simplify_db()` (decisions wait for it). -/
inductive Comp.Session {T : Type} (E : Env) (C : Comp T) : Sat T → C.Dat → Bool → Prop
  | init {t} : C.Start t → Session E C (Sat.init t) C.d0 false
  | step {S U d op S' out} : Session E C S U d → S.Legal op → LRA.MayCall op d → S.step E C.ops op = .ok (S', out) → Session E C S' U (LRA.pendingAfter op d)
  | theory {S U d S' U' d'} : Session E C S U d → S.dead = false → C.Call S U S' U' → (d' = true ∨ U' = U ∧ d' = d) → Session E C S' U' d'

theorem Comp.Session.sess {T : Type} {E : Env} {C : Comp T} {f : Family E C} (hf : f.Plain) {S : Sat T} {U : C.Dat} {d : Bool} (h : Comp.Session E C S U d) : f.Sess S U d := by
  induction h with
  | init h => exact .init h
  | step _ hl hm hs ih => exact .step ih hl hm (by rw [hf.safe, hs]; simp) hs
  | theory _ hd hc hd' ih => exact .theory ih hd hc hd'

end Semitone
