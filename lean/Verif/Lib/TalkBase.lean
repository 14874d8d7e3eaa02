import Verif.Lib.Talk

/-!
# What the client has asked for: bookkeeping
-/
namespace Semitone
namespace Family
open Lin
variable {E : Env} {T : Type} {C : Comp T} {f : Family E C} {S S' : Sat T} {U U' : C.Dat} {tr : List (Said f)} {e : Said f} {α β : Asg} {x y : C.Val}

/-- The values agree on the variables of the theories. -/
def Agr : {T : Type} → {C : Comp T} → Family E C → T → C.Val → C.Val → Prop
  | _, _, .arith _, t, x, y => ∀ v, v < t.n → (y : Nat → ℚ) v = (x : Nat → ℚ) v
  | _, _, @Family.diff _ R _ _ _ _, _, x, y => ∀ v, (y : Nat → R) v = (x : Nat → R) v
  | _, _, @Family.object _ A _ D, t, x, y => ∀ v, v < t.doms.length → (y : Nat → List A) v = (x : Nat → List A) v
  | _, _, .both f g, t, x, y => f.Agr t.1 x.1 y.1 ∧ g.Agr t.2 x.2 y.2

theorem Agr.refl : {T : Type} → {C : Comp T} → (f : Family E C) → (t : T) → (x : C.Val) → f.Agr t x x
  | _, _, .arith _, _, _ => fun _ _ => rfl
  | _, _, @Family.diff _ R _ _ _ _, _, _ => fun _ => rfl
  | _, _, @Family.object _ A _ D, _, _ => fun _ _ => rfl
  | _, _, .both f g, t, x => ⟨Agr.refl f t.1 x.1, Agr.refl g t.2 x.2⟩

theorem Has.agr_of {B : Type} {K : Comp B} {k : Family E K} : {T : Type} → {C : Comp T} → {f : Family E C} → (W : k.Has f) → {t : T} → {x y : C.Val} → f.Agr t x y → k.Agr (W.within.th t) (W.val x) (W.val y)
  | _, _, _, .here, _, _, _, h => h
  | _, _, _, .left w, _, _, _, h => w.agr_of h.1
  | _, _, _, .right w, _, _, _, h => w.agr_of h.2

theorem Has.agr_set {B : Type} {K : Comp B} {k : Family E K} : {T : Type} → {C : Comp T} → {f : Family E C} → (W : k.Has f) → {t : T} → {x : C.Val} → {z : K.Val} → k.Agr (W.within.th t) (W.val x) z → f.Agr t x (W.setVal x z)
  | _, _, _, .here, _, _, _, h => h
  | _, _, _, .left w, _, _, _, h => ⟨w.agr_set h, Agr.refl _ _ _⟩
  | _, _, _, .right w, _, _, _, h => ⟨Agr.refl _ _ _, w.agr_set h⟩

/-- What the client knows exists. -/
structure Ranges (tr : List (Said f)) (S : Sat T) : Prop where
  lit : ∀ v, Known tr v → v < S.nvars
  num : ∀ {L : LEnv} (W : (Family.arith L).Has f) v, KnownNum tr W v → v < (W.within.th S.th).n
  obj : ∀ {A : Type} [DecidableEq A] {D : OEnv A} (W : (Family.object (E := E) D).Has f) v, KnownObj tr W v → v < (W.within.th S.th).doms.length

/-- Agreement on the variables that the client knows. -/
structure AgreesOn (tr : List (Said f)) (α : Asg) (x : C.Val) (β : Asg) (y : C.Val) : Prop where
  lit : ∀ v, Known tr v → β v = α v
  num : ∀ {L : LEnv} (W : (Family.arith L).Has f) v, KnownNum tr W v → (W.val y : Nat → ℚ) v = (W.val x : Nat → ℚ) v
  obj : ∀ {A : Type} [DecidableEq A] {D : OEnv A} (W : (Family.object (E := E) D).Has f) v, KnownObj tr W v → (W.val y : Nat → List A) v = (W.val x : Nat → List A) v

/-- Agreement on what the client knows (and on all the time points). -/
structure Agrees (tr : List (Said f)) (α : Asg) (x : C.Val) (β : Asg) (y : C.Val) : Prop extends AgreesOn tr α x β y where
  pts : ∀ {R : Type} [AddCommGroup R] [LinearOrder R] [IsOrderedAddMonoid R] [Dom R] (W : (Family.diff (E := E) R).Has f) v, (W.val y : Nat → R) v = (W.val x : Nat → R) v

theorem Known.cons {v : Nat} (h : Known (e :: tr) v) : Known [e] v ∨ Known tr v := by
  rcases h with h | ⟨a, ha, h⟩
  · exact .inl (.inl h)
  · rcases List.mem_cons.mp ha with rfl | ha
    · exact .inl (.inr ⟨a, List.mem_singleton_self _, h⟩)
    · exact .inr (.inr ⟨a, ha, h⟩)

theorem KnownNum.cons {L : LEnv} {W : (Family.arith L).Has f} {v : Nat} (h : KnownNum (e :: tr) W v) : KnownNum [e] W v ∨ KnownNum tr W v := by
  rcases h with h | ⟨l, h⟩
  · rcases List.mem_cons.mp h with rfl | h
    · exact .inl (.inl (List.mem_singleton_self _))
    · exact .inr (.inl h)
  · rcases List.mem_cons.mp h with rfl | h
    · exact .inl (.inr ⟨l, List.mem_singleton_self _⟩)
    · exact .inr (.inr ⟨l, h⟩)

theorem KnownObj.cons {A : Type} [DecidableEq A] {D : OEnv A} {W : (Family.object (E := E) D).Has f} {v : Nat} (h : KnownObj (e :: tr) W v) : KnownObj [e] W v ∨ KnownObj tr W v := by
  obtain ⟨l, h⟩ := h
  rcases List.mem_cons.mp h with rfl | h
  · exact .inl ⟨l, List.mem_singleton_self _⟩
  · exact .inr ⟨l, h⟩

theorem Ranges.cons (h1 : Ranges [e] S) (h2 : Ranges tr S) : Ranges (e :: tr) S :=
  ⟨fun v h => h.cons.elim (h1.lit v) (h2.lit v), fun W v h => h.cons.elim (h1.num W v) (h2.num W v), fun W v h => h.cons.elim (h1.obj W v) (h2.obj W v)⟩

theorem AgreesOn.cons (h1 : AgreesOn [e] α x β y) (h2 : Agrees tr α x β y) : Agrees (e :: tr) α x β y :=
  ⟨⟨fun v h => h.cons.elim (h1.lit v) (h2.lit v), fun W v h => h.cons.elim (h1.num W v) (h2.num W v), fun W v h => h.cons.elim (h1.obj W v) (h2.obj W v)⟩, h2.pts⟩

/-- No variable is lost. -/
structure Wider (f : Family E C) (S S' : Sat T) : Prop where
  nv : S.nvars ≤ S'.nvars
  num : ∀ {L : LEnv} (W : (Family.arith L).Has f), (W.within.th S.th).n ≤ (W.within.th S'.th).n
  obj : ∀ {A : Type} [DecidableEq A] {D : OEnv A} (W : (Family.object (E := E) D).Has f), (W.within.th S.th).doms.length ≤ (W.within.th S'.th).doms.length

theorem wider_onw (ho : Comp.Onw C S S') : f.Wider S S' :=
  ⟨ho.nv, fun W => (show LRA.Kin _ _ from W.within.ext ho.ext).n, fun W => (show OV.Kin _ _ from W.within.ext ho.ext).doms.length_le⟩

theorem Has.sg {B : Type} {K : Comp B} {k : Family E K} : {T : Type} → {C : Comp T} → {f : Family E C} → (W : k.Has f) → {t t' : T} → f.duty.sg t' = f.duty.sg t → k.duty.sg (W.within.th t') = k.duty.sg (W.within.th t)
  | _, _, _, .here, _, _, h => h
  | _, _, _, .left w, _, _, h => w.sg (congrArg Prod.fst h)
  | _, _, _, .right w, _, _, h => w.sg (congrArg Prod.snd h)

theorem wider_sg (hn : S.nvars ≤ S'.nvars) (h : f.duty.sg S'.th = f.duty.sg S.th) : f.Wider S S' :=
  ⟨hn, fun W => Nat.le_of_eq (congrArg LRA.Sig.n (show LRA.sig _ = LRA.sig _ from W.sg h)).symm, fun W => Nat.le_of_eq (congrArg (fun o => o.doms.length) (show id _ = id _ from W.sg h)).symm⟩

theorem Ranges.wider (h : Ranges tr S) (ho : f.Wider S S') : Ranges tr S' :=
  ⟨fun v k => (h.lit v k).trans_le ho.nv, fun W v k => (h.num W v k).trans_le (ho.num W), fun W v k => (h.obj W v k).trans_le (ho.obj W)⟩

theorem Agrees.agr {γ : Asg} {z : C.Val} (h : Agrees tr α x β y) (hr : Ranges tr S) (h1 : Asg.agree S.nvars β γ) (h2 : f.Agr S.th y z) : Agrees tr α x γ z :=
  ⟨⟨fun v k => (h1 v (hr.lit v k)).symm.trans (h.lit v k), fun W v k => ((show (Family.arith _).Agr _ _ _ from W.agr_of h2) v (hr.num W v k)).trans (h.num W v k),
    fun W v k => ((show (Family.object (E := E) _).Agr _ _ _ from W.agr_of h2) v (hr.obj W v k)).trans (h.obj W v k)⟩,
    fun W v => ((show (Family.diff _).Agr _ _ _ from W.agr_of h2) v).trans (h.pts W v)⟩

/-- A request that returns no variable of a theory. -/
structure Said.Bare (e : Said f) : Prop where
  num : ∀ {L : LEnv} (W : (Family.arith L).Has f) y, .num W y ≠ e
  defn : ∀ {L : LEnv} (W : (Family.arith L).Has f) l y, .defn W l y ≠ e
  obj : ∀ {A : Type} [DecidableEq A] {D : OEnv A} (W : (Family.object (E := E) D).Has f) items y, .obj W items y ≠ e

theorem Said.Bare.ranges (h : e.Bare) (h0 : 0 < S.nvars) (hl : ∀ v, e.lit? = some v → v < S.nvars) : Ranges [e] S := by
  refine ⟨fun v k => ?_, fun W v k => ?_, fun W v k => ?_⟩
  · rcases k with rfl | ⟨a, ha, k⟩
    · exact h0
    · rw [List.mem_singleton.mp ha] at k; exact hl v k
  · rcases k with k | ⟨l, k⟩
    · exact absurd (List.mem_singleton.mp k) (h.num W v)
    · exact absurd (List.mem_singleton.mp k) (h.defn W l v)
  · obtain ⟨l, k⟩ := k
    exact absurd (List.mem_singleton.mp k) (h.obj W l v)

theorem Said.Bare.agrees (h : e.Bare) (h0 : β 0 = α 0) (hl : ∀ v, e.lit? = some v → β v = α v) : AgreesOn [e] α x β y := by
  refine ⟨fun v k => ?_, fun W v k => ?_, fun W v k => ?_⟩
  · rcases k with rfl | ⟨a, ha, k⟩
    · exact h0
    · rw [List.mem_singleton.mp ha] at k; exact hl v k
  · rcases k with k | ⟨l, k⟩
    · exact absurd (List.mem_singleton.mp k) (h.num W v)
    · exact absurd (List.mem_singleton.mp k) (h.defn W l v)
  · obtain ⟨l, k⟩ := k
    exact absurd (List.mem_singleton.mp k) (h.obj W l v)

/-- The network of the solver and the requests have the same solutions, as far as the client can see. -/
structure Told (f : Family E C) (tr : List (Said f)) (S : Sat T) (U : C.Dat) : Prop where
  rng : S.dead = true ∨ Ranges tr S
  back : ∀ α x, f.Model S U α x → Meets tr α x
  forth : ∀ α x, Meets tr α x → ∃ β y, f.Model S U β y ∧ Agrees tr α x β y

theorem Told.add (h : Told f tr S U) (hd : S.dead = false) (ho : S'.dead = true ∨ f.Wider S S') (hr : S'.dead = true ∨ Ranges [e] S') (hb : ∀ α x, f.Model S' U' α x → f.Model S U α x ∧ e.holds α x)
    (hf : ∀ α x β y, α 0 = false → e.holds α x → f.Model S U β y → Agrees tr α x β y → Ranges tr S → ∃ β' y', f.Model S' U' β' y' ∧ Asg.agree S.nvars β β' ∧ f.Agr S.th y y' ∧ AgreesOn [e] α x β' y') :
    Told f (e :: tr) S' U' := by
  have h0 := h.rng.resolve_left (by rw [hd]; simp)
  refine ⟨?_, fun α x hm => ?_, fun α x hm => ?_⟩
  · rcases ho with k | k
    · exact .inl k
    · exact hr.imp_right (fun k1 => k1.cons (h0.wider k))
  · obtain ⟨a, b⟩ := hb α x hm
    obtain ⟨c, c'⟩ := h.back α x a
    exact ⟨c, fun e' he => (List.mem_cons.mp he).elim (fun k => k ▸ b) (c' e')⟩
  · obtain ⟨β, y, a, b⟩ := h.forth α x ⟨hm.1, fun e he => hm.2 e (List.mem_cons_of_mem _ he)⟩
    obtain ⟨β', y', c1, c2, c3, c4⟩ := hf α x β y hm.1 (hm.2 e List.mem_cons_self) a b h0
    exact ⟨β', y', c1, c4.cons (b.agr h0 c2 c3)⟩

/-- Search. -/
theorem Told.same (h : Told f tr S U) (hd : S.dead = false) (ho : S'.dead = true ∨ f.Wider S S') (hm : ∀ α x, f.Model S' U α x ↔ f.Model S U α x) : Told f tr S' U := by
  have h0 := h.rng.resolve_left (by rw [hd]; simp)
  refine ⟨ho.imp_right (fun k => h0.wider k), fun α x k => h.back α x ((hm α x).mp k), fun α x k => ?_⟩
  obtain ⟨β, y, a, b⟩ := h.forth α x k
  exact ⟨β, y, (hm β y).mpr a, b⟩

end Family
end Semitone
