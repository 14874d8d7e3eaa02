import Verif.DL.Demo
import Verif.Sat.StackT

/-!
# Difference logic in a stack of cores (C80)
-/
namespace Semitone
namespace DL
open Lin
variable {W : Type} [AddCommGroup W] [LinearOrder W] [IsOrderedAddMonoid W] {t t' : DL W}

/-- What the theory has been asked for so far: the time points, the size of the matrix and the constraints. -/
structure Asked (W : Type) where
  nv : Nat
  cap : Nat
  vd : Nat → Option (Dist W)
  dcs : Nat → Nat → List (Dist W)

def reg (t : DL W) : Asked W := ⟨t.nv, t.cap, t.vd, t.dcs⟩

/-- The matrix of distances at every level, newest first. -/
def matsOf : (Nat → Nat → WithTop W) → List (Layer W) → List (Nat → Nat → WithTop W)
  | d, [] => [d]
  | d, L :: Ls => d :: matsOf (fun i j => (L.oldD i j).getD (d i j)) Ls

def mats (t : DL W) : List (Nat → Nat → WithTop W) := matsOf t.d t.layers

theorem mats_ne (t : DL W) : t.mats = t.d :: t.mats.tail := by
  unfold mats
  cases t.layers <;> rfl

/-- The newest level only has changed. -/
structure Newest (t t' : DL W) : Prop where
  tail : t'.mats.tail = t.mats.tail
  reg : t'.reg = t.reg

theorem Newest.refl (t : DL W) : Newest t t := ⟨rfl, rfl⟩
theorem Newest.trans {t u v : DL W} (h : Newest t u) (h' : Newest u v) : Newest t v := ⟨h'.tail.trans h.tail, h'.reg.trans h.reg⟩

theorem setDist_newest (t : DL W) (i j : Nat) (w : WithTop W) : Newest t (t.setDist i j w) := by
  refine ⟨?_, rfl⟩
  unfold mats setDist
  cases ht : t.layers with
  | nil => rfl
  | cons L Ls =>
    simp only [matsOf, List.tail_cons]
    congr 1
    funext x y
    by_cases hn : (L.oldD i j).isNone = true
    · rw [if_pos hn]
      simp only [upd2]
      by_cases e : x = i ∧ y = j
      · obtain ⟨rfl, rfl⟩ := e
        rw [Option.isNone_iff_eq_none] at hn
        simp [hn]
      · simp [e]
    · rw [if_neg hn]
      by_cases e : x = i ∧ y = j
      · obtain ⟨rfl, rfl⟩ := e
        cases h : L.oldD x y with
        | none => simp [h] at hn
        | some a => rfl
      · simp [upd2, e]

theorem setPred_newest (t : DL W) (i j : Nat) (p : Option Nat) : Newest t (t.setPred i j p) := by
  refine ⟨?_, rfl⟩
  unfold mats setPred
  cases ht : t.layers with
  | nil => rfl
  | cons L Ls =>
    simp only [matsOf, List.tail_cons]
    congr 1
    funext x y
    split <;> rfl

theorem setCur_newest (t : DL W) (i j : Nat) (dd : Dist W) : Newest t (t.setCur i j dd) := by
  refine ⟨?_, rfl⟩
  unfold mats setCur
  cases ht : t.layers with
  | nil => rfl
  | cons L Ls =>
    simp only [matsOf, List.tail_cons]
    congr 1
    funext x y
    split <;> rfl

theorem set2_newest (t : DL W) (i j : Nat) (w : WithTop W) (p : Option Nat) : Newest t ((t.setDist i j w).setPred i j p) := (setDist_newest t i j w).trans (setPred_newest _ i j p)

theorem foldl_newest {α : Type} {f : Loop W → α → Loop W} (hf : ∀ l a, Newest l.t (f l a).t) : ∀ (as : List α) (l : Loop W), Newest l.t (as.foldl f l).t
  | [], l => .refl _
  | a :: as, l => (hf l a).trans (foldl_newest hf as (f l a))

theorem loop1a_newest (src tgt : Nat) (w : W) (l : Loop W) (u : Nat) : Newest l.t (loop1a src tgt w l u).t := by
  unfold loop1a
  split
  · exact set2_newest _ _ _ _ _
  · exact .refl _

theorem loop1b_newest (src tgt : Nat) (w : W) (l : Loop W) (u : Nat) : Newest l.t (loop1b src tgt w l u).t := by
  unfold loop1b
  split
  · exact set2_newest _ _ _ _ _
  · exact .refl _

theorem loop2_newest (tgt : Nat) (l : Loop W) (p : Nat × Nat) : Newest l.t (loop2 tgt l p).t := by
  unfold loop2
  split
  · exact set2_newest _ _ _ _ _
  · exact .refl _

theorem relaxEdge_newest (t : DL W) (src tgt : Nat) (w : W) : Newest t (t.relaxEdge src tgt w).1 := by
  unfold relaxEdge
  simp only
  refine (set2_newest t src tgt (w : WithTop W) (some src)).trans ?_
  refine Newest.trans ?_ (foldl_newest (loop2_newest tgt) _ _)
  exact foldl_newest (fun l u => (loop1a_newest src tgt w l u).trans (loop1b_newest src tgt w _ u)) _ ⟨_, [], [], [(src, tgt), (tgt, src)]⟩

section
variable [Dom W]

theorem assertD_newest {dd : Dist W} {sign : Bool} {u : DL W} {cu : List (Nat × Nat)} (h : t.assertD dd sign = .update u cu) : Newest t u := by
  unfold assertD at h
  split at h
  · split at h
    · cases h
    split at h
    · simp only [Outcome.update.injEq] at h
      rw [← h.1]
      exact (setCur_newest _ _ _ _).trans (relaxEdge_newest _ _ _ _)
    · cases h
  · split at h
    · cases h
    split at h
    · simp only [Outcome.update.injEq] at h
      rw [← h.1]
      exact (setCur_newest _ _ _ _).trans (relaxEdge_newest _ _ _ _)
    · cases h

theorem emit_last : ∀ (ds : List (Dist W)) (val : Lit → Option Bool) {t t' : DL W} {r}, (emit t ds val).Final t' r → t' = t
  | [], val, t, t', r, h => by cases h; rfl
  | dd :: ds, val, t, t', r, h => by
    unfold emit at h
    split at h
    · split at h
      · split at h
        · cases h
        · cases h with
          | record h => exact emit_last ds _ h
      · split at h
        · split at h
          · cases h
          · cases h with
            | record h => exact emit_last ds _ h
        · exact emit_last ds _ h
    · exact emit_last ds _ h

theorem propagate_newest {val : Lit → Option Bool} {p : Lit} {r} (h : (t.propagate val p).Final t' r) : Newest t t' := by
  unfold propagate at h
  split at h
  · cases h
  split at h
  · cases h; exact .refl _
  split at h
  · split at h
    · split at h
      · cases h
      · cases h; exact .refl _
    · cases h; exact .refl _
    · next u cu hu =>
      split at h
      · cases h
      · rw [emit_last _ _ h]; exact assertD_newest hu
  · cases h
end

/-! ### The distances of the first `k` time points, level by level -/

/-- The distances between the time points below `k`. -/
def cut (k : Nat) (d : Nat → Nat → WithTop W) : Nat → Nat → WithTop W := fun i j => if i < k ∧ j < k then d i j else ⊤

theorem matsOf_cut {k : Nat} : ∀ (Ls : List (Layer W)) {d e : Nat → Nat → WithTop W}, cut k d = cut k e → (matsOf d Ls).map (cut k) = (matsOf e Ls).map (cut k)
  | [], d, e, h => by simp [matsOf, h]
  | L :: Ls, d, e, h => by
    simp only [matsOf, List.map_cons, h]
    congr 1
    refine matsOf_cut Ls ?_
    funext i j
    have := congrFun (congrFun h i) j
    simp only [cut] at this ⊢
    split
    · next hk => rw [if_pos hk, if_pos hk] at this; rw [this]
    · rfl

/-- The distances between the time points below `k` at every level. -/
def views (k : Nat) (t : DL W) : List (Nat → Nat → WithTop W) := t.mats.map (cut k)

theorem views_ne (k : Nat) (t : DL W) : t.views k = cut k t.d :: (t.views k).tail := by
  unfold views
  rw [mats_ne]; rfl

theorem views_tail {k : Nat} (h : t'.mats.tail = t.mats.tail) : ∃ v w l, t.views k = v :: l ∧ t'.views k = w :: l := by
  refine ⟨cut k t.d, cut k t'.d, (t.views k).tail, views_ne k t, ?_⟩
  rw [views_ne k t']
  congr 1
  unfold views
  rw [← List.map_tail, ← List.map_tail, h]

theorem views_same {k : Nat} (h : t'.views k = t.views k) : ∃ v w l, t.views k = v :: l ∧ t'.views k = w :: l :=
  ⟨_, _, (t.views k).tail, views_ne k t, h.trans (views_ne k t)⟩

theorem views_d {k : Nat} (h : t'.views k = t.views k) {i j : Nat} (hi : i < k) (hj : j < k) : t'.d i j = t.d i j := by
  rw [views_ne, views_ne k t] at h
  injection h with h _
  have := congrFun (congrFun h i) j
  simpa only [cut, hi, hj, and_self, if_true] using this

section
variable [Dom W]

/-- The levels of the theory are undone one by one. -/
theorem layered (k : Nat) {P : DL W → Prop} (hP : ∀ t t', t'.reg = t.reg → P t → P t') : Sat.Layered (ops (W := W)) P (views k) where
  prop := fun hp h => ⟨hP _ _ (propagate_newest h).reg hp, views_tail (propagate_newest h).tail⟩
  check := @fun i t val u r hp h => by
    simp only [ops] at h
    split at h
    · injection h with h; injection h with e1 e2; subst e1; exact ⟨hp, rfl⟩
    · cases h
  push := fun hp => ⟨hP _ _ (by rfl) hp, _, rfl⟩
  pop := @fun t u hp h => by
    obtain ⟨L, Ls, hl, e⟩ := pop_cases h
    subst e
    refine ⟨hP _ _ (by rfl) hp, cut k t.d, ?_⟩
    unfold views mats
    rw [hl]
    rfl

/-! ### The interface of the theory -/

/-- The calls of the theory's own interface on the theory attached to the top core (`idl_theory.h`, `rdl_theory.h`): time points, distances, relations, listeners. -/
inductive Api (E : Env) : Sat (DL W) → Sat (DL W) → Prop
  | newVar {s} : Api E s { s with th := s.th.newVar.1 }
  | dist {s i j w s' p} : newDistance s i j w = .ok (s', p) → Api E s s'
  | dist2 {s i j mn mx s' p} : newDistance2 E s i j mn mx = .ok (s', p) → Api E s s'
  | rel {s R l r s' p} : newRel E R s l r = .ok (s', p) → Api E s s'
  | listen {s v l t} : s.th.listen v l = .ok t → Api E s { s with th := t }

/-- There is room for the first `k` time points. -/
def Room (k : Nat) (t : DL W) : Prop := k ≤ t.nv ∧ k ≤ t.cap

theorem newVar_room {k : Nat} (h : Room k t) : Room k t.newVar.1 ∧ t.newVar.1.views k = t.views k := by
  obtain ⟨h1, h2⟩ := h
  unfold newVar
  simp only
  split
  · refine ⟨⟨Nat.le_succ_of_le h1, ?_⟩, ?_⟩
    · show k ≤ t.cap * 3 / 2 + 1
      omega
    · refine matsOf_cut t.layers ?_
      funext i j
      simp only [cut, resize]
      split
      · rw [if_pos (by omega)]
      · rfl
  · exact ⟨⟨Nat.le_succ_of_le h1, h2⟩, rfl⟩

/-- The call has changed the newest level only. -/
def Sh (k : Nat) (s s' : Sat (DL W)) : Prop := Room k s'.th ∧ s'.dl = s.dl ∧ s'.th.views k = s.th.views k

theorem newDistance_sh {k : Nat} {s s' : Sat (DL W)} {i j : Nat} {w : W} {p : Lit} (hk : Room k s.th) (h : newDistance s i j w = .ok (s', p)) : Sh k s s' := by
  unfold newDistance at h
  split at h
  · split at h
    · injection h with h; injection h with e1 e2; subst e1; exact ⟨hk, rfl, rfl⟩
    split at h
    · injection h with h; injection h with e1 e2; subst e1; exact ⟨hk, rfl, rfl⟩
    · injection h with h; injection h with e1 e2; subst e1; exact ⟨hk, rfl, rfl⟩
  · cases h

theorem Sh.trans {k : Nat} {s1 s2 s3 : Sat (DL W)} (h : Sh k s1 s2) (h' : Sh k s2 s3) : Sh k s1 s3 := ⟨h'.1, h'.2.1.trans h.2.1, h'.2.2.trans h.2.2⟩

theorem newConj_sh {k : Nat} {E : Env} {s s' : Sat (DL W)} {ls : List Lit} {p : Lit} (hk : Room k s.th) (h : s.newConj E ls = .ok (s', p)) : Sh k s s' := by
  have f := Sat.newConj_flat h
  exact ⟨by rw [f.th]; exact hk, by unfold Sat.dl; rw [f.lim], by rw [f.th]⟩

theorem newDistance2_sh {k : Nat} {E : Env} {s s' : Sat (DL W)} {i j : Nat} {mn mx : W} {p : Lit} (hk : Room k s.th) (h : newDistance2 E s i j mn mx = .ok (s', p)) : Sh k s s' := by
  unfold newDistance2 at h
  split at h
  · cases h
  next s1 l1 h1 =>
  split at h
  · cases h
  next s2 l2 h2 =>
  have a := newDistance_sh hk h1
  have b := newDistance_sh a.1 h2
  exact (a.trans b).trans (newConj_sh b.1 h)

theorem newRel_sh {k : Nat} {E : Env} {R : Rel} {s s' : Sat (DL W)} {l r : Lin} {p : Lit} (hk : Room k s.th) (h : newRel E R s l r = .ok (s', p)) : Sh k s s' := by
  have same : ∀ {b : Bool}, (Except.ok (s, constLit b) : Except Err (Sat (DL W) × Lit)) = .ok (s', p) → Sh k s s' := fun h => by
    injection h with h; injection h with e1 e2; subst e1; exact ⟨hk, rfl, rfl⟩
  cases R with
  | lt =>
    simp only [newRel, newLt] at h
    split at h
    · cases h
    · exact same h
    · exact newDistance_sh hk h
    · exact newDistance_sh hk h
  | leq =>
    simp only [newRel, newLeq] at h
    split at h
    · cases h
    · exact same h
    · exact newDistance_sh hk h
    · exact newDistance_sh hk h
  | geq =>
    simp only [newRel, newGeq] at h
    split at h
    · cases h
    · exact same h
    · exact newDistance_sh hk h
    · exact newDistance_sh hk h
  | gt =>
    simp only [newRel, newGt] at h
    split at h
    · cases h
    · exact same h
    · exact newDistance_sh hk h
    · split at h
      · exact newDistance2_sh hk h
      · exact newDistance_sh hk h
  | eq =>
    simp only [newRel, newEqD] at h
    split at h
    · cases h
    · exact same h
    · split at h
      · split at h
        · split at h
          · cases h
          next s1 l1 h1 =>
          split at h
          · cases h
          next s2 l2 h2 =>
          have a := newDistance_sh hk h1
          have b := newDistance_sh a.1 h2
          exact (a.trans b).trans (newConj_sh b.1 h)
        · injection h with h; injection h with e1 e2; subst e1; exact ⟨hk, rfl, rfl⟩
      · cases h

theorem api_shallow {E : Env} (k : Nat) : Sat.Shallow (Room (W := W) k) (views k) (Api E) := by
  intro s s' hk h
  have conv : Sh k s s' → Room k s'.th ∧ s'.dl = s.dl ∧ ∃ v w l, s.th.views k = v :: l ∧ s'.th.views k = w :: l := fun h => ⟨h.1, h.2.1, views_same h.2.2⟩
  cases h with
  | newVar => exact conv ⟨(newVar_room hk).1, rfl, (newVar_room hk).2⟩
  | dist h => exact conv (newDistance_sh hk h)
  | dist2 h => exact conv (newDistance2_sh hk h)
  | rel h => exact conv (newRel_sh hk h)
  | listen h =>
    rename_i v l t
    have key : ∃ f, t = { s.th with lst := f } := by
      unfold DL.listen at h
      split at h
      · injection h with h; exact ⟨_, h.symm⟩
      split at h
      · cases h
      · injection h with h
        split at h
        · exact ⟨_, h.symm⟩
        · exact ⟨s.th.lst, h.symm⟩
    obtain ⟨f, e⟩ := key
    subst e
    exact conv ⟨hk, rfl, rfl⟩

/-- C80, difference logic (integer and rational): in every state of the stack whose matrix has room for the time points, after `push`, any calls of the core and of the theory on the top core that lead back to its
root level, and the matching `pop`, the distances between the time points that existed before `push`, hence their bounds, are those from before `push`; so are the cores below. -/
theorem C80_dl_distances_partial {E : Env} {c d u c' : Sat (DL W)} {rest below rest' : List (Sat (DL W))} (hcap : c.th.nv ≤ c.th.cap)
    (hpush : Sat.pushTop E ops (c :: rest) = .ok (d :: below)) (hw : Sat.Works E ops (Api E) d u) (hr : u.root = true) (hpop : Sat.popTop ops (u :: below) = .ok (c' :: rest')) :
    (∀ i < c.th.nv, ∀ j < c.th.nv, c'.th.distance i j = c.th.distance i j) ∧ (0 < c.th.nv → ∀ v < c.th.nv, c'.th.bounds v = c.th.bounds v) ∧ rest' = rest ∧ c' = { c with th := c'.th, notes := c'.notes } := by
  obtain ⟨-, h1, h2, h3⟩ := (layered c.th.nv (P := Room (W := W) c.th.nv) (fun t t' e h => by
    have e1 : t'.nv = t.nv := congrArg Asked.nv e
    have e2 : t'.cap = t.cap := congrArg Asked.cap e
    exact ⟨e1 ▸ h.1, e2 ▸ h.2⟩)).restores (api_shallow c.th.nv) ⟨Nat.le_refl _, hcap⟩ hpush hw hr hpop
  refine ⟨fun i hi j hj => ?_, fun h0 v hv => ?_, h2, h3⟩
  · unfold distance
    rw [views_d h1 hi hj, views_d h1 hj hi]
  · unfold bounds
    rw [views_d h1 hv h0, views_d h1 h0 hv]

/-- C80, difference logic, when the top core is used but nothing new is asked of the theory: the time points, the constraints and all the distances are those from before `push`. -/
theorem C80_dl_core_partial {E : Env} {c d u c' : Sat (DL W)} {rest below rest' : List (Sat (DL W))} (hpush : Sat.pushTop E ops (c :: rest) = .ok (d :: below))
    (hw : Sat.Works E ops (fun _ _ => False) d u) (hr : u.root = true) (hpop : Sat.popTop ops (u :: below) = .ok (c' :: rest')) :
    c'.th.nv = c.th.nv ∧ c'.th.cap = c.th.cap ∧ c'.th.vd = c.th.vd ∧ c'.th.dcs = c.th.dcs ∧ c'.th.d = c.th.d ∧ rest' = rest ∧ c' = { c with th := c'.th, notes := c'.notes } := by
  have key : ∀ k, c'.th.reg = c.th.reg ∧ c'.th.views k = c.th.views k ∧ rest' = rest ∧ c' = { c with th := c'.th, notes := c'.notes } := fun k =>
    (layered k (P := fun t : DL W => t.reg = c.th.reg) (fun t t' e h => e.trans h)).restores (X := fun _ _ => False) (fun _ _ _ h => h.elim) rfl hpush hw hr hpop
  obtain ⟨h1, -, h2, h3⟩ := key 0
  refine ⟨congrArg Asked.nv h1, congrArg Asked.cap h1, congrArg Asked.vd h1, congrArg Asked.dcs h1, ?_, h2, h3⟩
  funext i j
  exact views_d (key (i + j + 1)).2.1 (by omega) (by omega)

end

/-! ### Concrete sessions -/

theorem dact_works {a : DAct} {s s' : Sat (DL ℤ)} {out : Sat.Out} (h : a.run s = .ok (s', out)) : Sat.Works stdEnv ops (Api stdEnv) s s' := by
  cases a with
  | op o => exact .core .refl h
  | point => injection h with h; injection h with e1 e2; subst e1; exact .api .refl .newVar
  | dist i j w =>
    obtain ⟨⟨x, y⟩, h1, h2⟩ := map_ok h
    injection h2 with e1 e2; subst e1
    exact .api .refl (.dist h1)
  | rel R l r =>
    obtain ⟨⟨x, y⟩, h1, h2⟩ := map_ok h
    injection h2 with e1 e2; subst e1
    exact .api .refl (.rel h1)
  | listen v l =>
    simp only [DAct.run] at h
    obtain ⟨t, h1, h2⟩ := map_ok h
    injection h2 with e1 e2; subst e1
    exact .api .refl (.listen h1)

/-- Runs the calls. -/
def dacts : List DAct → Sat (DL ℤ) → Option (Sat (DL ℤ))
  | [], s => some s
  | a :: as, s =>
    match a.run s with
    | .error _ => none
    | .ok (s', _) => dacts as s'

theorem dacts_works : ∀ (as : List DAct) {s0 s s' : Sat (DL ℤ)}, Sat.Works stdEnv ops (Api stdEnv) s0 s → dacts as s = some s' → Sat.Works stdEnv ops (Api stdEnv) s0 s'
  | [], s0, s, s', h0, h => by injection h with h; subst h; exact h0
  | a :: as, s0, s, s', h0, h => by
    unfold dacts at h
    split at h
    · cases h
    · next s1 o h1 =>
      refine dacts_works as ?_ h
      exact h0.trans (dact_works h1)

/-- The first core after the calls. -/
def base (as : List DAct) : Sat (DL ℤ) := (dacts as (Sat.init (DL.init 4))).getD (Sat.init (DL.init 4))

/-- A stack session: the calls `bs` on the first core, `push`, the calls `top` on the copy, `pop`. -/
def trip (bs top : List DAct) : Option (Sat (DL ℤ) × Sat (DL ℤ) × Sat (DL ℤ)) :=
  match Sat.pushTop stdEnv ops [base bs] with
  | .ok [d, c] =>
    match dacts top d with
    | some u =>
      match Sat.popTop ops [u, c] with
      | .ok [c'] => some (d, u, c')
      | _ => none
    | none => none
  | _ => none

theorem trip_spec {bs top : List DAct} {d u c' : Sat (DL ℤ)} (h : trip bs top = some (d, u, c')) :
    Sat.pushTop stdEnv ops [base bs] = .ok [d, base bs] ∧ Sat.Works stdEnv ops (Api stdEnv) d u ∧ Sat.popTop ops [u, base bs] = .ok [c'] := by
  unfold trip at h
  split at h
  · next d1 c h1 =>
    have hc : c = base bs := by
      have h1 := h1
      simp only [Sat.pushTop] at h1
      split at h1
      · cases h1
      · injection h1 with h1; injection h1 with e1 e2; injection e2 with e2 _; exact e2.symm
    subst hc
    split at h
    · next u1 h2 =>
      split at h
      · next c1 h3 =>
        injection h with h; injection h with e1 h; injection h with e2 e3
        subst e1; subst e2; subst e3
        exact ⟨h1, dacts_works _ .refl h2, h3⟩
      · cases h
    · cases h
  · cases h

/-- Time points 1 and 2; `b1`: `x1 <= 3`; `b2`: `x2 - x1 <= 4`. -/
def base80 : List DAct := [.point, .point, .dist 0 1 3, .dist 1 2 4]

/-- A session that meets the hypotheses of `C80_dl_distances_partial`: on the pushed core a time point and a constraint are added, `b1` is decided and retracted, `b1` and `b2` are asserted at the root; before `pop` the upper bound
of `x2` is 7, after `pop` there is none. -/
theorem C80_dl_case : ∃ d u c', Sat.pushTop stdEnv ops [base base80] = .ok [d, base base80] ∧ Sat.Works stdEnv ops (Api stdEnv) d u ∧ u.root = true ∧ Sat.popTop ops [u, base base80] = .ok [c'] ∧
    (base base80).th.nv = 3 ∧ (base base80).th.cap = 4 ∧ u.th.ub 2 = ((7 : ℤ) : WithTop ℤ) ∧ c'.th.ub 2 = ⊤ := by
  have h : (trip base80 [.point, .dist 3 1 5, .op (.assume ⟨1, true⟩), .op .pop, .op (.newClause [⟨1, true⟩]), .op (.newClause [⟨2, true⟩]), .op .propagate]).map
      (fun r => decide (r.2.1.root = true ∧ r.2.1.th.ub 2 = ((7 : ℤ) : WithTop ℤ))) = some true := by decide +kernel
  obtain ⟨⟨d, u, c'⟩, h1, h2⟩ := Option.map_eq_some_iff.mp h
  obtain ⟨a, b, e⟩ := trip_spec h1
  have h2 := of_decide_eq_true h2
  have hn : (base base80).th.nv = 3 := by decide +kernel
  have hc : (base base80).th.cap = 4 := by decide +kernel
  have hl : (base base80).th.ub 2 = ⊤ := by decide +kernel
  have k := C80_dl_distances_partial (by omega) a b h2.1 e
  have k2 := congrArg Prod.snd (k.2.1 (by omega) 2 (by omega))
  exact ⟨d, u, c', a, b, h2.1, e, hn, hc, h2.2, k2.trans hl⟩

/-- C80 is false of the code when the dropped core has two decisions: `pop` closes one level of the theory only, so that `x1 <= 3` stays, while the first core has `b1` undefined. -/
theorem C80_witness_levels : ∃ d u c', Sat.pushTop stdEnv ops [base base80] = .ok [d, base base80] ∧ Sat.Works stdEnv ops (Api stdEnv) d u ∧ Sat.popTop ops [u, base base80] = .ok [c'] ∧
    (base base80).th.ub 1 = ⊤ ∧ c'.th.ub 1 = ((3 : ℤ) : WithTop ℤ) ∧ c'.value ⟨1, true⟩ = none := by
  have h : (trip base80 [.op (.assume ⟨1, true⟩), .op (.assume ⟨2, true⟩)]).map
      (fun r => decide (r.2.2.th.ub 1 = ((3 : ℤ) : WithTop ℤ) ∧ r.2.2.value ⟨1, true⟩ = none)) = some true := by decide +kernel
  obtain ⟨⟨d, u, c'⟩, h1, h2⟩ := Option.map_eq_some_iff.mp h
  obtain ⟨a, b, e⟩ := trip_spec h1
  have h2 := of_decide_eq_true h2
  exact ⟨d, u, c', a, b, e, by decide +kernel, h2.1, h2.2⟩

/-- C80 is false of the code for constraints created on the pushed core: the theory keeps them after `pop`, with literals that the first core does not have; asserting `b1` on the first core then ends the program. -/
theorem C80_witness_constraint : ∃ d u c' s', Sat.pushTop stdEnv ops [base base80] = .ok [d, base base80] ∧ Sat.Works stdEnv ops (Api stdEnv) d u ∧ u.root = true ∧ Sat.popTop ops [u, base base80] = .ok [c'] ∧
    c'.newClause stdEnv [⟨1, true⟩] = .ok (s', true) ∧ s'.propagate stdEnv ops = .error .terminate := by
  have h : (trip base80 [.dist 0 1 5]).map
      (fun r => decide (r.2.1.root = true) && match r.2.2.newClause stdEnv [⟨1, true⟩] with
        | .ok (s', true) => (match s'.propagate stdEnv ops with | .error .terminate => true | _ => false)
        | _ => false) = some true := by decide +kernel
  obtain ⟨⟨d, u, c'⟩, h1, h2⟩ := Option.map_eq_some_iff.mp h
  obtain ⟨a, b, e⟩ := trip_spec h1
  simp only [Bool.and_eq_true] at h2
  obtain ⟨h3, h4⟩ := h2
  split at h4
  · next s' hp =>
    refine ⟨d, u, c', s', a, b, of_decide_eq_true h3, e, hp, ?_⟩
    split at h4
    · assumption
    · cases h4
  · cases h4

end DL
end Semitone
