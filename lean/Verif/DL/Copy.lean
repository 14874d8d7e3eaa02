import Verif.DL.Witness

/-!
# C53: the copy constructor of the difference-logic theories
-/
namespace Semitone
namespace DL
variable {W : Type} [AddCommGroup W] [LinearOrder W] [IsOrderedAddMonoid W]

/-- `idl_theory(sat, orig)` (lines 18-27), `rdl_theory(sat, orig)` (`rdl_theory.cpp:18-27`): the matrices and the layers are copied as they are; the constraint objects are made anew, and the
entries of `dist_constr` and `dist_constrs` are mapped through `var_dists.at(variable(d->b))`. -/
def copyOf (t : DL W) : DL W :=
  { t with
    cur := fun i j => (t.cur i j).bind (fun dd => t.vd dd.b)
    dcs := fun i j => (t.dcs i j).filterMap (fun dd => t.vd dd.b) }

/-- No call of `at` in `copyOf` throws. -/
def CopyOk (t : DL W) : Prop := (∀ i j dd, t.cur i j = some dd → t.vd dd.b ≠ none) ∧ ∀ i j, ∀ dd ∈ t.dcs i j, t.vd dd.b ≠ none

/-- `pop()` (lines 490-502) without the constraint objects kept in the layers (the copied layers point at the objects of the original): an entry of `dist_constr` is kept or erased,
never created. -/
def popOwn (t : DL W) : Except Err (DL W) :=
  match t.layers with
  | [] => .error .ub
  | L :: Ls => .ok
    { t with
      d := fun i j => (L.oldD i j).getD (t.d i j)
      pred := fun i j => (L.oldP i j).getD (t.pred i j)
      cur := fun i j => match L.oldC i j with
        | some none => none
        | _ => t.cur i j
      layers := Ls }

variable [Dom W]

/-- Asserted constraints are registered ones. -/
theorem Hist.asserted {x : DL W × List (List (Dist W × Bool))} (h : Hist x) : ∀ e ∈ x.2.flatten, ∃ v, x.1.vd v = some e.1 := by
  induction h with
  | init => intro e he; simp at he
  | @call x y hx hc ih =>
    obtain ⟨hg, hr⟩ := hx.good
    cases hc with
    | newVar => rw [(newVar_frame hg.core).2.1]; exact ih
    | @register t A dd _ _ _ _ hf =>
      intro e he
      obtain ⟨v, hv⟩ := ih e he
      refine ⟨v, ?_⟩
      simp only [register, upd]
      rw [if_neg]
      · exact hv
      · rintro rfl
        rw [hf] at hv
        cases hv
    | @lit t t' a A val p dd sg hv hs he =>
      obtain ⟨a1, a2, a3, a4⟩ := hr.vd _ _ hv
      have hf := ends_frame hg a2 a3 a4 (propagate_ends hv hs he)
      intro e he'
      simp only [List.flatten_cons, List.cons_append, List.mem_cons] at he'
      simp only [hf.2.1]
      rcases he' with rfl | he'
      · exact ⟨_, hv⟩
      · exact ih e (by simpa using he')
    | refused he => rw [(propagate_confl he).1]; exact ih
    | push => intro e he; exact ih e (by simpa using he)
    | @pop t t' a A hne hp =>
      obtain ⟨L, Ls, _, rfl⟩ := pop_cases hp
      intro e he
      exact ih e (by simp only [List.flatten_cons, List.mem_append]; exact Or.inr he)
    | listen hl => obtain ⟨f, rfl⟩ := listen_same hl; exact ih

/-- C53: in every reachable state the copy constructor does not throw, and the copy is in the state of the original, so it answers every later call as the original would. -/
theorem C53_copy_same {t : DL W} {A : List (List (Dist W × Bool))} (h : Hist (t, A)) : CopyOk t ∧ t.copyOf = t := by
  have h1 : ∀ i j dd, t.cur i j = some dd → t.vd dd.b = some dd := by
    intro i j dd hd
    obtain ⟨sg, hs, _, _⟩ := h.good.1.core.curF i j dd hd
    obtain ⟨v, hv⟩ := h.asserted _ hs
    have := (h.good.2.vd v dd hv).1
    rw [this]; exact hv
  have h2 : ∀ i j, ∀ dd ∈ t.dcs i j, t.vd dd.b = some dd := fun i j dd hd => (h.good.2.dcs i j dd hd).1
  refine ⟨⟨fun i j dd hd => by rw [h1 i j dd hd]; simp, fun i j dd hd => by rw [h2 i j dd hd]; simp⟩, ?_⟩
  unfold copyOf
  have e1 : (fun i j => (t.cur i j).bind (fun dd => t.vd dd.b)) = t.cur := by
    funext i j
    cases hc : t.cur i j with
    | none => rfl
    | some dd => exact h1 i j dd hc
  have e2 : (fun i j => (t.dcs i j).filterMap (fun dd => t.vd dd.b)) = t.dcs := by
    funext i j
    have : ∀ l : List (Dist W), (∀ dd ∈ l, t.vd dd.b = some dd) → l.filterMap (fun dd => t.vd dd.b) = l := by
      intro l
      induction l with
      | nil => intro _; rfl
      | cons a l ih =>
        intro hl
        rw [List.filterMap_cons, hl a List.mem_cons_self]
        simp only
        rw [ih (fun dd hd => hl dd (List.mem_cons_of_mem _ hd))]
    exact this _ (h2 i j)
  rw [e1, e2]

/-- C53: in every reachable state `pop()` does not read the constraint objects kept in the layers, so a copy never uses those of the original. -/
theorem C53_pop_own {t : DL W} {A : List (List (Dist W × Bool))} (h : Hist (t, A)) : t.pop = t.popOwn := by
  have hl := h.good.1.layok
  unfold pop popOwn
  unfold LayerOK at hl
  cases hL : t.layers with
  | nil => rfl
  | cons L Ls =>
    simp only [hL] at hl
    simp only [Except.ok.injEq]
    congr 1
    funext i j
    cases hc : L.oldC i j with
    | none => rfl
    | some x =>
      cases x with
      | none => rfl
      | some dd =>
        have := hl i j _ hc
        simp_all

/-- The hypothesis of C53 is met by a state with two levels, three asserted constraints and saved entries. -/
theorem C53_example : Hist (net2, [[(e3, true)], [(e2, true), (e1, true)]]) ∧ net2.layers ≠ [] ∧ net2.cur 0 1 ≠ none ∧ net2.copyOf.distance 0 2 = (⊥, ((1 : ℤ) : WithTop ℤ)) :=
  ⟨net2_hist, by decide, by decide, by decide⟩

end DL
end Semitone
