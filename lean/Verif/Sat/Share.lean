import Verif.Sat.Later
import Verif.Sat.Filt

/-!
# Asking again for the same expression

What the cache of expressions (`exprs`, `sat_core.h:166`) keeps along a history.
-/
namespace Semitone
namespace Sat
variable {T : Type}

/-- The text is not the name of a variable. -/
def Named (k : String) : Prop := ∀ n : Nat, k ≠ "b" ++ toString n

/-- What is cached in `s` is cached in `s'`. -/
def KeepsEx (s s' : Sat T) : Prop := ∀ k r, Named k → s.findExpr k = some r → s'.findExpr k = some r

theorem KeepsEx.refl (s : Sat T) : KeepsEx s s := fun _ _ _ h => h

theorem KeepsEx.trans {s1 s2 s3 : Sat T} (h1 : KeepsEx s1 s2) (h2 : KeepsEx s2 s3) : KeepsEx s1 s3 := fun k r hk h => h2 k r hk (h1 k r hk h)

theorem KeepsEx.of_exprs {s s' : Sat T} (h : s'.exprs = s.exprs) : KeepsEx s s' := fun k r _ hf => by unfold findExpr at *; rw [h]; exact hf

theorem findExpr_add (s : Sat T) (k k' : String) (l : Lit) : (s.addExpr k l).findExpr k' = if k' = k then some l else s.findExpr k' := by
  unfold addExpr findExpr
  simp only [List.lookup_cons]
  by_cases e : k' = k
  · subst e; simp
  · have : (k' == k) = false := by simpa using e
    rw [this, if_neg e]

theorem newVar_keeps (s : Sat T) : KeepsEx s s.newVar.1 := by
  intro k r hk h
  have e : s.newVar.1.findExpr k = (s.addExpr ("b" ++ toString s.nvars) ⟨s.nvars, true⟩).findExpr k := rfl
  rw [e, findExpr_add, if_neg (hk _)]; exact h

theorem newVars_keeps : ∀ (n : Nat) (s : Sat T), KeepsEx s (newVars n s).1
  | 0, s => .refl s
  | n + 1, s => (newVar_keeps s).trans (newVars_keeps n s.newVar.1)

theorem enqueue_exprs (s : Sat T) (p : Lit) (c : Option Nat) : (s.enqueue p c).1.exprs = s.exprs ∧ (s.enqueue p c).1.dead = s.dead := by
  unfold enqueue; split <;> exact ⟨rfl, rfl⟩

theorem newClauseObj_exprs {s s' : Sat T} {ls : List Lit} {c : Nat} (h : s.newClauseObj ls = .ok (s', c)) : s'.exprs = s.exprs ∧ s'.dead = s.dead := by
  unfold newClauseObj at h
  split at h
  · injection h with h; injection h with e1 e2; subst e1; exact ⟨rfl, rfl⟩
  · cases h

/-- A posted clause is not an expression; a refusal is definitive. -/
theorem newClause_exprs {E : Env} {s s' : Sat T} {ls : List Lit} {b : Bool} (h : s.newClause E ls = .ok (s', b)) :
    s'.exprs = s.exprs ∧ (s.dead = true ∨ b = false → s'.dead = true) := by
  unfold newClause at h
  split at h
  · cases h
  · split at h
    · cases h
    · dsimp only at h
      split at h
      · injection h with h; injection h with e1 e2; subst e1 e2
        exact ⟨rfl, fun h => h.resolve_right (by simp)⟩
      · injection h with h; injection h with e1 e2; subst e1 e2; exact ⟨rfl, fun _ => rfl⟩
      · next l hf =>
        injection h with h
        have hv : s.value l = none := ((filt_sorted E true s.value ls [l] hf).1 l (by simp)).2
        have e := enqueue_exprs ({ s with posted := ls :: s.posted } : Sat T) l none
        have hb : (({ s with posted := ls :: s.posted } : Sat T).enqueue l none).2 = true := by
          unfold enqueue
          have hv' : ({ s with posted := ls :: s.posted } : Sat T).value l = none := hv
          rw [hv']
        rw [h] at e hb
        simp only at hb
        subst hb
        exact ⟨e.1, fun h => e.2.trans (h.resolve_right (by simp))⟩
      · split at h
        · cases h
        · next u c hc =>
          injection h with h; injection h with e1 e2; subst e1 e2
          have e := newClauseObj_exprs hc
          exact ⟨e.1, fun h => e.2.trans (h.resolve_right (by simp))⟩

theorem postAll_exprs {E : Env} : ∀ (cls : List (List Lit)) {s s' : Sat T} {b : Bool}, postAll E cls s = .ok (s', b) →
    s'.exprs = s.exprs ∧ (s.dead = true ∨ b = false → s'.dead = true)
  | [], s, s', b, h => by
    injection h with h; injection h with e1 e2; subst e1 e2
    exact ⟨rfl, fun h => h.resolve_right (by simp)⟩
  | c :: cls, s, s', b, h => by
    simp only [postAll] at h
    match hc : s.newClause E c with
    | .error e => simp [hc] at h
    | .ok (s1, false) =>
      simp only [hc] at h
      injection h with h; injection h with e1 e2; subst e1 e2
      exact newClause_exprs hc
    | .ok (s1, true) =>
      simp only [hc] at h
      obtain ⟨a, b⟩ := newClause_exprs hc
      obtain ⟨a', b'⟩ := postAll_exprs cls h
      exact ⟨a'.trans a, fun h => b' (h.imp_left (fun h => b (Or.inl h)))⟩

/-- The defined literal is returned and cached, unless the core is found inconsistent. -/
theorem define_cached {E : Env} {s s' : Sat T} {key : String} {ctr r : Lit} {cls : List (List Lit)} (h : define E s key ctr cls = .ok (s', r)) (hd : s'.dead = false) :
    r = ctr ∧ s'.findExpr key = some r ∧ s.dead = false := by
  unfold define at h
  match hp : postAll E cls s with
  | .error e => simp [hp] at h
  | .ok (u, false) =>
    simp only [hp] at h
    injection h with h; injection h with e1 e2; subst e1
    rw [(postAll_exprs _ hp).2 (Or.inr rfl)] at hd; cases hd
  | .ok (u, true) =>
    simp only [hp] at h
    injection h with h; injection h with e1 e2; subst e1 e2
    refine ⟨rfl, by rw [findExpr_add, if_pos rfl], ?_⟩
    cases hs : s.dead with
    | false => rfl
    | true => rw [show (u.addExpr key ctr).dead = true from (postAll_exprs _ hp).2 (Or.inl hs)] at hd; cases hd

theorem define_keeps {E : Env} {s0 s s' : Sat T} {key : String} {ctr r : Lit} {cls : List (List Lit)} (h0 : KeepsEx s0 s) (hk : s0.findExpr key = none) (h : define E s key ctr cls = .ok (s', r)) :
    KeepsEx s0 s' := by
  unfold define at h
  match hp : postAll E cls s with
  | .error e => simp [hp] at h
  | .ok (u, false) =>
    simp only [hp] at h
    injection h with h; injection h with e1 e2; subst e1
    exact h0.trans (.of_exprs (postAll_exprs _ hp).1)
  | .ok (u, true) =>
    simp only [hp] at h
    injection h with h; injection h with e1 e2; subst e1 e2
    intro k r hn hf
    rw [findExpr_add]
    split
    · next e => subst e; rw [hk] at hf; cases hf
    · exact (h0.trans (.of_exprs (postAll_exprs _ hp).1)) k r hn hf

/-- The answer of `new_conj` and `new_disj` when the filtered operands decide it. -/
def plain (a b : Lit) : Option (List Lit) → Option Lit
  | none => some a
  | some [] => some b
  | some [l] => some l
  | _ => none

theorem newConj_cached {E : Env} {s s' : Sat T} {ls : List Lit} {r : Lit} (h : s.newConj E ls = .ok (s', r)) (hd : s'.dead = false) :
    s.inRange ls = true ∧ s.root = true ∧ KeepsEx s s' ∧
    ((plain FALSE_lit TRUE_lit (filt false s.value none (E.sortVar ls)) = some r) ∨
      ∃ x y zs, filt false s.value none (E.sortVar ls) = some (x :: y :: zs) ∧ s'.findExpr ("&" ++ litsStr (x :: y :: zs)) = some r) := by
  unfold newConj at h
  split at h
  · cases h
  · next hroot =>
    split at h
    · cases h
    · next hr =>
      refine ⟨by simpa using hr, by simpa using hroot, ?_⟩
      split at h
      · next hf =>
        injection h with h; injection h with e1 e2; subst e1 e2
        exact ⟨.refl _, Or.inl (by rw [hf]; rfl)⟩
      · next hf =>
        injection h with h; injection h with e1 e2; subst e1 e2
        exact ⟨.refl _, Or.inl (by rw [hf]; rfl)⟩
      · next hf =>
        injection h with h; injection h with e1 e2; subst e1 e2
        exact ⟨.refl _, Or.inl (by rw [hf]; rfl)⟩
      · next out h1 h2 hf =>
        obtain ⟨x, y, zs, rfl⟩ : ∃ x y zs, out = x :: y :: zs := by
          match out with
          | [] => exact absurd rfl h1
          | [l] => exact absurd rfl (h2 l)
          | x :: y :: zs => exact ⟨x, y, zs, rfl⟩
        split at h
        · next l hl =>
          injection h with h; injection h with e1 e2; subst e1 e2
          exact ⟨.refl _, Or.inr ⟨x, y, zs, hf, hl⟩⟩
        · next hl =>
          dsimp only at h
          exact ⟨define_keeps (newVar_keeps s) hl h, Or.inr ⟨x, y, zs, hf, (define_cached h hd).2.1⟩⟩

theorem newDisj_cached {E : Env} {s s' : Sat T} {ls : List Lit} {r : Lit} (h : s.newDisj E ls = .ok (s', r)) (hd : s'.dead = false) :
    s.inRange ls = true ∧ s.root = true ∧ KeepsEx s s' ∧
    ((plain TRUE_lit FALSE_lit (filt true s.value none (E.sortVar ls)) = some r) ∨
      ∃ x y zs, filt true s.value none (E.sortVar ls) = some (x :: y :: zs) ∧ s'.findExpr ("|" ++ litsStr (x :: y :: zs)) = some r) := by
  unfold newDisj at h
  split at h
  · cases h
  · next hroot =>
    split at h
    · cases h
    · next hr =>
      refine ⟨by simpa using hr, by simpa using hroot, ?_⟩
      split at h
      · next hf =>
        injection h with h; injection h with e1 e2; subst e1 e2
        exact ⟨.refl _, Or.inl (by rw [hf]; rfl)⟩
      · next hf =>
        injection h with h; injection h with e1 e2; subst e1 e2
        exact ⟨.refl _, Or.inl (by rw [hf]; rfl)⟩
      · next hf =>
        injection h with h; injection h with e1 e2; subst e1 e2
        exact ⟨.refl _, Or.inl (by rw [hf]; rfl)⟩
      · next out h1 h2 hf =>
        obtain ⟨x, y, zs, rfl⟩ : ∃ x y zs, out = x :: y :: zs := by
          match out with
          | [] => exact absurd rfl h1
          | [l] => exact absurd rfl (h2 l)
          | x :: y :: zs => exact ⟨x, y, zs, rfl⟩
        split at h
        · next l hl =>
          injection h with h; injection h with e1 e2; subst e1 e2
          exact ⟨.refl _, Or.inr ⟨x, y, zs, hf, hl⟩⟩
        · next hl =>
          dsimp only at h
          exact ⟨define_keeps (newVar_keeps s) hl h, Or.inr ⟨x, y, zs, hf, (define_cached h hd).2.1⟩⟩

/-- The filter keeps the same literals whatever the order and the repetitions, as long as the values are the same. -/
theorem filt_same (E : Env) (stop : Bool) {val val' : Lit → Option Bool} (hc : Coh val) {ls ls' : List Lit} (hs : ∀ l, l ∈ ls' ↔ l ∈ ls) (hv : ∀ l ∈ ls, val' l = val l) :
    filt stop val' none (E.sortVar ls') = filt stop val none (E.sortVar ls) := by
  have none_some : ∀ {v v' : Lit → Option Bool} {ms ms' : List Lit}, Coh v → (∀ l, l ∈ ms' ↔ l ∈ ms) → (∀ l ∈ ms, v' l = v l) → ∀ out, filt stop v' none (E.sortVar ms') = none →
      filt stop v none (E.sortVar ms) = some out → False := by
    intro v v' ms ms' hc hs hv out h1 h2
    obtain ⟨a, b, c⟩ := filt_sorted E stop v ms out h2
    obtain ⟨l, hl, h3⟩ := filt_sorted_none E stop v' ms' h1
    have hl' := (hs l).1 hl
    have key : ∀ x ∈ ms, v x = none → x ∈ out := fun x hx hn => (b x hx).resolve_right (fun h => by rw [hn] at h; cases h)
    rcases h3 with h3 | h3
    · rw [hv l hl'] at h3
      rcases b l hl' with h4 | h4
      · rw [(a l h4).2] at h3; cases h3
      · rw [h4] at h3; injection h3 with h3; cases stop <;> cases h3
    · have h3' := (hs _).1 h3
      rcases b l hl' with h4 | h4
      · have : v l.neg = none := by rw [hc l, (a l h4).2]; rfl
        exact strict_no_neg c h4 (key _ h3' this)
      · have h5 : v l.neg = some stop := by rw [hc l, h4]; simp
        rcases b _ h3' with h6 | h6
        · rw [(a _ h6).2] at h5; cases h5
        · rw [h6] at h5; injection h5 with h5; cases stop <;> cases h5
  have hv' : ∀ l ∈ ls', val l = val' l := fun l hl => (hv l ((hs l).1 hl)).symm
  match h1 : filt stop val none (E.sortVar ls), h2 : filt stop val' none (E.sortVar ls') with
  | none, none => rfl
  | some out, none => exact (none_some hc hs hv out h2 h1).elim
  | none, some out' =>
    exfalso
    have hc2 : filt stop val' none (E.sortVar ls') = filt stop val none (E.sortVar ls') := by
      have hm := fun l => (E.sortVar_perm ls').mem_iff (a := l)
      have : ∀ (p : Option Lit) (ms : List Lit), (∀ l ∈ ms, l ∈ ls') → filt stop val' p ms = filt stop val p ms := by
        intro p ms
        induction ms generalizing p with
        | nil => intro _; rfl
        | cons x ms ih =>
          intro h
          simp only [filt, hv' x (h x (by simp)), ih _ (fun l hl => h l (by simp [hl]))]
      exact this none _ (fun l hl => (hm l).1 hl)
    rw [hc2] at h2
    exact none_some hc (fun l => (hs l).symm) (fun _ _ => rfl) out' h1 h2
  | some out, some out' =>
    obtain ⟨a, b, c⟩ := filt_sorted E stop val ls out h1
    obtain ⟨a', b', c'⟩ := filt_sorted E stop val' ls' out' h2
    have hmem : ∀ l, l ∈ out' ↔ l ∈ out := by
      intro l
      constructor
      · intro hl
        have hl2 := (hs l).1 (a' l hl).1
        exact (b l hl2).resolve_right (fun h => by rw [← hv l hl2, (a' l hl).2] at h; cases h)
      · intro hl
        have hl2 := (hs l).2 (a l hl).1
        exact (b' l hl2).resolve_right (fun h => by rw [← hv' l hl2, (a l hl).2] at h; cases h)
    congr 1
    have hp : out'.Perm out := (List.perm_ext_iff_of_nodup (strict_nodup c') (strict_nodup c)).2 hmem
    exact hp.eq_of_pairwise (fun x y _ _ h1 h2 => by exfalso; omega) c' c

theorem filt_congr (stop : Bool) {val val' : Lit → Option Bool} : ∀ (ms : List Lit) (p : Option Lit), (∀ l ∈ ms, val' l = val l) → filt stop val' p ms = filt stop val p ms
  | [], _, _ => rfl
  | x :: ms, p, h => by
    simp only [filt, h x (by simp), filt_congr stop ms _ (fun l hl => h l (by simp [hl]))]

theorem amoFilt_congr {val val' : Lit → Option Bool} : ∀ (ms : List Lit) (p : Option Lit), (∀ l ∈ ms, val' l = val l) → amoFilt val' p ms = amoFilt val p ms
  | [], _, _ => rfl
  | x :: ms, p, h => by
    have h' : ∀ l ∈ ms, val' l = val l := fun l hl => h l (by simp [hl])
    simp only [amoFilt, h x (by simp), amoFilt_congr ms _ h', filt_congr true ms _ h']

theorem amoFilt_same (E : Env) {val val' : Lit → Option Bool} {ls : List Lit} (hv : ∀ l ∈ ls, val' l = val l) : amoFilt val' none (E.sortVar ls) = amoFilt val none (E.sortVar ls) :=
  amoFilt_congr _ _ (fun l hl => hv l (((E.sortVar_perm ls).mem_iff (a := l)).1 hl))

theorem newConj_keeps {E : Env} {s s' : Sat T} {ls : List Lit} {r : Lit} (h : s.newConj E ls = .ok (s', r)) : KeepsEx s s' := by
  unfold newConj at h
  split at h
  · cases h
  · split at h
    · cases h
    · split at h
      iterate 3 · injection h with h; injection h with e1 e2; subst e1; exact .refl _
      · split at h
        · injection h with h; injection h with e1 e2; subst e1; exact .refl _
        · next hl => exact define_keeps (newVar_keeps s) hl h

theorem newDisj_keeps {E : Env} {s s' : Sat T} {ls : List Lit} {r : Lit} (h : s.newDisj E ls = .ok (s', r)) : KeepsEx s s' := by
  unfold newDisj at h
  split at h
  · cases h
  · split at h
    · cases h
    · split at h
      iterate 3 · injection h with h; injection h with e1 e2; subst e1; exact .refl _
      · split at h
        · injection h with h; injection h with e1 e2; subst e1; exact .refl _
        · next hl => exact define_keeps (newVar_keeps s) hl h

/-- What `new_at_most_one` answers: decided by the filtered operands, or cached. -/
theorem newAMOGo_cached {E : Env} : ∀ (f : Nat) {s s' : Sat T} {ls : List Lit} {r : Lit}, newAMOGo E f s ls = .ok (s', r) →
    s.inRange ls = true ∧ s.root = true ∧ KeepsEx s s' ∧
    (s'.dead = false → (amoFilt s.value none (E.sortVar ls) = none ∧ r = FALSE_lit) ∨ (amoFilt s.value none (E.sortVar ls) = some [] ∧ r = TRUE_lit) ∨
      (∃ x, amoFilt s.value none (E.sortVar ls) = some [x] ∧ r = TRUE_lit) ∨
      ∃ x y zs, amoFilt s.value none (E.sortVar ls) = some (x :: y :: zs) ∧ s'.findExpr ("amo" ++ litsStr (x :: y :: zs)) = some r)
  | 0, s, s', ls, r, h => by cases h
  | f + 1, s, s', ls, r, h => by
    unfold newAMOGo at h
    split at h
    · cases h
    · next hroot =>
      split at h
      · cases h
      · next hr =>
        refine ⟨by simpa using hr, by simpa using hroot, ?_⟩
        split at h
        · next hf =>
          injection h with h; injection h with e1 e2; subst e1 e2
          exact ⟨.refl _, fun _ => Or.inl ⟨hf, rfl⟩⟩
        · next hf =>
          injection h with h; injection h with e1 e2; subst e1 e2
          exact ⟨.refl _, fun _ => Or.inr (Or.inl ⟨hf, rfl⟩)⟩
        · next x hf =>
          injection h with h; injection h with e1 e2; subst e1 e2
          exact ⟨.refl _, fun _ => Or.inr (Or.inr (Or.inl ⟨x, hf, rfl⟩))⟩
        · next out h1 h2 hf =>
          obtain ⟨x, y, zs, rfl⟩ : ∃ x y zs, out = x :: y :: zs := by
            match out with
            | [] => exact absurd rfl h1
            | [l] => exact absurd rfl (h2 l)
            | x :: y :: zs => exact ⟨x, y, zs, rfl⟩
          have fin : ∀ {u : Sat T} {ctr cls}, KeepsEx s u → s.findExpr ("amo" ++ litsStr (x :: y :: zs)) = none → define E u ("amo" ++ litsStr (x :: y :: zs)) ctr cls = .ok (s', r) →
              KeepsEx s s' ∧ (s'.dead = false → (amoFilt s.value none (E.sortVar ls) = none ∧ r = FALSE_lit) ∨ (amoFilt s.value none (E.sortVar ls) = some [] ∧ r = TRUE_lit) ∨
                (∃ x', amoFilt s.value none (E.sortVar ls) = some [x'] ∧ r = TRUE_lit) ∨
                ∃ x' y' zs', amoFilt s.value none (E.sortVar ls) = some (x' :: y' :: zs') ∧ s'.findExpr ("amo" ++ litsStr (x' :: y' :: zs')) = some r) := by
            intro u ctr cls hu hl hd
            exact ⟨define_keeps hu hl hd, fun hdead => Or.inr (Or.inr (Or.inr ⟨x, y, zs, hf, (define_cached hd hdead).2.1⟩))⟩
          split at h
          · next l hl =>
            injection h with h; injection h with e1 e2; subst e1 e2
            exact ⟨.refl _, fun _ => Or.inr (Or.inr (Or.inr ⟨x, y, zs, hf, hl⟩))⟩
          · next hl =>
            split at h
            · exact fin (newVar_keeps s) hl h
            · dsimp only at h
              split at h
              · cases h
              · next s3 au h3 =>
                split at h
                · cases h
                · next s4 av h4 =>
                  split at h
                  · cases h
                  · next s5 ctr h5 =>
                    exact fin (((((newVars_keeps _ _).trans (newVars_keeps _ _)).trans (newAMOGo_cached f h3).2.2.1).trans (newAMOGo_cached f h4).2.2.1).trans (newConj_keeps h5)) hl h

theorem newEXO_cached {E : Env} {s s' : Sat T} {ls : List Lit} {r : Lit} (h : s.newEXO E ls = .ok (s', r)) :
    s.inRange ls = true ∧ s.root = true ∧ KeepsEx s s' ∧
    (s'.dead = false → (amoFilt s.value none (E.sortVar ls) = none ∧ r = FALSE_lit) ∨ (amoFilt s.value none (E.sortVar ls) = some [] ∧ r = FALSE_lit) ∨
      (∃ x zs, amoFilt s.value none (E.sortVar ls) = some (x :: zs) ∧ exoOne (x :: zs) = some r) ∨
      ∃ x zs, amoFilt s.value none (E.sortVar ls) = some (x :: zs) ∧ exoOne (x :: zs) = none ∧ s'.findExpr ("^" ++ litsStr (x :: zs)) = some r) := by
  unfold newEXO at h
  split at h
  · cases h
  · next hroot =>
    split at h
    · cases h
    · next hr =>
      refine ⟨by simpa using hr, by simpa using hroot, ?_⟩
      split at h
      · next hf =>
        injection h with h; injection h with e1 e2; subst e1 e2
        exact ⟨.refl _, fun _ => Or.inl ⟨hf, rfl⟩⟩
      · next hf =>
        injection h with h; injection h with e1 e2; subst e1 e2
        exact ⟨.refl _, fun _ => Or.inr (Or.inl ⟨hf, rfl⟩)⟩
      · next out h1 hf =>
        obtain ⟨x, zs, rfl⟩ : ∃ x zs, out = x :: zs := by
          match out with
          | [] => exact absurd rfl h1
          | x :: zs => exact ⟨x, zs, rfl⟩
        split at h
        · next l hl =>
          injection h with h; injection h with e1 e2; subst e1 e2
          exact ⟨.refl _, fun _ => Or.inr (Or.inr (Or.inl ⟨x, zs, hf, hl⟩))⟩
        · next ho =>
          split at h
          · next l hl =>
            injection h with h; injection h with e1 e2; subst e1 e2
            exact ⟨.refl _, fun _ => Or.inr (Or.inr (Or.inr ⟨x, zs, hf, ho, hl⟩))⟩
          · next hl =>
            split at h
            · cases h
            · next s1 ctr h3 =>
              exact ⟨define_keeps (newAMOGo_cached _ h3).2.2.1 hl h, fun hd => Or.inr (Or.inr (Or.inr ⟨x, zs, hf, ho, (define_cached h hd).2.1⟩))⟩

/-- The answer of `new_eq` on different literals, one of which has a value (`sat_core.cpp:90-124`): the constants, the other literal or its negation. -/
def eqPlain (left right : Lit) : Option Bool → Option Bool → Option Lit
  | some true, some true => some TRUE_lit
  | some true, some false => some FALSE_lit
  | some true, none => some (if left.sign = right.sign then right else right.neg)
  | some false, some true => some FALSE_lit
  | some false, some false => some TRUE_lit
  | some false, none => some (if left.sign = right.sign then right.neg else right)
  | none, some true => some (if left.sign = right.sign then left else left.neg)
  | none, some false => some (if left.sign = right.sign then left.neg else left)
  | none, none => none

theorem eqPlain_comm (a b : Lit) (va vb : Option Bool) : eqPlain a b va vb = eqPlain b a vb va := by
  cases va with
  | none => cases vb with
    | none => rfl
    | some y => cases y <;> simp only [eqPlain, eq_comm]
  | some x => cases vb with
    | none => cases x <;> simp only [eqPlain, eq_comm]
    | some y => cases x <;> cases y <;> rfl

/-- `new_eq` by cases. -/
theorem newEq_eq (E : Env) (s : Sat T) (a b : Lit) (hr : s.root = true) (hi : s.inRange [a, b] = true) (hab : a ≠ b) :
    s.newEq E a b = match eqPlain a b (s.value a) (s.value b) with
      | some l => .ok (s, l)
      | none =>
        match s.findExpr (eqKey a b) with
        | some l => .ok (s, l)
        | none => define E s.newVar.1 (eqKey a b) ⟨s.nvars, true⟩
            [[Lit.neg ⟨s.nvars, true⟩, a.neg, b], [Lit.neg ⟨s.nvars, true⟩, a, b.neg], [⟨s.nvars, true⟩, a.neg, b.neg]] := by
  unfold newEq
  rw [if_neg (by rw [hr]; simp), if_neg (by rw [hi]; simp), if_neg hab]
  cases s.value a with
  | none => cases s.value b with
    | none => rfl
    | some y => cases y <;> rfl
  | some x => cases s.value b with
    | none => cases x <;> rfl
    | some y => cases x <;> cases y <;> rfl

theorem newEq_keeps {E : Env} {s s' : Sat T} {a b r : Lit} (h : s.newEq E a b = .ok (s', r)) : KeepsEx s s' := by
  by_cases hr : s.root = false
  · unfold newEq at h; rw [if_pos hr] at h; cases h
  by_cases hi : s.inRange [a, b] = false
  · unfold newEq at h; rw [if_neg hr, if_pos hi] at h; cases h
  by_cases hab : a = b
  · unfold newEq at h; rw [if_neg hr, if_neg hi, if_pos hab] at h
    injection h with h; injection h with e1 e2; subst e1; exact .refl _
  rw [newEq_eq E s a b (by simpa using hr) (by simpa using hi) hab] at h
  split at h
  · injection h with h; injection h with e1 e2; subst e1; exact .refl _
  · split at h
    · injection h with h; injection h with e1 e2; subst e1; exact .refl _
    · next hl => exact define_keeps (newVar_keeps s) hl h

/-- Nothing cached is lost along a history. -/
theorem step_keepsEx {E : Env} {O : TheoryOps T} {C : Contract O} {s s' : Sat T} {op : Op} {out} (h : s.RInv C)
    (hsf : op = .simplify → ∀ u, s.propagate E O = .ok (u, true) → u.Fix u.okQ) (hs : s.step E O op = .ok (s', out)) : KeepsEx s s' := by
  cases op with
  | newVar =>
    injection hs with hs; injection hs with e1 e2
    exact e1 ▸ newVar_keeps s
  | newClause ls =>
    obtain ⟨⟨u, b⟩, h1, h2⟩ := map_ok hs
    injection h2 with e1 e2; subst e1
    exact .of_exprs (newClause_exprs h1).1
  | newEq a b =>
    obtain ⟨⟨u, r⟩, h1, h2⟩ := map_ok hs
    injection h2 with e1 e2
    exact e1 ▸ newEq_keeps h1
  | newConj ls =>
    obtain ⟨⟨u, r⟩, h1, h2⟩ := map_ok hs
    injection h2 with e1 e2
    exact e1 ▸ newConj_keeps h1
  | newDisj ls =>
    obtain ⟨⟨u, r⟩, h1, h2⟩ := map_ok hs
    injection h2 with e1 e2
    exact e1 ▸ newDisj_keeps h1
  | newAMO ls =>
    obtain ⟨⟨u, r⟩, h1, h2⟩ := map_ok hs
    injection h2 with e1 e2
    exact e1 ▸ (newAMOGo_cached _ h1).2.2.1
  | newEXO ls =>
    obtain ⟨⟨u, r⟩, h1, h2⟩ := map_ok hs
    injection h2 with e1 e2
    exact e1 ▸ (newEXO_cached h1).2.2.1
  | assume p =>
    obtain ⟨⟨u, b⟩, h1, h2⟩ := map_ok hs
    injection h2 with e1 e2; subst e1
    exact .of_exprs ((assume_spec h.inv h1).facts h.inv).exprs
  | pop =>
    obtain ⟨u, h1, h2⟩ := map_ok hs
    injection h2 with e1 e2; subst e1
    exact .of_exprs (pop_inv h.inv h1).evo.exprs
  | propagate =>
    obtain ⟨⟨u, b⟩, h1, h2⟩ := map_ok hs
    injection h2 with e1 e2; subst e1
    exact .of_exprs (propagate_spec h.inv h1).evo.exprs
  | next =>
    obtain ⟨⟨u, b⟩, h1, h2⟩ := map_ok hs
    injection h2 with e1 e2; subst e1
    rcases next_spec h.inv h1 with ⟨-, h3, -⟩ | ⟨-, a⟩
    · have h3 : s' = s := h3
      rw [h3]; exact .refl s
    · exact .of_exprs a.exprs
  | check ls =>
    obtain ⟨⟨u, b⟩, h1, h2⟩ := map_ok hs
    injection h2 with e1 e2; subst e1
    exact .of_exprs (check_spec h.inv h1).exprs
  | simplify =>
    obtain ⟨⟨u, b⟩, h1, h2⟩ := map_ok hs
    injection h2 with e1 e2; subst e1
    exact .of_exprs (simplifyDb_spec h.inv (hsf rfl) h1).exprs
  | bind v i =>
    injection hs with hs; injection hs with e1 e2; rw [← e1]
    exact .of_exprs rfl
  | listen v l =>
    injection hs with hs; injection hs with e1 e2; rw [← e1]
    unfold listen
    split <;> exact .of_exprs rfl

theorem Later.keeps {E : Env} {O : TheoryOps T} {C : Contract O} {s s' : Sat T} (h : Later E C s s') (hs : Reach E C s) : KeepsEx s s' := by
  induction h with
  | refl => exact .refl s
  | step hl hf hst ih => exact ih.trans (step_keepsEx (hl.reach hs).rinv hf hst)
  | theory hl _ _ ih => exact ih.trans (.of_exprs rfl)

theorem named_key (k : Kind) (ls : List Lit) : Named (key k ls) := fun n => key_ne_var k ls n

end Sat
end Semitone
