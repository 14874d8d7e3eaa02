import Verif.Lib.Talk
import Verif.Lib.Stacks

/-!
# What the client of a stack of cores has asked for

`StackTalk f l U`: a client of a stack of cores (`sat_stack.h`, `sat_stack.cpp`) can bring it to `l`: the cores, newest first, each with the requests that make its problem (the last one first) and its flag (as in `Comp.StackSession`).
Requests go to the top core; `push` makes a problem out of the one below and the decisions taken there; `pop` drops the problem on top, and the one below is as it was.
-/
namespace Semitone
namespace Family
variable {E : Env} {T : Type} {C : Comp T}

/-- The problem of the core that `push` puts on a core whose problem is `tr`, when the decisions `ds` are open. -/
def assuming {f : Family E C} (ds : List Lit) (tr : List (Said f)) : List (Said f) := ds.map (fun p => .clause [p]) ++ tr

/-- The stacks to which the client can come. `U`: what was imposed on the theories (as in `Comp.Session`); `O`: the theories, as the top core calls them. -/
inductive StackTalkOn (f : Family E C) (O : TheoryOps T) : List (List (Said f) × Sat T × Bool) → C.Dat → Prop
  | init {t} : C.Start t → StackTalkOn f O [([], Sat.init t, false)] C.d0
  | search {tr S d rest U op S' out} : StackTalkOn f O ((tr, S, d) :: rest) U → Searches op → S.Legal op → LRA.MayCall op d → S.step E O op = .ok (S', out) → StackTalkOn f O ((tr, S', LRA.pendingAfter op d) :: rest) U
  | core {tr S d rest U op S' out e} : StackTalkOn f O ((tr, S, d) :: rest) U → AsksCore f tr op out e → S.Legal op → LRA.MayCall op d → S.step E O op = .ok (S', out) →
      StackTalkOn f O ((e :: tr, S', LRA.pendingAfter op d) :: rest) U
  | next {tr S d rest U S' out} : StackTalkOn f O ((tr, S, d) :: rest) U → S.root = false → (∀ l ∈ S.decisions, Known tr l.var) → S.Legal .next → LRA.MayCall .next d → S.step E O .next = .ok (S', out) →
      StackTalkOn f O ((.clause (S.decisions.map Lit.neg) :: tr, S', LRA.pendingAfter .next d) :: rest) U
  | theory {tr S d U S' U' d' e} : StackTalkOn f O [(tr, S, d)] U → S.dead = false → S.root = true → AsksTheory f tr S U e S' U' → (d' = true ∨ U' = U ∧ d' = d) → StackTalkOn f O [(e :: tr, S', d')] U'
  | allows {tr S d rest U} {A : Type} [DecidableEq A] {D : OEnv A} (W : (Family.object (E := E) D).Has f) {v : Nat} {a : A} : StackTalkOn f O ((tr, S, d) :: rest) U → S.dead = false → KnownObj tr W v →
      StackTalkOn f O ((.allows W v a ((W.within.th S.th).allows v a) :: tr, S, d) :: rest) U
  | push {tr S c rest U} : StackTalkOn f O ((tr, S, false) :: rest) U → S.dead = false → S.propQ = [] → (∀ p ∈ S.decisions, S.value p = some true) → (∀ p ∈ S.decisions, Known tr p.var) →
      Sat.pushTop E C.ops (S :: rest.map (fun r => r.2.1)) = .ok (c :: S :: rest.map (fun r => r.2.1)) → StackTalkOn f O ((assuming S.decisions tr, c, false) :: (tr, S, false) :: rest) U
  | pop {tu u d' tr S d rest U S'} : StackTalkOn f O ((tu, u, d') :: (tr, S, d) :: rest) U → u.root = true → Sat.popTop C.ops (u :: S :: rest.map (fun r => r.2.1)) = .ok (S' :: rest.map (fun r => r.2.1)) →
      StackTalkOn f O ((tr, S', d) :: rest) U

/-- The stacks to which the client can come. -/
abbrev StackTalk (f : Family E C) : List (List (Said f) × Sat T × Bool) → C.Dat → Prop := StackTalkOn f C.ops

/-- The same, as long as no theory of difference logic is told a literal in an unsafe situation (`Family.safe`). -/
abbrev SafeStackTalk (f : Family E C) : List (List (Said f) × Sat T × Bool) → C.Dat → Prop := StackTalkOn f f.safe

end Family
end Semitone
