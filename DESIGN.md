# Formal model of ratioSolver/SeMiTONE in Lean 4

## Method

The C++ in `/repo` is read as text and transcribed, function by function, into total computable Lean
functions under `lean/Verif`. Every model definition cites the file and lines it models and says what it
simplifies. Properties (file `properties.jsonl`) are stated in separate `Props*.lean` files against small
specifications (`*/Spec.lean`) that do not mention solver bookkeeping.

* **Undefined behaviour and assertions are outcomes.** Model functions that can hit an `assert`, an
  out-of-range access, `vector::back()` on an empty vector or an exception escaping `noexcept` return
  `Except Err _` with `Err.assert`, `Err.ub`, `Err.terminate`. Exceptions the API documents
  (`std::invalid_argument` in the difference-logic constructors) are `Err.invalid`.
* **Unspecified behaviour is a parameter.** `std::sort` is not stable: the model takes an arbitrary sorting
  function (an `Env` structure carrying "is a permutation" and "is sorted") and every theorem holds for all of them.
* **Theories are a parameter of the core.** `sat_core` is modelled with an abstract theory interface
  (propagate / check / push / pop; a theory acts on the core only by recording clauses and by returning a
  conflict). The soundness theorems hold for every theory whose lemmas are valid; LRA is then shown to be such a
  theory, difference logic is shown not to be (with witnesses).
* **Loops.** `propagate`, `analyze`, `pop` recurse on fuel computed from the state; running out of fuel is a distinct
  outcome (`Err.fuel`) that is proved impossible on legal histories. The simplex loop takes a fuel argument.
* **Ghost state.** `Sat.posted` records the clauses the user posted (and the blocking clauses of `next`), `Sat.dead`
  that a definitive inconsistency was reported. Nothing in the model reads them.

## Properties: what is modelled and how it is proved

| id | model | proof |
|----|-------|-------|
| C01 | `Lit.lean`: 64-bit literal on `BitVec 64`, and the abstract literal used elsewhere | bit-vector arithmetic lemma, encoding isomorphism |
| C02–C05 | `Sat/Model.lean`, semantics `Sat/Spec.lean` | invariant "stored clauses and assigned literals are entailed" by induction over API histories; resolution invariant of `analyze` |
| C06, C07 | same | two-watched-literal invariant by induction over histories |
| C08 | same | structural invariants (trail segments, reasons precede, counts) exclude every error outcome; decreasing measure for the loops |
| C09, C10 | same | trail segment lemmas |
| C11, C12 | same | corollaries of C03, C09, C10; the "context is unchanged" half of C11 is false when the learnt clause backjumps below the caller's level: witness + `_partial` |
| C13, C14 | same | entailment plus explicit extension of models to the fresh variable |
| C15 | same | false when one operand is assigned and the signs differ: witness + `_partial` |
| C16, C17 | same | false when one of the literals is already true (and, for exactly-one, a single negative literal; at-most-one and exactly-one share their control literal): witnesses + `_partial`; product encoding by strong induction on the number of literals |
| C18 | string keys as in the code | injectivity of the rendering |
| C19, C20 | same | invariants |
| C21 | listener table and notification log in the model | per-step lemma; false for listeners registered while the variable is assigned above root: witness + `_partial` |
| C22 | same | invariant |
| C23–C26 | `Lin/Model.lean`: sorted association list for `std::map` | induction over terms; `+`, `*=`, unary `-`, `c - a` are wrong in the code: witnesses + `_partial` |
| C27–C29, C31 (distances), C36 | `DL/Model.lean`, generic in the ordered group of distances (integers; rationals with infinitesimals) | closure of the incremental shortest-path update; backtracking invariant |
| C30, C31 (predecessors) | same, with `_preds`, `dist_constr`, layers | false: `set_pred` saves `from` instead of the old predecessor; `dist_constr.emplace` does not replace: witnesses; `_partial` under the conditions in which it holds |
| C32–C35 | same + `Lin` | case analysis; `new_gt` of IDL, `bounds`, `distance`, `matches` are wrong: witnesses + `_partial` |
| C37 | sentinel/64-bit version of the update | simulation under a magnitude invariant |
| C38–C43, C45 | `LRA/Model.lean` | solution set of the tableau is invariant under pivoting; non-basic variables within bounds; Farkas argument |
| C41 | same | Bland's rule argument on the (finite) set of bases |
| C43, bounds | `LRA/Free.lean`: histories without restriction on `new_var(l)` | the saved bounds of the levels determine the bounds at every level; each call keeps them |
| C44 | `LRA/Model.lean` | substitution of basic variables preserves value |
| C46 | `LRA/Spec.lean` | existence of a small enough positive epsilon |
| C47 | same | false: the copy does not register rows in `t_watches`; witness |
| C48 | `Sat` instantiated with `LRA` | instance of the theory contract |
| C49–C51 | `OV/Model.lean` on top of `Sat` | from C17 (fresh literals), C02, C03 |
| C52 | `OV/Listen.lean`: listeners on object variables | notification invariant of C21 over the literals of a domain |
| C53 | `DL/Copy.lean`: copy constructors of the difference-logic theories | the registered constraints determine every entry, so the copy equals the original |
| C54 | `LRA/Session.lean`: sessions `ZReach` (legal calls of the core and the theory) | every session is a history of C44/C48; the hypothesis of those on `simplify_db` is discharged by liveness |
| C55 | `Sat/Live.lean`, `Sat/LiveOps.lean`: what a theory must guarantee for the core never to fail (`Live`); `LRA/Live*.lean`: linear arithmetic does | invariant `LiveD` kept by every call; conflicts have a literal of the current level because the previous levels are consistent with the theory |
| C56 | `LRA/Values.lean`, `LRA/Firm.lean`, `LRA/Play.lean` | values within bounds after a successful `check`, rationals from infinitesimals by C46; for every session, with no safety condition on its propagations, by the lighter invariant `Calm` |
| C57 | `Sat/Search.lean`: the client `solve` with any heuristic | numbers of variables assigned at levels ≤ i grow lexicographically with every decision; right answers by C06, C56 |
| C58 | `lst` and the ghost `told` in `LRA/Model.lean`; `Sat/Keep.lean`: what every call of a theory keeps, every call of the core keeps | transitive relation `Tells` kept by every update of a value |
| C59 | `lst` and the ghost `told` in `DL/Model.lean`; `DL/Listen.lean` (which also proves that the theory inside the core only goes through the histories of `DL/Hist.lean`) | relation `Tells` kept by every update of a distance; `pop` only relaxes because distances are shortest paths; false for equality after `pop`: witness + `_partial` |
| C60 | `DL/Session.lean`: sessions `DSess` (legal calls of the core and the theory); `Sat/Guarded.lean`: a theory with some calls excluded behaves like the theory or fails with the exclusion | every session is a history of C30; false after unsafe propagations: witness + `_partial` |
| C61 | `DL/Live.lean`: difference logic is a live theory up to excluded propagations | `step_live`; false after unsafe propagations: witness + `_partial` |
| C62 | `Sat/Trail.lean` … `Sat/SteadyOps.lean`: what every run that does not fail keeps, for a theory that only keeps its own invariant (`Firm`), whatever clauses it records; `DL/Firm.lean`, `DL/Play.lean`: difference logic, sessions `Play` without exclusions | invariant `Calm`: posted clauses stay watched through conflicts and backjumps driven by wrong lemmas; potentials of the closed distance matrix (Bellman–Ford style, `far_pot`) satisfy the told literals; the distances decide no unassigned literal |
| C63 | `Sat/Search.lean` with permitted failures | as C57 |
| C64 | `Text/Lin.lean`: `to_string(lin)` as text; `Text/Caches.lean`: the keys of `s_asrts` and of `ov_theory::exprs`; printing of rationals is a parameter | unique reading, by induction on the terms; lookup by text = lookup by expression |
| C65 | `Text/Json.lean`: `to_json` of cores, clauses, assertions, rows, linear arithmetic | injectivity of the fields and of the lists |
| C66 | `Sat/Prod.lean`: a core with two families of theories (identifiers, `propagate`, `check`, `push`, `pop` routed by identifier); `Sat/View.lean`: how one theory sees the core; `Mix/Model.lean`, `Mix/Session.lean`: linear arithmetic and difference logic | product of the contracts; each theory is right about the solutions the other one allows (`LRA.SInv`, `DL.SInv` with an extra constraint `Z` on the assignment) |
| C67 | `Mix/Session.lean`, sessions `Mix.Sess` | product of the liveness conditions (`Live.prod`); the literals of the two theories are different, so solutions of each can be joined (`Joins`) |
| C68 | `Mix/Session.lean`, `Sat/FirmProd.lean`, `Mix/Play.lean` | the product of two firm theories is firm, even when one of them records wrong clauses; the invariants of C56 and C62 on the two views |
| C69 | `Sat/Search.lean` | as C57 and C63 |
| C70 | `Sat/Share.lean`, `Sat/PropsS.lean`, `LRA/PropsS.lean` | the cache of expressions only grows along a history; the key is a function of the set of operands |
| C71 | `Sat/PropsM.lean`, `Mix/PropsM.lean` | from the watch-count and reason invariants of WF: `deleteAll` over all clauses succeeds and leaves nothing |
| C72 | `Sat/Halt.lean`, `Sat/HaltOps.lean`, `Mix/Halt.lean` | the measure of a conflict (levels, then assigned variables) decreases whatever clauses the theories record, on the invariant of the sessions without exclusions (`Calm`) |
| C73 | `Mix/Halt.lean` | weight of the trail (number in base n+2) grows at each decision; registrations kept by the theories |
| C74 | `Sat/Frame.lean`, `Sat/Vow.lean`, `Sat/VowAmo.lean`, `Sat/VowOps.lean`, `DL/Vow.lean`, `LRA/Vow.lean`, `Mix/Vow.lean` | meaning relative to the assignments that satisfy the posted clauses and the root-level literals (`Rt`), never using the recorded lemmas; posted clauses, root literals, cached expressions and registrations persist; the final assignment is one of them |
| C75 | `Lib/Comp.lean`, `OV/Firm.lean`, `OV/Comp.lean`, `Lib/Inst.lean`, `Lib/Props.lean`, `Lib/Demo.lean` | a theory with its clients is a `Comp` (what it keeps, what its calls do, what its values satisfy); two of them on one core are again one (`Comp.prod`), so the theorems range over all products; `Within` picks one theory |
| C76 | `Lib/Halt.lean` | the weight of the trail as for C73, for any product |
| C77 | `Lib/Duty.lean`, `Lib/DutyInst.lean`, `Lib/DutyOV.lean`, `Lib/Sess.lean`, `Lib/Family.lean`, `Lib/FamilyUse.lean`, `Lib/Decide.lean`, `Lib/Families.lean`, `Lib/FamilyDemo.lean` | what a theory owes to the core (`Duty`: its lemmas are right about the assignments the other theories allow, its liveness, its network) is closed under products (`Duty.prod`); `Family` lists the products the library can build and gives their networks (`Net`, `Model`) without reference to the duties; families with difference logic: the `_partial` theorems, calls that reach its explanation bugs excluded |
| C78 | the same | liveness of the core with the duties (`step_live`): the only possible failure is the one that stands for difference logic in an unsafe situation, which a plain family cannot raise |
| C79 | the same | soundness of `false` from C77, the solution of `true` from C75/C76 |
| C80 | `Sat/StackT.lean`: `sat_stack::push`, `pop` with theories; `Sat/Bal.lean`: the calls a core makes on its theories | every operation of the core opens and closes as many theory layers as its own level changes (`step_tc`), the layers below are kept (`Layered`), hence restored by `pop`; `Lib/Stack.lean`: any number of theories (`Kit.prod`), stacks inside the session (`Works.inner`); full statement false: witnesses |
| C81 | `Sat/Under.lean`: a theory together with its saved states; `Sat/Tower.lean`: the core pushed with live theories; `Sat/With.lean`, `Sat/Pile.lean`: stacks of any depth; `Lib/StackSess.lean`, `Lib/Stacks.lean` (`Comp.StackSession`, theorems), `Lib/StacksDemo.lean` (concrete session) | a pushed core is live again with the theories seen as theories whose lowest layer is that of the core below (`conOn`, `liveOn`), whatever the decision level they were saved at; `pop` restores that layer (C80) and with it the invariants of the core below (`pop_fine`); stacks by induction on the depth (`Pile`); what the theories report on the top core is right (`Duty.tell`), and what they report at the end of a search is a solution (`Comp.ends`: their levels are those of all the cores); difference logic: `_partial`, its explanation bugs excluded |
| C82 | `Lib/Talk.lean`: specification without reference to the solver's state: requests (`Said`), what they mean (`Said.holds`), the solutions of a list of requests (`Meets`), the client (`Talk`); proofs in `Lib/TalkBase.lean`, `TalkCore.lean`, `TalkTheory.lean`, `TalkProps.lean`; concrete clients in `Lib/TalkDemo.lean` | invariant `Told`: every solution of the network meets the requests, every solution of the requests extends to one of the network that agrees on what the client knows; kept by each request (C77: the new literal means what it should, no solution is lost) and by search (the network does not change); then C77–C79. Not covered: difference logic, `new_eq`/at-most-one/exactly-one of the core (wrong: C15, C16, C17), `new_var(lin)` with a known term or over basic variables (wrong: C38, C42) |
| C83 | `Lib/StackTalk.lean`: specification: the problem of each core (`assuming`: what was asked below and the decisions open at `push`), the client of a stack (`StackTalk`); proofs in `Lib/StackTold.lean`, `StackTalkProps.lean`; concrete clients in `Lib/StackTalkDemo.lean` | every core of the stack keeps the invariant `Told` of C82 with respect to its own problem: the signature of the theories (`Duty.sg`, what they have of variables and definitions) is the same on all cores, so what the requests below say of them still holds on top (`Family.Wider`); `push` adds the decisions as unit clauses on both sides (`told_push`), `pop` gives back the core below (`told_pop`); then C81. Requests that change the theories: only with one core (C80) |
| C84 | `Lib/Talk.lean` again, with time points, distances and relations of integer difference logic (`Said.point`, `Said.apart`, `Said.between`; not the case of `new_gt` in which its literal is wrong, C33), the core calling the theories through `Family.safe` (`SafeTalk`); proofs in `Lib/TalkSafe.lean`; concrete clients in `Lib/TalkSafeDemo.lean` | the invariant `Told` of C82 (it was stated for any family; the solutions of the network agree with those of the requests on every time point: `Agrees.pts`), a step by `Family.safe` that is not refused is a step of the code (`safe_step`), then C77, C79. Partial: the refused steps are where difference logic records wrong explanations (C63, C66) |
| C85 | `Lib/StackTalk.lean` with the top core calling the theories through `Family.safe` (`SafeStackTalk`); proofs in `Lib/StackSafe.lean`; concrete clients in `Lib/StackSafeDemo.lean` | the invariant of C83 (`told_push`, `told_pop` are for any family) over the sessions `Family.Stack` of C81's partial theorems; the time points are the same on all cores (`Agrees.pts`). Partial: as C84 |

No property is "not applicable".

## Trusted base

* Lean 4.33.0's kernel; the axioms `propext`, `Classical.choice`, `Quot.sound` (nothing else; no `native_decide`, no `bv_decide`).
* The reading of the C++ (this is not checked by anything).
* The external library (`utils`: rational, inf_rational, lbool, json, pointers) is not in the repository. `rational` is
  modelled as ℚ, `lbool` as `Option Bool`.

Every theorem listed in `MANIFEST.json` depends on a subset of these three axioms (`vcheck` prints them).

## What is modelled

| code | model | remarks |
|------|-------|---------|
| `include/lit.h` | `Lit.lean` | the packed word on `BitVec 64`; everywhere else a pair (variable, sign) |
| `utils::lbool` (external) | `Option Bool` | |
| `sat_core`, `clause`, `constr`, `theory`, `sat_value_listener.h`, `sat_stack` (`src`, `include`) | `Sat/Model.lean` (815 lines), one definition for each function | clauses are stored in a list with identifiers, watch lists hold identifiers; reasons are clause identifiers; `exprs` is keyed by the same strings as the code; `posted`, `dead`, `log` are ghosts |
| `sat_stack` with theories | `Sat/StackT.lean` | the theories, shared by all cores, are kept in the state of the top core; the same theories are attached to all the cores of the stack; variable numbers of the dropped core may be given again by the core below, where `emplace` on the maps of the theories keeps the old entry: not modelled after a `pop` |
| `src/arith/lin.cpp`, `include/arith/lin.h` | `Lin/Model.lean` | `std::map` is a sorted association list; `rational` is ℚ (infinite and undefined values of `utils::rational` do not appear) |
| `idl_theory`, `rdl_theory` | `DL/Model.lean`, parametrised by the group of distances | infinity is `⊤`; two classes are one model with two instances after checking that the code differs only in the step (`-d - 1` against `-d - eps`) and in the constructors, which are modelled twice |
| `idl_theory` with machine integers | `DL/Overflow.lean` | every 64-bit operation is checked; `inf()` is the sentinel of the code |
| `lra_theory`, `lra_constraint` | `LRA/Model.lean` | tableau rows as maps, `t_watches` as lists traversed in an arbitrary order (parameter); the simplex loop has fuel `4^n + 1`, proved sufficient |
| several theories on one core (`sat_core.h` vector `theories`, `bounds`) | `Sat/Prod.lean`, `Sat/View.lean`, `Mix/Model.lean`, `Lib/Comp.lean` | two theories (any number in `Lib/`), checked in the order arithmetic, difference logic (`check` of the difference-logic theories does nothing, so the order does not matter); a call on one theory is the call on a core that only has this theory (`Sat.left`, `Sat.right`), whose effects are put back (`Sat.putL`, `Sat.putR`) |
| `ov_theory`, `ov_value_listener.h` | `OV/Model.lean`, `OV/Listen.lean` | maps are traversed in an arbitrary order (parameter) |

## What is not modelled

* The examples, the build system, the tests, the `json` library (dumps are modelled in `Text/Json.lean` as trees; `lra_theory.cpp:511,517` call `get_array().reserve` on a moved-from value, assumed without effect).
* The `utils` library: rationals are exact (its overflow checks are not in the repository), `inf_rational` is the ordered
  ℚ-vector space ℚ × ℚ with lexicographic order; printing a rational is assumed injective, with digits and `/` only (`RatText`, `InfText` in `Text/`).
* `theory::swap_conflict` (`theory.cpp:13`): nothing calls it; the conflict of a theory is returned by `propagate` and `check` of the model instead of being left in `cnfl`.
* What the callbacks of listeners do (they are assumed not to call the solver back).
* Memory management (`new`/`delete`, dangling listeners after the destruction of a theory) and concurrency (the code has none).
* Hash order of `std::unordered_map/set` is an arbitrary function, the same for equal inputs; `std::sort` likewise.
* Building without assertions: a failing `assert` is an error outcome of the model, so a theorem saying "no error" covers both builds.

## Where the code and its intent disagree

The theorems named `_witness`, `_wrong`, `_lost` … exhibit these on reachable states.

1. `lin operator+` counts the left known term twice (C23); unary `-` and `c - a` terminate the program (C24); `a *= c` does not scale the known term (C25).
2. `sat_core::check` loses the caller's context when the learnt clause backjumps below it (C11).
3. `new_eq` on a decided operand returns the wrong sign (C15); `new_at_most_one` and `new_exct_one` are wrong on true literals and duplicates (C16, C17) and share a cache key (C17).
4. `next()` with no decision is undefined (C08, precondition stated).
5. Listeners registered above root level, or only in a pushed core, miss changes (C21, C52, C58, C59); listeners of difference logic are not told when backtracking relaxes bounds (C59).
6. Difference logic: `set_pred` saves the wrong value and `dist_constr.emplace` does not replace, so explanations can be invalid (C30, C31); `new_gt` of IDL is wrong (C33); `bounds`, `distance`, `matches` are wrong on negative coefficients and known terms (C35); capacity 0 leaves time points outside the matrix (C36); a distance of `inf()` is taken for "always true" (C37).
7. LRA: `new_var(l)` with a basic variable in `l` breaks the tableau (C38; as a consequence C39, C40, C41 and the consistency part of C43: witnesses in `LRA/Free.lean`); row propagation ignores the known term of a row (C42; as a consequence C44 and C48, same file); the copy constructor does not fill `t_watches` (C47); `row::propagate_ub` tests the bound of the wrong variable (harmless).
8. `theory::backtrack_analyze_and_backjump` does not clear `cnfl` at root level.
9. `sat_stack::pop` closes one layer of each theory, whatever the decisions open in the dropped core; the literals of relations first asked for on the pushed core stay in `s_asrts`, the bounds of slack variables defined on the pushed core (derived from its bounds, with reason TRUE) stay, so that later "no solution" can be wrong; the constraints of difference logic stay with literals the core below lacks, which ends the program (C80).
