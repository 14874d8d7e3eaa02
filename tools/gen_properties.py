#!/usr/bin/env python3
"""Writes /verif/properties.jsonl (one JSON object per line)."""
import json, os
P=[]
def p(id,title,statement,quantifier,why,anchors):
    P.append(dict(id=id,title=title,statement=statement,quantifier=quantifier,why_tests_cant=why,anchors=anchors))

# ---------------- literals
p("C01","Literals encode and decode losslessly",
  "For every variable number below 2^63 - 1 and every sign, lit(v, sign) gives back that variable and that sign, `!` flips exactly the sign, `!!p == p`, `p != !p`, distinct (variable, sign) pairs give distinct literals and distinct indices, and no such literal is the undefined literal lit() or its negation.",
  "every 64-bit variable number below 2^63-1 and both signs",
  "the domain has 2^63 values and the interesting ones are at the wrap-around of the 64-bit shift; tests use variables 2, 3, 4",
  ["include/lit.h:lit","include/lit.h:variable","include/lit.h:sign","include/lit.h:is_undefined","include/defs.h"])

# ---------------- sat core: clauses, propagation
p("C02","new_clause adds exactly the clause it was given",
  "After new_clause(lits) the total assignments compatible with the network are exactly those compatible before that also satisfy lits, whatever filtering, reordering or unit assignment happens inside; and new_clause returns false only if no total assignment satisfies everything posted so far.",
  "every reachable network state at root level, every vector of literals (duplicates, complementary literals, already assigned literals, empty) and every order std::sort may leave ties in",
  "the filtered clause depends on the whole assignment at the time of the call and on unspecified sort order",
  ["src/sat_core.cpp:sat_core::new_clause"])
p("C03","Everything the network derives is a consequence",
  "In every state reached by any sequence of API calls, a literal that value() reports True is implied by the clauses posted so far, the background theories and the decisions currently on the stack up to the level at which it was assigned; in particular what is True at root level is implied with no decision at all.",
  "every finite sequence of API calls (new_var, new_clause, the reified constructors, assume, pop, propagate, next, check, simplify_db), every sort order, every background theory that explains itself with valid clauses",
  "soundness of conflict-driven learning depends on arbitrarily long interleavings of propagation, backjumping and learning",
  ["src/sat_core.cpp:sat_core::propagate","src/sat_core.cpp:sat_core::enqueue","src/clause.cpp:clause::propagate"])
p("C04","Learnt no-goods are consequences",
  "Every clause the network holds after any history, including all no-goods learnt from conflicts of clauses or theories, is implied by the clauses posted by the user (plus the background theory): learning never removes a solution.",
  "every API history and every conflict, of clauses or of theories",
  "a wrong resolution step only shows on particular implication graphs; the tests exercise one",
  ["src/sat_core.cpp:sat_core::analyze","src/sat_core.cpp:sat_core::record","src/theory.cpp:theory::analyze_and_backjump"])
p("C05","A false answer from propagate is definitive",
  "If propagate() (or assume(), next(), simplify_db()) returns false because of a conflict at root level, then the posted clauses together with the theories have no solution at all, independently of any further assumption.",
  "every API history",
  "unsatisfiability is a universally quantified statement over all assignments",
  ["src/sat_core.cpp:sat_core::propagate","README.md"])
p("C06","propagate reaches a fixpoint",
  "When propagate() returns true, every clause posted so far is either satisfied by the current assignment or has at least two unassigned literals: no clause is falsified and no unit clause has been missed, also after any number of backjumps and pops.",
  "every API history of the propositional core, every posted clause",
  "the two-watched-literal bookkeeping has to survive every interleaving of backjumps and watch moves",
  ["src/sat_core.cpp:sat_core::propagate","src/clause.cpp:clause::propagate","src/sat_core.cpp:sat_core::pop"])
p("C07","A complete assignment is a model",
  "If propagate() returned true and every variable has a value, then the assignment reported by value() satisfies every clause the user posted.",
  "every API history of the propositional core that ends in a total assignment",
  "needs the fixpoint property for every history",
  ["src/sat_core.cpp:sat_core::propagate","include/sat_core.h:value"])
p("C08","propagate terminates and never trips an internal assertion",
  "On every history that respects the documented preconditions (constraints at root level, empty queue before assume, no call after a definitive inconsistency, next only after an effective decision) every call terminates and no internal assert, out-of-range access or null dereference is reached.",
  "every legal API history of the propositional core",
  "assertions inside conflict analysis depend on the shape of the whole implication graph",
  ["src/sat_core.cpp:sat_core::analyze","src/sat_core.cpp:sat_core::record","src/clause.cpp:clause::get_reason"])
p("C09","Backjumping only removes decisions",
  "After assume(p), propagate() or check(), the decision stack is a prefix of the stack just after the decision was pushed; each conflict strictly lowers the decision level and afterwards the learnt clause has made one of the undone variables assigned.",
  "every API history",
  "depends on the backtrack level computed for arbitrary conflicts",
  ["src/sat_core.cpp:sat_core::analyze","src/sat_core.cpp:sat_core::pop","include/sat_core.h:get_decisions"])
p("C10","pop restores the context prior to the assumption",
  "pop() undoes exactly the last decision level: every variable assigned at a lower level keeps its value and level, every variable assigned at the popped level becomes Undefined, and if assume(p) did not backjump then value(), level and decisions after assume(p); pop() equal those before assume(p).",
  "every reachable state and every literal",
  "must hold for every amount of propagation performed between assume and pop",
  ["src/sat_core.cpp:sat_core::assume","src/sat_core.cpp:sat_core::pop","src/sat_core.cpp:sat_core::pop_one"])
p("C11","check(lits) answers soundly and leaves the context as it found it",
  "check(lits) returning false means the literals are inconsistent with the posted clauses, theories and current decisions; when it returns, with either answer, the decisions and the assignment of the caller's levels are those before the call.",
  "every reachable state and every vector of literals",
  "the failing call backjumps to a level determined by the learnt no-good",
  ["src/sat_core.cpp:sat_core::check"])
p("C12","next() enumerates without repetition",
  "next() at root level returns false and changes nothing; otherwise it drops the last decision and excludes exactly the current combination of decisions: no later state can have all of those decisions true again.",
  "every reachable state with at least one effective decision and every continuation",
  "quantifies over all later histories",
  ["src/sat_core.cpp:sat_core::next"])
p("C13","new_conj is a definitional reification",
  "new_conj(ls) returns a literal r such that in every solution of the resulting network r is true iff all of ls are true, and every solution of the network before the call extends to one after it (only fresh variables are constrained).",
  "every reachable root state and every vector of literals",
  "must hold for every assignment, with duplicates, complementary and already decided literals, and for cached expressions",
  ["src/sat_core.cpp:sat_core::new_conj"])
p("C14","new_disj is a definitional reification",
  "new_disj(ls) returns a literal r such that in every solution of the resulting network r is true iff at least one of ls is true, and every solution before the call extends to one after it.",
  "every reachable root state and every vector of literals",
  "as for new_conj",
  ["src/sat_core.cpp:sat_core::new_disj"])
p("C15","new_eq is a definitional reification",
  "new_eq(a, b) returns a literal r such that in every solution of the resulting network r is true iff a and b have the same truth value, and every solution before the call extends to one after it.",
  "every reachable root state and every pair of literals of either sign, assigned or not",
  "9 value combinations times signs times caching; the tests only use unassigned variables",
  ["src/sat_core.cpp:sat_core::new_eq"])
p("C16","new_at_most_one constrains at most one literal",
  "new_at_most_one(ls) returns a literal r such that in every solution of the resulting network where r is true at most one of ls is true, every solution before the call with at most one of ls true extends to one where r is true (for an expression not requested before), and every solution before the call extends to some solution after it.",
  "every reachable root state and every vector of literals of every length (pairwise and product encodings, recursively)",
  "the product encoding recurses on ceil(sqrt n) fresh variables; correctness is needed for every n",
  ["src/sat_core.cpp:sat_core::new_at_most_one"])
p("C17","new_exct_one constrains exactly one literal",
  "new_exct_one(ls) returns a literal r such that in every solution of the resulting network where r is true exactly one of ls is true, every solution before the call with exactly one of ls true extends to one where r is true (for an expression not requested before), and every solution before the call extends to some solution after it.",
  "every reachable root state and every vector of literals",
  "as for new_at_most_one, plus the already-satisfied and singleton cases",
  ["src/sat_core.cpp:sat_core::new_exct_one"])
p("C18","Expression sharing never confuses two expressions",
  "A lookup never returns a literal cached for another expression: the textual keys of the cache are injective, two expressions having the same key only if they are of the same kind over the same literals; and a cached literal keeps its meaning in every later state.",
  "every pair of expressions over any number of variables",
  "key collisions are a property of all strings of digits",
  ["src/sat_core.cpp:exprs","include/lit.h:to_string"])
p("C19","simplify_db keeps the solutions",
  "simplify_db() never changes the set of solutions: it removes only clauses that are already satisfied at root level and only literals that are false at root level; it returns false only if there is no solution.",
  "every reachable root state",
  "needs the watch invariants of every reachable state (clauses are compacted in place)",
  ["src/sat_core.cpp:sat_core::simplify_db","src/clause.cpp:clause::simplify","src/clause.cpp:clause::~clause"])
p("C20","Copying a core freezes the current assignment",
  "The core created by copying (sat_stack::push) reports the same value for every variable as the original, all of them now being root-level facts; it contains the same constraints up to that assignment and satisfies the fixpoint property, and sat_stack::pop gives back the previous core unchanged.",
  "every reachable state (at any decision level) with an empty propagation queue",
  "the copy has to be valid at every decision level and watch configuration",
  ["src/sat_core.cpp:sat_core::sat_core(const sat_core&)","src/sat_stack.cpp"])
p("C21","Value listeners hear about every change",
  "A listener registered on a variable is notified each time the value of that variable changes (assignment, backtracking), and never for other variables.",
  "every history of registrations, assignments and backtracks",
  "depends on when the registration happened relative to assignments and root level",
  ["src/sat_core.cpp:sat_core::enqueue","src/sat_core.cpp:sat_core::pop_one","include/sat_core.h:listen"])
p("C22","Variables are never reused and FALSE_var is false",
  "new_var() returns a number never returned before, the new variable is unassigned, and FALSE_lit is False and TRUE_lit is True in every reachable state at every level.",
  "every API history",
  "quantifies over all histories, including backtracking to root",
  ["src/sat_core.cpp:sat_core::new_var","src/sat_core.cpp:sat_core::sat_core","include/lit.h:FALSE_lit"])

# ---------------- lin
p("C23","Sum of linear expressions",
  "For all linear expressions a, b and every valuation, evaluating a + b (and a after a += b, and c + a, a + c for a constant) gives the sum of the evaluations.",
  "all linear expressions and valuations",
  "algebraic law over unbounded expressions",
  ["src/arith/lin.cpp:lin::operator+","src/arith/lin.cpp:lin::operator+="])
p("C24","Difference of linear expressions",
  "For all linear expressions a, b and every valuation, evaluating a - b (and a after a -= b, a - c, c - a for a constant, and -a) gives the difference of the evaluations.",
  "all linear expressions and valuations",
  "algebraic law over unbounded expressions",
  ["src/arith/lin.cpp:lin::operator-","src/arith/lin.cpp:lin::operator-="])
p("C25","Scaling of linear expressions",
  "For every linear expression a, constant c and valuation, evaluating a * c, c * a, a *= c gives c times the evaluation of a; for c /= 0 the same for a / c and a /= c.",
  "all linear expressions, constants and valuations",
  "algebraic law over unbounded expressions",
  ["src/arith/lin.cpp:lin::operator*","src/arith/lin.cpp:lin::operator*=","src/arith/lin.cpp:lin::operator/","src/arith/lin.cpp:lin::operator/="])
p("C26","Linear expressions stay canonical",
  "Adding or subtracting expressions without zero coefficients never leaves a term with coefficient zero, each variable occurs at most once, and variables stay in increasing order, so the number of terms is the number of variables the expression really depends on.",
  "all canonical linear expressions",
  "the theories switch on the number of terms; a stale zero term changes the kind of constraint",
  ["src/arith/lin.cpp","include/arith/lin.h"])

# ---------------- difference logic
p("C27","Distances are consequences of the asserted constraints",
  "In every state of a difference-logic theory, every assignment of numbers to the time points that satisfies the currently asserted distance constraints (positively or negated) satisfies every bound reported by distance(from, to), lb(v), ub(v), bounds(v).",
  "every history of new_var, push, assertion of constraint literals and pop",
  "incremental all-pairs shortest paths over unbounded histories",
  ["src/arith/dl/idl_theory.cpp:idl_theory::propagate","src/arith/dl/rdl_theory.cpp:rdl_theory::propagate"])
p("C28","Distances are as tight as possible",
  "In every conflict-free state the reported distances are the shortest-path closure of the asserted constraints: zero diagonal, triangle inequality, every finite bound is attained by some solution, and the network has a solution.",
  "every history of new_var, push, assertion of constraint literals and pop",
  "completeness of the O(n^2) incremental update is a global property",
  ["src/arith/dl/idl_theory.cpp:idl_theory::propagate(from,to,dist)","src/arith/dl/rdl_theory.cpp:rdl_theory::propagate(from,to,dist)"])
p("C29","A difference-logic conflict is a real conflict",
  "When asserting a constraint literal is refused, the constraint (or its negation) is inconsistent with the constraints asserted so far; when it is accepted the network stays consistent.",
  "every reachable state and every constraint literal of either sign",
  "needs the closure property in every reachable state",
  ["src/arith/dl/idl_theory.cpp:idl_theory::propagate","src/arith/dl/rdl_theory.cpp:rdl_theory::propagate"])
p("C30","Difference-logic explanations are valid",
  "Every conflict clause and every clause recorded for an implied constraint literal is a valid lemma of difference logic: the constraints whose literals it negates really are jointly inconsistent.",
  "every history of assertions and backtracking",
  "needs the predecessor matrix to describe real paths after every sequence of updates and pops; an invalid lemma silently removes solutions",
  ["src/arith/dl/idl_theory.cpp:set_pred","src/arith/dl/idl_theory.cpp:dist_constr","src/arith/dl/idl_theory.cpp:idl_theory::pop"])
p("C31","Difference-logic backtracking restores the network",
  "push, any sequence of assertions (accepted or refused), pop gives back exactly the distances reported before the push, and the same internal network (so later answers and explanations are those of the restored network).",
  "every reachable state and every sequence of assertions between push and pop",
  "saving only the first overwritten value has to be right for every update sequence",
  ["src/arith/dl/idl_theory.cpp:idl_theory::push","src/arith/dl/idl_theory.cpp:idl_theory::pop","src/arith/dl/idl_theory.cpp:set_dist"])
p("C32","new_distance means `to - from <= dist`",
  "new_distance(from, to, dist) returns TRUE_lit only if every solution of the asserted constraints satisfies to - from <= dist, FALSE_lit only if none does, and otherwise a fresh literal whose assertion enforces to - from <= dist and whose negation enforces from - to <= -dist-1 over the integers (respectively < -dist over the rationals).",
  "every reachable state, pair of time points and distance",
  "quantifies over all networks and distances",
  ["src/arith/dl/idl_theory.cpp:new_distance","src/arith/dl/rdl_theory.cpp:new_distance"])
p("C33","IDL relational constructors build the right constraint",
  "For all linear expressions l, r of difference form, the integer constructors new_lt, new_leq, new_eq, new_geq, new_gt return a literal that controls exactly the constraint l < r, l <= r, l = r, l >= r, l > r over the integers; other expressions are rejected with an exception.",
  "all linear expressions, all coefficient signs, all reachable networks",
  "sign and argument-order cases over all expressions",
  ["src/arith/dl/idl_theory.cpp:new_lt","src/arith/dl/idl_theory.cpp:new_leq","src/arith/dl/idl_theory.cpp:new_eq","src/arith/dl/idl_theory.cpp:new_geq","src/arith/dl/idl_theory.cpp:new_gt"])
p("C34","RDL relational constructors build the right constraint",
  "For all linear expressions l, r of difference form, the rational constructors new_lt, new_leq, new_eq, new_geq, new_gt return a literal that controls exactly the constraint l < r, l <= r, l = r, l >= r, l > r (strictness through infinitesimals); other expressions are rejected with an exception.",
  "all linear expressions, all coefficient signs, all reachable networks",
  "sign and argument-order cases over all expressions",
  ["src/arith/dl/rdl_theory.cpp:new_lt","src/arith/dl/rdl_theory.cpp:new_leq","src/arith/dl/rdl_theory.cpp:new_eq","src/arith/dl/rdl_theory.cpp:new_geq","src/arith/dl/rdl_theory.cpp:new_gt"])
p("C35","Bounds, distances and matching of DL expressions are right",
  "bounds(l), distance(l0, l1) and matches(l0, l1) of the difference-logic theories agree with the distances: the reported interval contains the value of l (of l1 - l0) in every solution, and matches answers false only if no solution makes the expressions equal.",
  "all accepted linear expressions and all reachable networks",
  "sign and orientation cases over all expressions",
  ["src/arith/dl/idl_theory.cpp:bounds","src/arith/dl/idl_theory.cpp:distance","src/arith/dl/idl_theory.cpp:matches","src/arith/dl/rdl_theory.cpp:bounds"])
p("C36","Growing a difference-logic network keeps it",
  "new_var() returns a new time point, unconstrained with respect to all the others, keeps all existing distances, and all accesses stay within the allocated matrix, for every initial capacity.",
  "every number of variables and every initial capacity",
  "reallocation happens at data-dependent sizes",
  ["src/arith/dl/idl_theory.cpp:new_var","src/arith/dl/idl_theory.cpp:resize"])
p("C37","Integer distances do not overflow",
  "As long as every distance given to new_distance is at most K in absolute value and (number of time points) * (K + 1) < inf(), no 64-bit integer operation overflows in the creation of constraints, propagation, backtracking and the queries lb, ub, bounds, distance on variables; no finite distance is confused with the inf() sentinel; and all the answers are those of unbounded integer arithmetic.",
  "every history of calls within the stated magnitudes",
  "extreme magnitudes and path lengths",
  ["include/arith/dl/idl_theory.h:inf","src/arith/dl/idl_theory.cpp:idl_theory::propagate","src/arith/dl/idl_theory.cpp:idl_theory::new_distance"])
p("C38","Values always satisfy the tableau",
  "In every state of the linear-arithmetic theory, the current values satisfy every linear equation that defines a derived variable (value(s) = value(l) for s = new_var(l)), whatever pivoting has happened.",
  "every history of variable creation, bound assertion, pivoting, push and pop",
  "pivoting rewrites the whole tableau; errors show only on particular sparsity patterns",
  ["src/arith/lra/lra_theory.cpp:update","src/arith/lra/lra_theory.cpp:pivot_and_update","src/arith/lra/lra_theory.cpp:pivot"])
p("C39","A successful check gives a solution",
  "When the linear-arithmetic check succeeds every variable's value lies within its current bounds and all equations hold, so all asserted constraints are satisfied by value().",
  "every reachable state",
  "needs the non-basic-within-bounds invariant for every history",
  ["src/arith/lra/lra_theory.cpp:check"])
p("C40","A failed check is explained by a valid lemma",
  "When the linear-arithmetic check (or a bound assertion) fails, the conflict clause is a valid lemma: no valuation satisfies the definitions together with all the bounds whose reasons it negates.",
  "every reachable state",
  "Farkas-style certificate correctness for every tableau",
  ["src/arith/lra/lra_theory.cpp:check","src/arith/lra/lra_theory.cpp:assert_lower","src/arith/lra/lra_theory.cpp:assert_upper"])
p("C41","The simplex check terminates",
  "The pivoting loop of the linear-arithmetic check terminates from every state (no cycling).",
  "every reachable state",
  "cycling of simplex cannot be excluded by testing; it depends on the pivoting rule",
  ["src/arith/lra/lra_theory.cpp:check"])
p("C42","Bound propagation only derives consequences",
  "Every clause recorded by unate propagation of assertions and by bound propagation of tableau rows is a valid lemma of linear arithmetic.",
  "every reachable state, row and assertion",
  "eight sign/operator combinations over unbounded rows",
  ["src/arith/lra/lra_constraint.cpp:assertion::propagate_lb","src/arith/lra/lra_constraint.cpp:assertion::propagate_ub","src/arith/lra/lra_constraint.cpp:row::propagate_lb","src/arith/lra/lra_constraint.cpp:row::propagate_ub"])
p("C43","LRA backtracking restores the bounds",
  "push, any sequence of bound assertions (accepted or refused), pop gives back exactly the lower and upper bounds (and their reasons) from before, and the state is still consistent with the tableau.",
  "every reachable state and every sequence of assertions between push and pop",
  "saving only the first overwritten bound has to be right for every sequence",
  ["src/arith/lra/lra_theory.cpp:push","src/arith/lra/lra_theory.cpp:pop"])
p("C44","LRA relational constructors build the right constraint",
  "new_lt, new_leq, new_geq, new_gt (and new_eq as their conjunction) return TRUE_lit only if the relation holds in every solution within the current bounds, FALSE_lit only if it holds in none, and otherwise a literal that is true exactly when the relation holds.",
  "all linear expressions (over basic and non-basic variables) and all reachable states",
  "the expression is rewritten through the current tableau and the slack variable may be shared",
  ["src/arith/lra/lra_theory.cpp:new_lt","src/arith/lra/lra_theory.cpp:new_leq","src/arith/lra/lra_theory.cpp:new_geq","src/arith/lra/lra_theory.cpp:new_gt"])
p("C45","Bounds and matching of LRA expressions are right",
  "lb(l), ub(l), bounds(l) enclose the value of l under every valuation within the current bounds, and matches(l0, l1) is false only if no such valuation makes l0 and l1 equal.",
  "all linear expressions and reachable states",
  "sign and infinity cases over unbounded expressions",
  ["include/arith/lra/lra_theory.h:lb","include/arith/lra/lra_theory.h:ub","include/arith/lra/lra_theory.h:bounds","src/arith/lra/lra_theory.cpp:matches"])
p("C46","Infinitesimals faithfully encode strictness",
  "A set of (strict and non-strict) linear constraints satisfied by a valuation with infinitesimal parts is satisfied by a valuation in plain rationals: choosing a small enough positive number for the infinitesimal keeps every constraint.",
  "all finite sets of constraints and valuations",
  "existence of a concrete epsilon for every finite set",
  ["src/arith/lra/lra_theory.cpp:new_lt","src/arith/lra/lra_theory.cpp:propagate","src/arith/dl/rdl_theory.cpp:propagate"])
p("C47","A copied LRA theory is equivalent to the original",
  "lra_theory(sat, orig) answers every later sequence of bound assertions and checks as orig would.",
  "every reachable state of the original and every continuation",
  "quantifies over continuations",
  ["src/arith/lra/lra_theory.cpp:lra_theory::lra_theory(sat_ptr,const lra_theory&)"])
p("C48","SAT modulo linear arithmetic is sound end to end",
  "With the linear-arithmetic theory attached, whenever propagate() returns false at root level there is no truth assignment and rational valuation satisfying all posted clauses with every constraint literal true exactly when its constraint holds; and value() True at root level holds in all of them.",
  "every history of sat and linear-arithmetic calls",
  "combination of learning, theory lemmas and backtracking",
  ["src/sat_core.cpp:sat_core::propagate","src/arith/lra/lra_theory.cpp","src/theory.cpp"])

# ---------------- OV
p("C49","An object variable takes exactly one of its values",
  "After new_var(items) every solution of the network selects exactly one value among the items for the variable, each item can be selected, and existing solutions are preserved.",
  "every domain of every size and every reachable state",
  "exactly-one is encoded with the product encoding for domains of size >= 4",
  ["src/ov/ov_theory.cpp:ov_theory::new_var"])
p("C50","Object equality is equality of the selected values",
  "new_eq(x, y) returns a literal that, in every solution, is true iff the values selected for x and y are the same, and existing solutions are preserved; calling it again in either order returns the same literal.",
  "all pairs of object variables with arbitrary domains and reachable states",
  "domains overlap in arbitrary ways",
  ["src/ov/ov_theory.cpp:ov_theory::new_eq"])
p("C51","The reported domain contains every possible value",
  "value(x) lists exactly the values whose literal is not False, so the value selected by any solution compatible with the current decisions is listed, and allows(x, v) is the literal that controls v (FALSE_lit when v is not in the domain).",
  "every reachable state at every decision level",
  "depends on soundness of propagation in every state",
  ["src/ov/ov_theory.cpp:ov_theory::value","src/ov/ov_theory.cpp:ov_theory::allows"])
p("C52","Object listeners hear about every domain change",
  "A value listener registered at root level on an object variable with at least two possible values is told about the variable in every later call that changes the set value(x) reports, whether values leave it or come back. If only one value is possible at root level, nothing is registered and value(x) never changes again while a solution exists.",
  "every reachable state at registration, every later history of calls on the core and on the object theory, every call of it",
  "quantifies over all later histories, including backtracking that brings values back",
  ["src/ov/ov_theory.cpp:ov_theory::listen","include/ov/ov_value_listener.h","src/sat_core.cpp:sat_core::enqueue","src/sat_core.cpp:sat_core::pop_one"])
p("C53","A copied difference-logic theory is equivalent to the original","idl_theory(sat, orig) and rdl_theory(sat, orig) do not throw and give a theory that answers every later call as orig would, without using the objects of orig.","every reachable state of the original and every continuation","quantifies over reachable states and continuations",["src/arith/dl/idl_theory.cpp:idl_theory::idl_theory(sat_ptr,const idl_theory&)","src/arith/dl/rdl_theory.cpp:rdl_theory::rdl_theory(sat_ptr,const rdl_theory&)"])
p("C54","Sessions modulo linear arithmetic are sound",
  "In every session: the literal returned by new_lt, new_leq, new_geq, new_gt or new_eq is true, in every solution, exactly when the relation holds between the rationals, and no solution is lost or gained; every stored clause, every assigned value and every reported bound holds in every solution (compatible with the decisions it depends on); set_lb and set_ub restrict the solutions by exactly the bound; a false answer of propagate(), assume(), set_lb() or set_ub() means that no solution exists (with those decisions, with that bound).",
  "every session: any sequence of calls on the core and on the linear-arithmetic theory that respects the documented preconditions (existing variables, constraints at root level, nothing queued when a decision is taken), in which derived variables are created by the relational constructors (or by new_var(l) without known term over non-basic variables), bounds are imposed at root level, and imposed bounds are propagated before the next decision",
  "quantifies over all sessions and over all rational valuations",
  ["src/arith/lra/lra_theory.cpp","src/sat_core.cpp:sat_core::propagate","src/theory.cpp"])
p("C55","Sessions modulo linear arithmetic never fail",
  "In every session every allowed call terminates and returns: no assertion of the core or of the theory fails, no out-of-range access and no unbounded loop, whatever conflicts, lemmas and backjumps the calls lead to.",
  "every session: any sequence of calls on the core and on the linear-arithmetic theory that respects the documented preconditions (existing variables, constraints at root level, nothing queued when a decision is taken), in which derived variables are created by the relational constructors (or by new_var(l) without known term over non-basic variables), bounds are imposed at root level, and imposed bounds are propagated before the next decision; every allowed next call",
  "termination and absence of assertion failures over all sessions",
  ["src/arith/lra/lra_theory.cpp:lra_theory::check","src/arith/lra/lra_theory.cpp:lra_theory::propagate","src/sat_core.cpp:sat_core::analyze","src/theory.cpp:theory::backtrack_analyze_and_backjump"])
p("C56","A true answer modulo linear arithmetic is backed by values",
  "When propagate(), assume(), next() or simplify_db() returns true, value(v) is between lb(v) and ub(v) for every arithmetic variable; the values satisfy the definitions of the derived variables and, for every small enough rational in place of the infinitesimal, they are rationals satisfying all imposed bounds and exactly what every decided constraint literal says; every posted clause is satisfied or has two unassigned literals. If all core variables are assigned, assignment and values together are a solution of the network.",
  "every session: any sequence of calls on the core and on the linear-arithmetic theory that respects the documented preconditions (existing variables, constraints at root level, nothing queued when a decision is taken), in which derived variables are created by the relational constructors (or by new_var(l) without known term over non-basic variables), and bounds are imposed at root level; every call that propagates and returns true",
  "completeness of the combined search over all sessions",
  ["src/arith/lra/lra_theory.cpp:lra_theory::check","src/sat_core.cpp:sat_core::propagate","include/arith/lra/lra_theory.h:value"])
p("C57","A client that keeps deciding decides the network",
  "A client that calls propagate() and then, as long as some variable is unassigned, assumes an unassigned literal of its choice, stops after finitely many calls (at most (n+2)^(d+n+1) for n variables and starting level d), and its answer is right: if no call answered false, the assignment satisfies every posted clause (and, with linear arithmetic, assignment and values are a solution of the network); if a call answered false, there is no such assignment (no solution of the network).",
  "every legal history of the core alone and every session with linear arithmetic, every choice of unassigned literals",
  "termination and completeness of backjumping search over all clause sets, all constraints and all choices of the client",
  ["src/sat_core.cpp:sat_core::assume","src/sat_core.cpp:sat_core::propagate","src/sat_core.cpp:sat_core::analyze"])
p("C58","Value listeners of linear arithmetic are up to date",
  "listen(v, l) registers l for good when the bounds of v do not coincide. After any calls made since, the value of v that l could read at its last notification is the current value of v, and if l was not notified the value of v has not changed; l is notified only about variables it is registered for.",
  "every reachable state (derived variables as in C54), every later sequence of calls on the core and on the theory, every variable and listener",
  "quantifies over all later sequences of calls, through pivoting, conflicts and backjumps",
  ["src/arith/lra/lra_theory.cpp:lra_theory::update","src/arith/lra/lra_theory.cpp:lra_theory::pivot_and_update","include/arith/lra/lra_theory.h:listen","include/arith/lra/lra_value_listener.h"])
p("C59","Value listeners of difference logic are up to date",
  "listen(v, l) registers l for good (in the rational theory, when the bounds of v do not coincide). After any calls made since, the bounds of v that l could read at its last notification are the current bounds of v, and if l was not notified the bounds of v have not changed; l is notified only about time points it is registered for.",
  "every reachable state, every later sequence of calls on the theory and on the core, both number types, every time point and listener",
  "quantifies over all later sequences of calls, through propagation of distances, conflicts and backtracking",
  ["src/arith/dl/idl_theory.cpp:idl_theory::set_dist","src/arith/dl/rdl_theory.cpp:rdl_theory::set_dist","include/arith/dl/idl_theory.h:listen","include/arith/dl/rdl_theory.h:listen"])
p("C60","SAT modulo difference logic is sound end to end",
  "With a difference-logic theory attached to the core: every clause stored follows from the posted clauses and the meaning of the constraint literals; every value assigned follows from the decisions of its level; propagate() returning false is definitive and means that no truth assignment and positions of the time points satisfy the network; assume(p) returning false means that none is compatible with the decisions and p; every distance reported bounds the difference in every solution compatible with the decisions.",
  "every session: any sequence of calls on the core and on the theory that respects the documented preconditions (existing variables and time points, constraints at root level, nothing queued when a decision is taken)",
  "quantifies over all sessions, with conflicts, lemmas and backjumps of both parts; an invalid lemma shows only later, in an unrelated answer",
  ["src/sat_core.cpp:sat_core::propagate","src/arith/dl/idl_theory.cpp:idl_theory::propagate","src/arith/dl/rdl_theory.cpp:rdl_theory::propagate"])
p("C61","Sessions modulo difference logic never fail",
  "With a difference-logic theory attached, every legal call on the core (propagate, assume, next, check, simplify_db, new_clause, ...) terminates without failing an assertion and without undefined behaviour, and so do new_distance on existing time points and, at root level, the relational constructors on expressions of difference form.",
  "every session as in C60",
  "needs every conflict and lemma of the theory to have the shape conflict analysis relies on, after every history",
  ["src/sat_core.cpp:sat_core::analyze","src/clause.cpp:clause::propagate","src/arith/dl/idl_theory.cpp:idl_theory::propagate","src/arith/dl/idl_theory.cpp:new_distance"])
p("C62","A true answer modulo difference logic is backed by positions",
  "When propagate(), assume(), next() or simplify_db() returns true, there are positions of the time points satisfying exactly what every decided constraint literal says; distance(i, j) is exactly the range of the differences of such positions (finite bounds are attained, infinite ones mean unbounded); a constraint literal is undecided only when such positions both satisfy and violate its constraint; every posted clause is satisfied or has two unassigned literals. If all core variables are assigned, the assignment and any such positions are a solution of the network.",
  "every session as in C60 and every call that propagates and returns true",
  "completeness of theory propagation and of the combined search over all sessions",
  ["src/arith/dl/idl_theory.cpp:idl_theory::propagate","src/sat_core.cpp:sat_core::propagate","include/arith/dl/idl_theory.h:distance"])
p("C63","A client that keeps deciding decides difference-logic networks",
  "A client that calls propagate() and then, as long as some variable is unassigned, assumes an unassigned literal of its choice, stops after finitely many calls (at most (n+2)^(d+n+1) for n variables and starting level d), and its answer is right: if no call answered false, the assignment and some positions of the time points are a solution of the network; if a call answered false, there is no solution.",
  "every session with difference logic as in C60, every choice of unassigned literals",
  "termination and completeness of backjumping search over all clause sets, all constraints and all choices of the client",
  ["src/sat_core.cpp:sat_core::assume","src/sat_core.cpp:sat_core::analyze","src/arith/dl/idl_theory.cpp:idl_theory::propagate"])
p("C64","Texts used as keys never confuse two expressions",
  "The texts under which the theories cache expressions determine them: two linear expressions with the same to_string have the same terms in the same order and the same known term; two assertions with the same key have the same direction, variable and bound; two object equalities with the same key compare the same variables. So looking up a text finds exactly what looking up the expression would find, and new_var(l), the relational constructors and new_eq return a cached result only for the expression it was made for.",
  "all linear expressions (any number of terms, any coefficients, in any order), all assertions, all pairs of object variables, all cache contents, every way of printing rationals with digits and '/' that is injective",
  "a collision may hide behind any pair of the infinitely many expressions",
  ["src/arith/lin.cpp:to_string","src/arith/lra/lra_theory.cpp:lra_theory::new_var","src/arith/lra/lra_theory.cpp:lra_theory::new_lt","src/ov/ov_theory.cpp:ov_theory::new_eq"])
p("C65","JSON dumps say what the solver knows",
  "to_json of a core and of the linear-arithmetic theory is faithful: two cores have the same dump exactly when they have the same variables, the same value of every literal and the same stored clauses in the same order; two linear-arithmetic theories with the same dump have the same variables, values, bounds (infinite ones are left out of the dump), tableau and assertions, with the same truth values.",
  "all pairs of states of cores and theories, any number of variables, clauses, rows and assertions",
  "tests look at single dumps; faithfulness is about all pairs of states",
  ["src/sat_core.cpp:to_json","src/clause.cpp:clause::to_json","src/arith/lra/lra_theory.cpp:to_json","src/arith/lra/lra_constraint.cpp:to_json"])
p("C66","Two theories on one core are right together",
  "With a linear-arithmetic theory and a difference-logic theory attached to the same core, clauses may mix the literals of both. Every clause stored follows from the posted clauses and the meaning of the constraint literals of both theories; every value assigned follows from the decisions of its level; propagate() returning false means that there is no solution (no truth assignment, rational values and positions satisfying everything), assume() returning false that none is compatible with the decisions; bounds and distances hold in every solution compatible with the decisions. A literal returned by a constructor of either theory is true in a solution exactly when its relation holds, and creating it neither loses nor adds solutions of the whole network; set_lb and set_ub (also under a literal of the other theory that is true) add exactly the bound and are refused only when no solution has it.",
  "every session: any interleaving of legal calls on the core and on both theories, any clauses over the literals of both",
  "quantifies over all interleavings of the lemmas, conflicts and backjumps of two theories; an interference shows only in an unrelated answer",
  ["src/sat_core.cpp:sat_core::propagate","include/theory.h:theory","src/arith/lra/lra_theory.cpp:lra_theory::propagate","src/arith/dl/idl_theory.cpp:idl_theory::propagate","src/arith/dl/rdl_theory.cpp:rdl_theory::propagate"])
p("C67","Sessions with two theories never fail",
  "With a linear-arithmetic theory and a difference-logic theory attached to the same core, every legal call on the core and on either theory terminates without failing an assertion and without undefined behaviour, whatever lemmas and conflicts each theory produces while the other has pending literals.",
  "every session as in C66",
  "each theory must keep its own bookkeeping while the other one makes the core backjump, for every history",
  ["src/sat_core.cpp:sat_core::propagate","src/sat_core.cpp:sat_core::analyze","src/sat_core.cpp:sat_core::pop","src/arith/lra/lra_theory.cpp:lra_theory::check","src/arith/dl/idl_theory.cpp:idl_theory::propagate"])
p("C68","A true answer with two theories is backed by values and positions together",
  "When propagate(), assume(), next() or simplify_db() returns true with both theories attached, the reported arithmetic values (for every small enough infinitesimal) satisfy the definitions, the imposed bounds and exactly what every decided arithmetic literal says, there are positions of the time points satisfying exactly what every decided distance literal says, distance(i, j) is exactly the range of the differences of such positions, and every posted clause is satisfied or has two unassigned literals. If all core variables are assigned, the assignment, the values and any such positions are a solution of the whole network.",
  "every session: any sequence of calls on the core and on the two theories that respects the documented preconditions, interleaved in any way, as long as no call fails; every call that propagates and returns true",
  "completeness of the combination of the two propagations over all sessions",
  ["src/sat_core.cpp:sat_core::propagate","src/arith/lra/lra_theory.cpp:lra_theory::check","src/arith/dl/idl_theory.cpp:idl_theory::propagate","include/arith/dl/idl_theory.h:distance"])
p("C69","A client that keeps deciding decides networks over two theories",
  "A client that calls propagate() and then, as long as some variable is unassigned, assumes an unassigned literal of its choice, stops after finitely many calls (at most (n+2)^(d+n+1) for n variables and starting level d) also when a linear-arithmetic and a difference-logic theory are attached, and its answer is right: if no call answered false, the assignment, the reported values and some positions are a solution of the whole network; if a call answered false, there is no solution.",
  "every session as in C66, every choice of unassigned literals",
  "termination and completeness of backjumping search over all clause sets mixing two theories and all choices of the client",
  ["src/sat_core.cpp:sat_core::assume","src/sat_core.cpp:sat_core::analyze","src/arith/lra/lra_theory.cpp:lra_theory::check","src/arith/dl/idl_theory.cpp:idl_theory::propagate"])
p("C70","Asking again for the same expression gives the same literal",
  "If new_conj or new_disj is asked again, after any other calls, for the same set of literals (in any order, with repetitions), or new_eq for the same two literals in either order, or new_at_most_one / new_exct_one for the same vector, and the operands have the values they had the first time, the literal returned the first time is returned and the network is not changed. The same holds for new_lt, new_leq, new_geq and new_gt of the linear-arithmetic theory asked again after any constructors, also when the relation is written differently (terms moved to the other side).",
  "every history, every operands, every calls in between (for the relations: every sequence of constructors of the core and of the theory in between), every theory attached to the core",
  "ranges over every history between the two requests; the cache keys are texts that depend on order, signs and values of the operands",
  ["src/sat_core.cpp:sat_core::new_conj","src/sat_core.cpp:sat_core::new_disj","src/sat_core.cpp:sat_core::new_eq","src/sat_core.cpp:sat_core::new_at_most_one","src/sat_core.cpp:sat_core::new_exct_one","src/arith/lra/lra_theory.cpp:lra_theory::new_leq"])
p("C71","A clause is never reached after its destruction, and a core can always be destroyed",
  "After any sequence of calls, successful or not (conflicts, learnt clauses, simplify_db, pops), nothing in the core refers to a clause that has been deleted: every clause found through the watch lists or as the reason of a value is alive, every live clause is watched by (the negations of) exactly its first two literals, and the clause given as the reason of a value has that value's literal first. In particular destroying the core is always safe: each clause finds itself where its destructor looks for it and nothing is left behind.",
  "every history of calls on a core without theories, with linear arithmetic, or with any theories whose reported conflicts and lemmas honour the contract (for difference logic: histories without unsafe propagations, as in C60)",
  "use after free depends on the order in which clauses are created, moved between watch lists, used as reasons and deleted, over an unbounded history",
  ["src/sat_core.cpp:~sat_core","src/sat_core.cpp:simplify_db","src/clause.cpp:~clause","src/clause.cpp:propagate","src/clause.cpp:simplify"])
p("C72","Every call returns",
  "Whatever was called before, every legal call of the core (assume, propagate, next, check, pop, simplify_db, the constructors) with linear arithmetic, difference logic or both attached, and every call that creates constraints or imposes bounds on these theories, comes back: no propagation, conflict analysis, backjump, explanation walk or simplex run goes on forever.",
  "every session, every legal call, every order in which sets are traversed; calls made before imposed bounds are propagated and difference-logic propagations that record wrong lemmas included",
  "non-termination cannot be observed by a test, and the loops depend on states reached after arbitrarily long histories",
  ["src/sat_core.cpp:sat_core::propagate","src/sat_core.cpp:sat_core::analyze","src/sat_core.cpp:sat_core::assume","src/sat_core.cpp:sat_core::check","src/arith/lra/lra_theory.cpp:lra_theory::check","src/arith/dl/idl_theory.cpp:idl_theory::propagate"])
p("C73","A client that decides until all variables are assigned stops, and what it finds is a solution",
  "Starting from any state that is not known to be inconsistent, a client that propagates and then assumes unassigned literals, chosen by any heuristic, until none is left or a call answers false, stops within (n+2)^(d+n+1) decisions, n being the number of variables and d the number of decisions already taken; if it ends with true, the assignment together with the values reported by linear arithmetic and any positions compatible with the decided distance literals (there are some) satisfies every clause, definition, imposed bound and constraint of the network the client started from.",
  "every session (wrong lemmas of difference logic and unpropagated bounds included), every heuristic",
  "backjumping undoes decisions and records clauses, so termination and the meaning of the final state are about all the runs of the search",
  ["src/sat_core.cpp:sat_core::assume","src/sat_core.cpp:sat_core::analyze","src/sat_core.cpp:sat_core::propagate","src/arith/lra/lra_theory.cpp:lra_theory::check","src/arith/dl/idl_theory.cpp:idl_theory::propagate"])
p("C74","Literals mean what was asked for in the solution the core ends with, whatever happened in between",
  "When a call creates a constraint literal (a clause, conjunction, disjunction, equality, at-most-one or exactly-one of the core, within the limits of C15-C17; a linear-arithmetic relation; a distance, a bounded distance or a relation of difference logic, outside the new_gt of C33; the theory relations at root level) then, however the session goes on, whenever a later call that propagates returns true with every variable assigned, the value of the literal is the truth of what was asked, in the assignment, in the values reported by linear arithmetic (with any small enough infinitesimal) and in any positions compatible with the decided distance literals; the value reported for a derived variable is that of its expression.",
  "every session (wrong lemmas of difference logic, unpropagated bounds, conflicts, backjumps and simplifications in between included), every creating call, every later propagating call",
  "expressions are cached and reused, clauses are simplified or removed and literals decided between the creation and the end, and theories may record clauses that do not follow; that the meaning survives is about all continuations",
  ["src/sat_core.cpp:sat_core::new_clause","src/sat_core.cpp:sat_core::new_conj","src/sat_core.cpp:sat_core::new_disj","src/sat_core.cpp:sat_core::new_eq","src/sat_core.cpp:sat_core::new_at_most_one","src/sat_core.cpp:sat_core::new_exct_one","src/sat_core.cpp:sat_core::simplify_db","src/arith/lra/lra_theory.cpp:lra_theory::new_leq","src/arith/lra/lra_theory.cpp:lra_theory::new_var","src/arith/dl/idl_theory.cpp:idl_theory::new_distance"])
p("C75","Any number of theories on one core, in any order: literals mean what was asked for and reported values back them",
  "Attach to one core any number of theories in any order, several of the same kind included: linear arithmetic, integer and real difference logic, object variables. Clients call the core and any theory in any order. When a call that propagates returns true, every theory backs the literals decided: the values of each arithmetic theory are within its reported bounds and satisfy its definitions and what its decided literals say, each difference-logic theory has positions that satisfy its decided literals and its reported distances are exactly the extreme ones. If in addition every variable is assigned, every literal returned earlier in the session has the meaning that was asked for: core expressions, arithmetic relations and equalities, distances and difference relations, values of object variables (exactly one of the items, or exactly those whose literal is true) and equalities of object variables.",
  "every number, kind and order of the theories, every session of calls, every creating call, every later propagating call",
  "the theories share one trail, one queue and one table of bindings, and a conflict found by one undoes the work of the others; the combinations of theories and the interleavings of their calls are unbounded",
  ["include/sat_core.h:sat_core","src/sat_core.cpp:sat_core::propagate","src/theory.cpp:theory::bind","src/arith/lra/lra_theory.cpp:lra_theory::propagate","src/arith/dl/idl_theory.cpp:idl_theory::propagate","src/arith/dl/rdl_theory.cpp:rdl_theory::propagate","src/ov/ov_theory.cpp:ov_theory::new_var","src/ov/ov_theory.cpp:ov_theory::new_eq","src/ov/ov_theory.cpp:ov_theory::value"])
p("C76","Any number of theories on one core: every call returns and the search stops with a solution of every theory",
  "On a core with any number of theories in any order, every legal call of the core and every constructor of the theories returns: no loop runs forever. A client that decides, by any heuristic, until every variable is assigned stops within a number of decisions known in advance; if it answers true, every clause is satisfied, each arithmetic theory reports values that solve its network, for each difference-logic theory any positions satisfying the decided literals (there are some) solve its network, and each object variable reports exactly the values whose literal is true.",
  "every number, kind and order of the theories, every session, every heuristic",
  "termination of the search is about the whole tree of decisions, propagations and backjumps, whatever the theories attached",
  ["src/sat_core.cpp:sat_core::propagate","src/sat_core.cpp:sat_core::assume","src/sat_core.cpp:sat_core::next","src/arith/lra/lra_theory.cpp:lra_theory::check","src/arith/dl/idl_theory.cpp:idl_theory::propagate","src/ov/ov_theory.cpp:ov_theory::value"])
p("C77","Any number of arithmetic and object-variable theories on one core: nothing wrong is concluded",
  "Attach to one core any number of linear-arithmetic and object-variable theories, in any order. Then every clause stored follows from what the client posted and the networks of the theories, every value assigned follows from the decisions of its level, a definitive inconsistency (or assume answering false) means that no solution exists (compatible with the decisions), the bounds reported by each arithmetic theory contain the values of every solution compatible with the decisions, the values reported for an object variable contain those it has in any such solution; and every call on a theory means what it should in every solution, not just the one found: arithmetic relations and equalities, variables defined by expressions, imposed bounds, object variables over items or over literals, equalities of object variables. The calls that create literals or variables exclude no solution of the network they are added to (equalities of object variables: none in which both variables have one value) and admit no new one.",
  "every number and order of such theories, every session of calls (bounds imposed at root level are propagated before deciding), every solution",
  "a lemma recorded by one theory uses the literals of the others; that nothing wrong is ever concluded is about all solutions of all networks over all combinations of theories and all sessions",
  ["include/sat_core.h:sat_core","src/sat_core.cpp:sat_core::propagate","src/sat_core.cpp:sat_core::analyze","src/arith/lra/lra_theory.cpp:lra_theory::propagate","src/arith/lra/lra_theory.cpp:lra_theory::new_leq","src/arith/lra/lra_theory.cpp:lra_theory::set_lb","src/ov/ov_theory.cpp:ov_theory::new_var","src/ov/ov_theory.cpp:ov_theory::new_eq","src/ov/ov_theory.cpp:ov_theory::value"])
p("C78","Any number of arithmetic and object-variable theories on one core: no legal call fails",
  "In the sessions of C77 every legal call of the core returns (no failed assertion, no undefined behaviour, no exception, no endless loop); at root level, while the core is not known to be inconsistent, so do the relations, equalities, variables and imposed bounds of every arithmetic theory; and, if the network has a solution, the creation of object variables and the equality of those that have one value in it.",
  "every number and order of such theories, every session, every legal call",
  "the assertions of conflict analysis and of the simplex depend on what every theory recorded so far; absence of failures is about all sessions",
  ["src/sat_core.cpp:sat_core::propagate","src/sat_core.cpp:sat_core::analyze","src/sat_core.cpp:sat_core::simplify_db","src/theory.cpp:theory::backtrack_analyze_and_backjump","src/arith/lra/lra_theory.cpp:lra_theory::check","src/ov/ov_theory.cpp:ov_theory::new_var"])
p("C79","Any number of arithmetic and object-variable theories on one core: the search decides the network",
  "From any state of a session of C77 that is not known to be inconsistent, a client that decides by any heuristic until every variable is assigned gets an answer within a number of decisions known in advance; if it is true, every variable is assigned and the values reported by all the theories together (arithmetic values with any small enough infinitesimal, object variables with the values reported) are a solution of the whole network; if it is false, the network has no solution.",
  "every number and order of such theories, every session, every heuristic",
  "that the answer is right means that a solution found satisfies every theory at once and that failure excludes all of infinitely many candidate solutions",
  ["src/sat_core.cpp:sat_core::assume","src/sat_core.cpp:sat_core::propagate","src/sat_core.cpp:sat_core::next","src/arith/lra/lra_theory.cpp:lra_theory::check","src/ov/ov_theory.cpp:ov_theory::value"])
p("C80","Popping a core pushed on a stack of cores restores the theories",
  "After push on a stack of cores with theories attached, any calls on the pushed core (of the core: clauses, decisions, propagation, retraction; of the theories: variables, relations, imposed bounds, listeners) and the matching pop, the theories are as before the push: the bounds of the arithmetic variables and the distances between the time points that existed before are what they were, relations asked for again give literals of the core now on top, what is later concluded follows from what was posted to that core; and the cores below are unchanged.",
  "every state of the stack, every number and order of calls on the pushed core",
  "the theories are shared by all the cores of the stack and are undone by their own layers, one for each decision of any core; what remains after a pop depends on the whole history of the pushed core",
  ["src/sat_stack.cpp:sat_stack::push","src/sat_stack.cpp:sat_stack::pop","src/sat_core.cpp:sat_core::pop","src/arith/lra/lra_theory.cpp:lra_theory::push","src/arith/lra/lra_theory.cpp:lra_theory::pop","src/arith/dl/idl_theory.cpp:idl_theory::pop","src/arith/dl/rdl_theory.cpp:rdl_theory::pop"])
p("C81","A stack of cores with theories decides correctly on the pushed cores, and goes on correctly after every pop",
  "With any number of theories of linear arithmetic and object variables on a stack of cores: every legal call of the top core returns; push (with nothing pending and no contradiction) succeeds and the new core has the variables and values of the core below, with its decisions as clauses; what the top core concludes follows from the clauses posted to it and to the cores below, their decisions and the constraints of the theories; an answer false is definitive; the client that decides on the top core gets an answer, true only with an assignment that, together with the values reported by the theories, is a solution; pop from a core with no decision open succeeds, also when a contradiction was found in it, gives back the core below as it was, with the same constraints of the theories; the bounds and values that the theories report hold of every solution of the core on top; and with one core left the theories can be used again, their relations mean what they should.",
  "every number of theories, every depth of the stack, every order of calls of the top core, push and pop, with calls of the theories whenever the stack has one core",
  "the theories are shared by all the cores; what they know on a pushed core mixes their own layers with those of every core below, and their lemmas are recorded in the core on top; a test sees one stack and one history",
  ["src/sat_stack.cpp:sat_stack::push","src/sat_stack.cpp:sat_stack::pop","src/sat_core.cpp:sat_core::sat_core","src/sat_core.cpp:sat_core::propagate","src/sat_core.cpp:sat_core::simplify_db","src/arith/lra/lra_theory.cpp:lra_theory::push","src/arith/lra/lra_theory.cpp:lra_theory::pop","src/ov/ov_theory.cpp:ov_theory::value"])
p("C82","The solver decides the conjunction of what was asked",
  "Let the client send requests to a core with any number of theories of linear arithmetic and object variables: boolean variables, clauses, reified conjunctions and disjunctions, next(), numeric variables, variables defined as linear expressions, relations and equalities of linear expressions, bounds, object variables with a list of values, equality of object variables, allows; in any order, on what earlier requests returned, with any amount of search in between (assume, pop, propagate, check, simplify_db). Each request has a meaning that mentions only its arguments and the variable or literal it returned. At any point, the client that goes on deciding until all variables are assigned gets an answer: true only if the assignment and the values reported by the theories satisfy the meanings of all the requests, false only if nothing satisfies them all; so the answer depends only on what was asked, not on the search done before, the order of the decisions, the hash order or the other requests' literals. A call reporting failure, a refused bound, a literal true at root level, the bounds of a numeric variable and the values of an object variable are facts about the solutions of the requests. Requests on known arguments at root level, while the solver is consistent, are answered.",
  "every sequence of requests and search calls, every number of theories, every decision heuristic and hash order, every solution of the requests",
  "a test compares one answer with one expected result; that the answers are exactly the solutions of the requests, after any search and learning, quantifies over all sequences of requests and all assignments",
  ["src/sat_core.cpp:sat_core::new_clause","src/sat_core.cpp:sat_core::new_conj","src/sat_core.cpp:sat_core::new_disj","src/sat_core.cpp:sat_core::next","src/sat_core.cpp:sat_core::propagate","src/arith/lra/lra_theory.cpp:lra_theory::new_var","src/arith/lra/lra_theory.cpp:lra_theory::new_lt","src/arith/lra/lra_theory.cpp:lra_theory::new_eq","src/arith/lra/lra_theory.cpp:lra_theory::set_lb","src/arith/lra/lra_theory.cpp:lra_theory::set_ub","src/ov/ov_theory.cpp:ov_theory::new_var","src/ov/ov_theory.cpp:ov_theory::new_eq","src/ov/ov_theory.cpp:ov_theory::allows"])
p("C83","On a stack of cores, the top core decides exactly what was asked for, and pop gives the earlier problem back",
  "Let a client use a stack of cores with any number of theories of linear arithmetic and object variables. Requests (as in C82) go to the core on top; push, with nothing pending and no contradiction found, makes a core whose problem is that of the core below together with the decisions open there; pop, with no decision of the top core open, drops that problem. At every height, whatever was pushed, popped, asked for and searched before, the client that decides on the top core until all variables are assigned gets an answer: true only with an assignment that, together with the values reported by the theories, is a solution of the problem of that core, false only if that problem has no solution; hence the answer that a single fresh core, asked for the same, would give. A failed call, a literal reported true, the bounds of a numeric variable and the values of an object variable, asked on the top core, are facts about the solutions of its problem compatible with its decisions. push and pop always work in these conditions, and after a pop the core below reports what it did before. Further requests to the core are answered at any height.",
  "every stack depth, every sequence of push, pop, requests and search calls, every number of theories, every decision heuristic",
  "the pushed cores share the theories and record lemmas found under the decisions of the cores below; that nothing of a dropped problem survives in later answers, and nothing of the problems below is lost, quantifies over every history and every solution",
  ["src/sat_stack.cpp:sat_stack::push","src/sat_stack.cpp:sat_stack::pop","src/sat_core.cpp:sat_core::sat_core","src/sat_core.cpp:sat_core::new_clause","src/sat_core.cpp:sat_core::new_conj","src/sat_core.cpp:sat_core::new_disj","src/sat_core.cpp:sat_core::propagate","src/sat_core.cpp:sat_core::next","src/arith/lra/lra_theory.cpp:lra_theory::push","src/arith/lra/lra_theory.cpp:lra_theory::pop","src/ov/ov_theory.cpp:ov_theory::value"])
p("C84","With difference logic too, the solver decides the conjunction of what was asked",
  "Let the client of C82 also use any number of theories of integer and real difference logic on the same core: new time points, distances x_j - x_i <= w between two of them, and, over the integers, relations <, <=, ==, >=, > between linear expressions over them (except the greater-than whose literal is wrong, C33), the literal returned meaning just that. At any point, the client that goes on deciding until all variables are assigned gets an answer: true only if the assignment, with the values reported by linear arithmetic and the object variables and any positions of the time points that respect the reported distances, satisfies the meanings of all the requests; false only if nothing satisfies them all. A failed call, a literal reported true, the distances reported between two time points, the bounds of a numeric variable and the values of an object variable are facts about the solutions of the requests compatible with the decisions. Distances between existing time points are always answered at root level; relations are, or are rejected with an exception, according to the form of their difference. The answer does not depend on the search done before, on the decisions or on the hash order.",
  "every sequence of requests and search calls, every number of theories of the three kinds, every decision heuristic and hash order, every solution of the requests",
  "the distances known to one theory, the literals they imply, the bounds of another theory and the clauses learnt from both meet in one core; that nothing is lost or invented quantifies over all sequences of requests and all positions of the time points",
  ["src/arith/dl/idl_theory.cpp:idl_theory::new_var","src/arith/dl/idl_theory.cpp:idl_theory::new_distance","src/arith/dl/idl_theory.cpp:idl_theory::new_lt","src/arith/dl/idl_theory.cpp:idl_theory::new_leq","src/arith/dl/idl_theory.cpp:idl_theory::new_eq","src/arith/dl/idl_theory.cpp:idl_theory::new_geq","src/arith/dl/idl_theory.cpp:idl_theory::new_gt","src/arith/dl/idl_theory.cpp:idl_theory::propagate","src/arith/dl/idl_theory.cpp:idl_theory::propagate_distance","src/arith/dl/rdl_theory.cpp:rdl_theory::new_var","src/arith/dl/rdl_theory.cpp:rdl_theory::new_distance","src/arith/dl/rdl_theory.cpp:rdl_theory::propagate","src/sat_core.cpp:sat_core::propagate","src/sat_core.cpp:sat_core::next"])
p("C85","On a stack of cores with difference logic, the top core decides exactly what was asked for, and pop gives the earlier problem back",
  "Let the client of a stack of cores (C83) also use any number of theories of integer and real difference logic: time points, distances and (over the integers) relations of linear expressions over time points are asked for while the stack has one core, everything else as in C83. At every height, whatever was pushed, popped, asked for and searched before, the client that decides on the top core gets an answer: true only with an assignment that, with the values reported by linear arithmetic and the object variables and any positions of the time points that respect the reported distances, is a solution of the problem of that core; false only if that problem has no solution; hence the answer of a single fresh core asked for the same. A failed call, a literal reported true and the distances, bounds and values reported on the top core are facts about the solutions of its problem compatible with its decisions. push and pop always work, under the conditions of C83, and after the last pop new time points and distances are answered.",
  "every stack depth, every sequence of push, pop, requests and search calls, every number of theories of the three kinds, every decision heuristic",
  "the distance matrices are shared by all the cores and undone by layers that the cores open; that the distances known on a pushed core are those of its problem, and that pop restores the ones below, quantifies over every history and every solution",
  ["src/sat_stack.cpp:sat_stack::push","src/sat_stack.cpp:sat_stack::pop","src/sat_core.cpp:sat_core::sat_core","src/sat_core.cpp:sat_core::propagate","src/arith/dl/idl_theory.cpp:idl_theory::push","src/arith/dl/idl_theory.cpp:idl_theory::pop","src/arith/dl/idl_theory.cpp:idl_theory::propagate","src/arith/dl/rdl_theory.cpp:rdl_theory::push","src/arith/dl/rdl_theory.cpp:rdl_theory::pop","src/arith/dl/rdl_theory.cpp:rdl_theory::propagate"])
open(os.path.join(os.path.dirname(__file__),'..','properties.jsonl'),'w').write("".join(json.dumps(x,ensure_ascii=False)+"\n" for x in P))
print(len(P))
