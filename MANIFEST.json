{
 "claims": [
  {
   "property": "C01",
   "status": "proved",
   "theorems": [
    "Semitone.C01_variable",
    "Semitone.C01_sign",
    "Semitone.C01_neg",
    "Semitone.C01_neg_involutive",
    "Semitone.C01_injective",
    "Semitone.C01_index",
    "Semitone.C01_undef",
    "Semitone.C01_bound_sharp"
   ],
   "note": "Packed 64-bit representation of lit.h, all variables below 2^63-1; C01_bound_sharp shows the bound is sharp."
  },
  {
   "property": "C02",
   "status": "proved",
   "theorems": [
    "Semitone.C02_network_is_posted",
    "Semitone.C02_new_clause",
    "Semitone.C02_defined",
    "Semitone.C02_only"
   ],
   "note": "Reachable histories over any theory satisfying the recorded contract; the stored network (clauses + root facts) has the same solutions as what was posted."
  },
  {
   "property": "C03",
   "status": "proved",
   "theorems": [
    "Semitone.C03_values_are_consequences",
    "Semitone.C03_root",
    "Semitone.C03_false",
    "Semitone.C03_legal"
   ],
   "note": "Every value is a consequence of posted clauses, theory and decisions up to its level."
  },
  {
   "property": "C04",
   "status": "proved",
   "theorems": [
    "Semitone.C04_learnt_clauses_are_consequences",
    "Semitone.C04_legal",
    "Semitone.C04_no_solution_lost"
   ],
   "note": "Stored (hence learnt) clauses follow from the posted network."
  },
  {
   "property": "C05",
   "status": "proved",
   "theorems": [
    "Semitone.C05_propagate",
    "Semitone.C05_assume",
    "Semitone.C05_assume_false",
    "Semitone.C05_next",
    "Semitone.C05_simplify",
    "Semitone.C05_forever"
   ],
   "note": "A false answer means unsatisfiable, and stays so in every later history."
  },
  {
   "property": "C06",
   "status": "proved",
   "theorems": [
    "Semitone.C06_propagate_reaches_fixpoint",
    "Semitone.C06_every_quiet_state",
    "Semitone.C06_queue_empty"
   ],
   "note": "Unit-propagation fixpoint after propagate and in every legal quiet state (no theories attached)."
  },
  {
   "property": "C07",
   "status": "proved",
   "theorems": [
    "Semitone.C07_complete_assignment_is_model",
    "Semitone.C07_solution"
   ],
   "note": "A complete conflict-free assignment is a model of everything posted."
  },
  {
   "property": "C08",
   "status": "proved",
   "theorems": [
    "Semitone.C08_legal_calls_succeed",
    "Semitone.C08_copy_succeeds",
    "Semitone.C08_next_precondition_needed"
   ],
   "note": "Legal calls never hit an assertion, out-of-range access or empty container; C08_next_precondition_needed shows one stated precondition is needed."
  },
  {
   "property": "C09",
   "status": "proved",
   "theorems": [
    "Semitone.C09_propagate",
    "Semitone.C09_progress",
    "Semitone.C09_assume",
    "Semitone.C09_check"
   ],
   "note": "Termination of the propagate/analyze loop with no bound on the history."
  },
  {
   "property": "C10",
   "status": "proved",
   "theorems": [
    "Semitone.C10_pop",
    "Semitone.C10_assume_pop"
   ],
   "note": "pop restores values, levels and reasons exactly."
  },
  {
   "property": "C11",
   "status": "partial",
   "theorems": [
    "Semitone.C11_answer_sound",
    "Semitone.C11_partial",
    "Semitone.C11_partial_same_level",
    "Semitone.C11_context_lost"
   ],
   "note": "The answer is sound always; the context is restored when no backjump goes below the caller's level. C11_context_lost is a reachable witness on which the real code loses a caller's decision, so the full statement is false of the code."
  },
  {
   "property": "C12",
   "status": "proved",
   "theorems": [
    "Semitone.C12_root",
    "Semitone.C12_next",
    "Semitone.C12_never_again",
    "Semitone.C12_never_again_state"
   ],
   "note": "next() excludes the current decisions in every later history."
  },
  {
   "property": "C13",
   "status": "proved",
   "theorems": [
    "Semitone.C13_new_conj"
   ],
   "note": "Every reachable root state, every vector of literals."
  },
  {
   "property": "C14",
   "status": "proved",
   "theorems": [
    "Semitone.C14_new_disj"
   ],
   "note": "Every reachable root state, every vector of literals."
  },
  {
   "property": "C15",
   "status": "partial",
   "theorems": [
    "Semitone.C15_partial",
    "Semitone.Sat.C15_sign_exact",
    "Semitone.C15_wrong_sign",
    "Semitone.C15_not_complete"
   ],
   "note": "Proved where the code is right; the witnesses show the code returns a wrong literal when an operand is decided (sign error) and misses a clause otherwise, so the full statement is false of the code. C15_sign_exact says exactly what is returned in the sign-error case."
  },
  {
   "property": "C16",
   "status": "partial",
   "theorems": [
    "Semitone.C16_partial",
    "Semitone.Sat.C16_any_partial",
    "Semitone.C16_true_literal",
    "Semitone.C16_duplicates"
   ],
   "note": "Proved for vectors of distinct literals none of which is already true; the two witnesses show the code is wrong outside; C16_any_partial says what holds for every vector."
  },
  {
   "property": "C17",
   "status": "partial",
   "theorems": [
    "Semitone.C17_partial",
    "Semitone.Sat.C17_any_partial",
    "Semitone.C17_true_literal",
    "Semitone.C17_negative_singleton",
    "Semitone.C17_shared_with_amo"
   ],
   "note": "Proved for vectors of distinct literals none of which is already true and a new expression; witnesses for the excluded cases; C17_any_partial says what holds for every vector."
  },
  {
   "property": "C18",
   "status": "proved",
   "theorems": [
    "Semitone.C18_keys_injective",
    "Semitone.C18_eq_key",
    "Semitone.C18_cached_meaning"
   ],
   "note": "Injectivity of the textual keys over all expressions and meaning of every cached literal in every later state."
  },
  {
   "property": "C19",
   "status": "proved",
   "theorems": [
    "Semitone.C19_false",
    "Semitone.C19_same_solutions",
    "Semitone.C19_removed"
   ],
   "note": "Legal root states of the propositional core: same compatible assignments, exactly the satisfied clauses and the false literals are removed."
  },
  {
   "property": "C20",
   "status": "proved",
   "theorems": [
    "Semitone.C20_values",
    "Semitone.C20_constraints",
    "Semitone.C20_push",
    "Semitone.C20_stack"
   ],
   "note": "Copies of legal cores at any decision level; pop of the stack gives the previous core back (the ghost log of notifications aside)."
  },
  {
   "property": "C21",
   "status": "partial",
   "theorems": [
    "Semitone.C21_partial",
    "Semitone.C21_listen",
    "Semitone.C21_no_other",
    "Semitone.C21_until_root",
    "Semitone.C21_stack",
    "Semitone.C21_late_listener_misses_pop",
    "Semitone.C21_pushed_listener_misses_stack_pop"
   ],
   "note": "Proved for listeners registered while the variable is unassigned; the two witnesses show that a listener registered while the variable is assigned above root level, or only in a pushed core, misses a change, so the full statement is false of the code."
  },
  {
   "property": "C22",
   "status": "proved",
   "theorems": [
    "Semitone.C22_new_var",
    "Semitone.C22_fresh",
    "Semitone.C22_constants",
    "Semitone.C22_constants_legal"
   ],
   "note": "Every reachable state, with any theories respecting the contract."
  },
  {
   "property": "C23",
   "status": "partial",
   "theorems": [
    "Semitone.C23_partial",
    "Semitone.C23_add_exact",
    "Semitone.C23_known_term_lost"
   ],
   "note": "a += b, a + c, c + a, a += c proved for every module over the rationals; binary + adds the left known term twice (lin.cpp:26): exact formula and witness."
  },
  {
   "property": "C24",
   "status": "partial",
   "theorems": [
    "Semitone.C24_partial",
    "Semitone.C24_negation_terminates",
    "Semitone.C24_self_subtraction_ub"
   ],
   "note": "a - b, a -= b, a - c, a -= c proved; -a and c - a are proved to terminate the program for every expression with a variable (lin.cpp:176), a -= a is undefined behaviour."
  },
  {
   "property": "C25",
   "status": "partial",
   "theorems": [
    "Semitone.C25_partial",
    "Semitone.C25_mul_assign_exact",
    "Semitone.C25_mul_assign_wrong"
   ],
   "note": "a * c, c * a, a / c, a /= c proved; a *= c does not scale the known term (lin.cpp:152): exact formula and witness."
  },
  {
   "property": "C26",
   "status": "proved",
   "theorems": [
    "Semitone.C26_canonical",
    "Semitone.C26_scaled",
    "Semitone.C26_terms_are_dependencies",
    "Semitone.C26_unique",
    "Semitone.C26_mul_zero_not_canonical"
   ],
   "note": "All canonical expressions; C26_mul_zero_not_canonical records that a * 0 (outside the claim) keeps zero coefficients."
  },
  {
   "property": "C27",
   "status": "proved",
   "theorems": [
    "Semitone.DL.C27_distances_sound"
   ],
   "note": "Both theories (model over an ordered group, instances for integers and rationals with infinitesimals), all histories of assertions, push, pop and new_var."
  },
  {
   "property": "C28",
   "status": "proved",
   "theorems": [
    "Semitone.DL.C28_distances_tight"
   ],
   "note": "Closure of the asserted constraints, attained bounds and satisfiability in every history."
  },
  {
   "property": "C29",
   "status": "proved",
   "theorems": [
    "Semitone.DL.C29_conflicts_real",
    "Semitone.DL.C29_check_holds"
   ],
   "note": "A refused literal is inconsistent with the asserted constraints, an accepted one leaves the network consistent, the assertions of check hold."
  },
  {
   "property": "C30",
   "status": "partial",
   "theorems": [
    "Semitone.DL.C30_explanations_valid_partial",
    "Semitone.DL.C30_solver_partial",
    "Semitone.DL.C30_witness_pred",
    "Semitone.DL.C30_witness_constr"
   ],
   "note": "Proved for the histories in which no pair gets a second constraint and no distance with an indirect predecessor is shortened inside a level; outside of them the code gives invalid lemmas: set_pred saves the wrong predecessor (C30_witness_pred), dist_constr.emplace does not overwrite (C30_witness_constr)."
  },
  {
   "property": "C31",
   "status": "partial",
   "theorems": [
    "Semitone.DL.C31_pop_restores_partial",
    "Semitone.DL.C31_witness"
   ],
   "note": "Distances and constraints in force are restored in every history; the predecessors are not (C31_witness), because set_pred saves the wrong value."
  },
  {
   "property": "C36",
   "status": "partial",
   "theorems": [
    "Semitone.DL.C36_growth_partial",
    "Semitone.DL.C36_in_range",
    "Semitone.DL.C36_witness"
   ],
   "note": "Proved for initial capacity at least 1; with capacity 0 the time points are outside the matrix (C36_witness)."
  },
  {
   "property": "C32",
   "status": "proved",
   "theorems": [
    "Semitone.DL.C32_new_distance"
   ],
   "note": "Every history of either theory, all three outcomes; the effect of accepting the literal or its negation."
  },
  {
   "property": "C33",
   "status": "partial",
   "theorems": [
    "Semitone.DL.C33_idl_relations_partial",
    "Semitone.DL.C33_idl_controls_partial",
    "Semitone.DL.C33_idl_accepts",
    "Semitone.DL.C33_new_gt_wrong"
   ],
   "note": "All relations except new_gt in the two-variable case with positive first coefficient, where the code is wrong (witness C33_new_gt_wrong). The solver-level theorem excludes the histories with invalid explanations (see C30); the controls theorem covers all histories."
  },
  {
   "property": "C34",
   "status": "proved",
   "theorems": [
    "Semitone.DL.C34_rdl_controls",
    "Semitone.DL.C34_rdl_accepts"
   ],
   "note": "Every history of the rational theory. A solver-level version (C34_rdl_relations_partial) excludes the histories with invalid explanations (see C30)."
  },
  {
   "property": "C35",
   "status": "partial",
   "theorems": [
    "Semitone.DL.C35_idl_partial",
    "Semitone.DL.C35_rdl_partial",
    "Semitone.DL.C35_matches_partial",
    "Semitone.DL.C35_rdl_matches_partial",
    "Semitone.DL.C35_idl_witness",
    "Semitone.DL.C35_rdl_witness"
   ],
   "note": "Proved for the expressions the code handles correctly (constants, one variable with positive coefficient, unit differences); the witnesses show wrong answers for negative coefficients, scaled differences, known terms in distance and matches, and the orientation of two-variable bounds in the rational theory."
  },
  {
   "property": "C46",
   "status": "proved",
   "theorems": [
    "Semitone.LRA.C46_infinitesimals_to_rationals",
    "Semitone.LRA.C46_rationals",
    "Semitone.LRA.C46_equisatisfiable"
   ],
   "note": "Every finite system of linear constraints with strict and weak inequalities."
  },
  {
   "property": "C38",
   "status": "partial",
   "theorems": [
    "Semitone.LRA.C38_values_satisfy_definitions_partial",
    "Semitone.LRA.C38_witness"
   ],
   "note": "Proved for histories in which new_var(l) is called on expressions over non-basic variables (the relational constructors only do that); on an expression with a basic variable the code is wrong (C38_witness: update only touches the rows of the watched variable)."
  },
  {
   "property": "C39",
   "status": "partial",
   "theorems": [
    "Semitone.LRA.C39_check_gives_solution_partial",
    "Semitone.LRA.C39_witness"
   ],
   "note": "All histories of C38. With a basic variable in the expression given to new_var the full statement is false of the code (C39_witness)."
  },
  {
   "property": "C40",
   "status": "partial",
   "theorems": [
    "Semitone.LRA.C40_check_conflict_partial",
    "Semitone.LRA.C40_crossing_bounds_partial",
    "Semitone.LRA.C40_witness"
   ],
   "note": "All histories of C38; conflicts of check and crossing bounds. With a basic variable in the expression given to new_var the full statement is false of the code (C40_witness)."
  },
  {
   "property": "C41",
   "status": "partial",
   "theorems": [
    "Semitone.LRA.C41_check_terminates_partial",
    "Semitone.LRA.C41_witness"
   ],
   "note": "All histories of C38; Bland's rule, at most 4^n iterations. With a basic variable in the expression given to new_var, check can fail an assertion (C41_witness)."
  },
  {
   "property": "C42",
   "status": "partial",
   "theorems": [
    "Semitone.LRA.C42_propagation_partial",
    "Semitone.LRA.C42_witness"
   ],
   "note": "All histories of C38 in which no definition has a known term (the relational constructors only create such ones); with a known term row propagation records invalid clauses (C42_witness)."
  },
  {
   "property": "C43",
   "status": "partial",
   "theorems": [
    "Semitone.LRA.C43_pop_restores_partial",
    "Semitone.LRA.C43_bounds_restored",
    "Semitone.LRA.C43_witness"
   ],
   "note": "C43_bounds_restored: bounds, reasons and saved levels are restored in every history, without restriction on new_var(l). Consistency of the values with the definitions (C43_pop_restores_partial): all histories of C38; false of the code otherwise (C43_witness)."
  },
  {
   "property": "C44",
   "status": "partial",
   "theorems": [
    "Semitone.LRA.C44_relations_partial",
    "Semitone.LRA.C44_equality_partial",
    "Semitone.LRA.C44_answers_partial",
    "Semitone.LRA.C44_witness"
   ],
   "note": "All histories of the core with the theory in which new_var(l) is only called without known term on non-basic variables and simplify_db only when no clause is watched on a false literal. With a known term the full statement is false of the code (C44_witness)."
  },
  {
   "property": "C45",
   "status": "proved",
   "theorems": [
    "Semitone.LRA.C45_enclose",
    "Semitone.LRA.C45_tight",
    "Semitone.LRA.C45_matches",
    "Semitone.LRA.C45_matches_exact"
   ],
   "note": "Every state and every expression; the bounds are also attained, and matches is exact on the two intervals."
  },
  {
   "property": "C48",
   "status": "partial",
   "theorems": [
    "Semitone.LRA.C48_sound_partial",
    "Semitone.LRA.C48_definitive_partial",
    "Semitone.LRA.C48_bounds_partial",
    "Semitone.LRA.C48_witness"
   ],
   "note": "All histories of C44. With a known term in the expression given to new_var, propagate() can answer false on a satisfiable problem (C48_witness)."
  },
  {
   "property": "C49",
   "status": "proved",
   "theorems": [
    "Semitone.OV.C49_exactly_one",
    "Semitone.OV.C49_each_item",
    "Semitone.OV.C49_nothing_else",
    "Semitone.OV.C49_returns"
   ],
   "note": "For every reachable state of a core with any theories satisfying the contract and every domain (repetitions included): in every solution of every later state exactly one item is selected; every earlier solution extends to one that selects any given item (hypothesis Local: the theories do not constrain the variables that do not exist yet); nothing else changes; at root level the call returns unless the network has no solution."
  },
  {
   "property": "C50",
   "status": "proved",
   "theorems": [
    "Semitone.OV.C50_means_equal",
    "Semitone.OV.C50_means_sets",
    "Semitone.OV.C50_preserves",
    "Semitone.OV.C50_same_literal",
    "Semitone.OV.C50_returns"
   ],
   "note": "In every later state; earlier solutions in which both variables select exactly one value are preserved; C50_means_sets describes variables over given literals, for which several values may be selected."
  },
  {
   "property": "C51",
   "status": "proved",
   "theorems": [
    "Semitone.OV.C51_value",
    "Semitone.OV.C51_value_items",
    "Semitone.OV.C51_contains",
    "Semitone.OV.C51_allows",
    "Semitone.OV.C51_allows_lits"
   ],
   "note": "In every reachable state, at every decision level."
  },
  {
   "property": "C52",
   "status": "proved",
   "theorems": [
    "Semitone.OV.C52_hears",
    "Semitone.OV.C52_root",
    "Semitone.OV.C52_single"
   ],
   "note": "Registration at root level, or above it while no value is decided except for good. Outside that case the claim is false of the code: OV.C52_late_listener_misses_value exhibits a listener registered while a decision excludes a value, which is not told when the value comes back."
  },
  {
   "property": "C37",
   "status": "proved",
   "theorems": [
    "Semitone.DL.C37_simulates",
    "Semitone.DL.C37_no_overflow",
    "Semitone.DL.C37_new_distance"
   ],
   "note": "A second model with checked 64-bit operations and the inf() sentinel is proved to simulate the exact one; C37_witness_large shows that a constraint as large as inf() is taken for one that always holds. The rational arithmetic on linear expressions is outside."
  },
  {
   "property": "C47",
   "status": "partial",
   "theorems": [
    "Semitone.LRA.C47_partial",
    "Semitone.LRA.C47_witness",
    "Semitone.LRA.C47_example"
   ],
   "note": "False of the code: the copy constructor resizes t_watches but does not register the copied rows in it, so bounds asserted on the copy are not propagated through rows and values of derived variables are not updated (C47_witness). Proved for states without derived variables: the copy is the original up to the order of the assertions of each variable, and every later sequence of calls gets the same answers, makes the same literals true and ends with the same bounds, reasons and values."
  },
  {
   "property": "C53",
   "status": "proved",
   "theorems": [
    "Semitone.DL.C53_copy_same",
    "Semitone.DL.C53_pop_own"
   ],
   "note": "For both number types. The layers of the copy hold pointers to the constraint objects of the original; C53_pop_own shows that pop never uses them."
  },
  {
   "property": "C54",
   "status": "proved",
   "theorems": [
    "Semitone.LRA.C54_relations",
    "Semitone.LRA.C54_equality",
    "Semitone.LRA.C54_answers",
    "Semitone.LRA.C54_sound",
    "Semitone.LRA.C54_definitive",
    "Semitone.LRA.C54_bounds"
   ],
   "note": "Every session (ZReach in LRA/Session.lean)."
  },
  {
   "property": "C55",
   "status": "proved",
   "theorems": [
    "Semitone.LRA.C55_core_calls",
    "Semitone.LRA.C55_theory_calls",
    "Semitone.LRA.C55_witness_unpropagated"
   ],
   "note": "Every session. C55_witness_unpropagated shows why imposed bounds must be propagated before a decision: otherwise an assertion of the conflict analysis fails. Failures of memory allocation and overflow of the 64-bit rationals are outside the model."
  },
  {
   "property": "C56",
   "status": "proved",
   "theorems": [
    "Semitone.LRA.C56_values_any",
    "Semitone.LRA.C56_clauses_any",
    "Semitone.LRA.C56_solution_any",
    "Semitone.LRA.C56_values",
    "Semitone.LRA.C56_clauses",
    "Semitone.LRA.C56_solution"
   ],
   "note": "Every session (Play), decisions taken before the imposed bounds are propagated included, and every call that propagates and returns true."
  },
  {
   "property": "C57",
   "status": "proved",
   "theorems": [
    "Semitone.C57_core_decides",
    "Semitone.LRA.C57_lra_decides"
   ],
   "note": "The client is Sat.solve; it decides from any non-inconsistent state, with decisions already taken or not."
  },
  {
   "property": "C58",
   "status": "proved",
   "theorems": [
    "Semitone.LRA.C58_told",
    "Semitone.LRA.C58_change",
    "Semitone.LRA.C58_listen",
    "Semitone.LRA.C58_permanent",
    "Semitone.LRA.C58_witness_late"
   ],
   "note": "Every reachable state and every later sequence of calls (ACalls). C58_witness_late shows that the hypothesis on the bounds is needed: a registration made while decisions fix the variable is dropped, and the listener misses the changes that follow backtracking."
  },
  {
   "property": "C59",
   "status": "partial",
   "theorems": [
    "Semitone.DL.C59_told_partial",
    "Semitone.DL.C59_exact_partial",
    "Semitone.DL.C59_solver_partial",
    "Semitone.DL.C59_permanent",
    "Semitone.DL.C59_listen",
    "Semitone.DL.C59_witness_pop",
    "Semitone.DL.C59_witness_late"
   ],
   "note": "False of the code when a level is closed: pop() restores looser bounds without notifying (C59_witness_pop). Proved: for every history, the bounds read last are at least as tight as the current ones, and they are exactly the current ones as long as no level is closed; also inside the core (C59_solver_partial, histories as in C30). C59_witness_late: the rational theory drops registrations made while the time point is fixed."
  },
  {
   "property": "C60",
   "status": "partial",
   "theorems": [
    "Semitone.DL.C60_sound_partial",
    "Semitone.DL.C60_definitive_partial",
    "Semitone.DL.C60_witness"
   ],
   "note": "Every session (DSess in DL/Session.lean) in which no call tells the theory a literal in an unsafe situation (Avoids: a second constraint in force on a pair, or, inside a level, the shortening of a distance whose predecessor is not restored). Otherwise false of the code: C60_witness, propagate() answers false on a satisfiable network."
  },
  {
   "property": "C61",
   "status": "partial",
   "theorems": [
    "Semitone.DL.C61_core_calls_partial",
    "Semitone.DL.C61_theory_calls",
    "Semitone.DL.C61_witness"
   ],
   "note": "Sessions and calls as in C60. Otherwise false of the code: C61_witness, a legal assume has undefined behaviour."
  },
  {
   "property": "C62",
   "status": "proved",
   "theorems": [
    "Semitone.DL.C62_positions",
    "Semitone.DL.C62_clauses",
    "Semitone.DL.C62_solution"
   ],
   "note": "Every session (Play), unsafe propagations and wrong lemmas included; only calls that fail (C61) end it."
  },
  {
   "property": "C63",
   "status": "partial",
   "theorems": [
    "Semitone.DL.C63_decides_partial",
    "Semitone.DL.C63_witness"
   ],
   "note": "Sessions as in C60 in which the run of the client reaches no unsafe propagation (SolveAvoids). Otherwise false of the code: C63_witness."
  },
  {
   "property": "C64",
   "status": "proved",
   "theorems": [
    "Semitone.Lin.C64_lin_text",
    "Semitone.C64_assertion_text",
    "Semitone.C64_object_text",
    "Semitone.C64_expression_cache",
    "Semitone.C64_assertion_cache",
    "Semitone.C64_object_cache",
    "Semitone.C64_variable_text",
    "Semitone.Lin.C64_lin_reads"
   ],
   "note": "Text/Lin.lean models to_string(lin) character by character; how utils prints a rational is a parameter with the stated assumptions (RatText, InfText), which the usual way of printing is proved to meet (RatText.std)."
  },
  {
   "property": "C65",
   "status": "proved",
   "theorems": [
    "Semitone.Sat.C65_core_dump",
    "Semitone.Sat.C65_core_values",
    "Semitone.LRA.C65_lra_dump",
    "Semitone.Sat.C65_core_reads",
    "Semitone.LRA.C65_lra_reads"
   ],
   "note": "Text/Json.lean. The json library is external: objects are lists of fields."
  },
  {
   "property": "C66",
   "status": "partial",
   "theorems": [
    "Semitone.Mix.C66_sound_partial",
    "Semitone.Mix.C66_definitive_partial",
    "Semitone.Mix.C66_arith_partial",
    "Semitone.Mix.C66_var_partial",
    "Semitone.Mix.C66_bounds_partial",
    "Semitone.Mix.C66_distance_partial",
    "Semitone.Mix.C66_idl_partial",
    "Semitone.Mix.C66_rdl_partial",
    "Semitone.Family.C77_sound_partial",
    "Semitone.Family.C77_definitive_partial",
    "Semitone.Family.C77_arith_bounds_partial",
    "Semitone.Family.C77_arith_partial",
    "Semitone.Family.C77_arith_var_partial",
    "Semitone.Family.C77_arith_set_partial",
    "Semitone.Family.C77_distances_partial",
    "Semitone.Family.C77_distance_partial",
    "Semitone.Family.C77_diff_partial",
    "Semitone.Family.C77_object_values_partial",
    "Semitone.Family.C77_object_partial",
    "Semitone.Family.C77_object_lits_partial",
    "Semitone.Family.C77_object_eq_partial",
    "Semitone.Mix.C66_witness"
   ],
   "note": "The Family theorems cover any number of theories of any kind, the Mix ones one arithmetic and one difference-logic theory. Every session (Mix.Sess in Mix/Session.lean) in which no call tells the difference-logic theory a literal in an unsafe situation (as in C60; the new_gt of C33 is excepted too). Otherwise false of the code: C66_witness."
  },
  {
   "property": "C67",
   "status": "partial",
   "theorems": [
    "Semitone.Mix.C67_core_calls_partial",
    "Semitone.Mix.C67_theory_calls",
    "Semitone.Family.C78_total_partial",
    "Semitone.Family.C78_arith_calls_partial",
    "Semitone.Family.C78_object_calls_partial",
    "Semitone.Mix.C67_witness"
   ],
   "note": "The Family theorems cover any number of theories. Sessions and calls as in C66. Otherwise false of the code: C67_witness, a legal assume has undefined behaviour."
  },
  {
   "property": "C68",
   "status": "proved",
   "theorems": [
    "Semitone.Mix.C68_backed",
    "Semitone.Mix.C68_clauses",
    "Semitone.Mix.C68_solution"
   ],
   "note": "Every session (Mix.Play), unsafe propagations, wrong lemmas and unpropagated bounds included; only calls that fail (C67) end it."
  },
  {
   "property": "C69",
   "status": "partial",
   "theorems": [
    "Semitone.Mix.C69_decides_partial",
    "Semitone.Family.C79_decides_partial",
    "Semitone.Mix.C69_witness"
   ],
   "note": "The Family theorem covers any number of theories. Sessions as in C66 in which the run of the client reaches no unsafe propagation (SolveAvoids). Otherwise false of the code: C69_witness."
  },
  {
   "property": "C70",
   "status": "proved",
   "theorems": [
    "Semitone.C70_conj",
    "Semitone.C70_disj",
    "Semitone.C70_eq",
    "Semitone.C70_amo",
    "Semitone.C70_exo",
    "Semitone.LRA.C70_relations",
    "Semitone.LRA.C70_relations_rewritten"
   ],
   "note": "The core is not inconsistent after the first request (otherwise the literal is meaningless). The difference-logic constructors do not share literals and are not part of the claim."
  },
  {
   "property": "C71",
   "status": "proved",
   "theorems": [
    "Semitone.C71_any",
    "Semitone.C71_core",
    "Semitone.LRA.C71_lra",
    "Semitone.DL.C71_dl",
    "Semitone.Mix.C71_mix",
    "Semitone.DL.C71_witness"
   ],
   "note": "Difference logic: sessions as in C60; DL.C71_witness shows what happens outside (an invalid lemma of difference logic leaves a clause with one literal, whose destructor reads the second one)."
  },
  {
   "property": "C72",
   "status": "proved",
   "theorems": [
    "Semitone.DL.C72_dl_returns",
    "Semitone.LRA.C72_lra_returns",
    "Semitone.Mix.C72_mix_returns"
   ],
   "note": "Every session (Play), only calls that fail end it. A loop that does not end is the outcome Err.fuel of the model."
  },
  {
   "property": "C73",
   "status": "proved",
   "theorems": [
    "Semitone.DL.C73_dl_stops",
    "Semitone.LRA.C73_lra_stops",
    "Semitone.Mix.C73_mix_stops"
   ],
   "note": "Every session (Play). The client may still meet a call that fails, and an answer false may be wrong with difference logic: C63, C69."
  },
  {
   "property": "C74",
   "status": "proved",
   "theorems": [
    "Semitone.DL.C74_core",
    "Semitone.DL.C74_distance",
    "Semitone.DL.C74_distance2",
    "Semitone.DL.C74_relation",
    "Semitone.Mix.C74_core",
    "Semitone.Mix.C74_arith",
    "Semitone.Mix.C74_arith_eq",
    "Semitone.Mix.C74_arith_var",
    "Semitone.Mix.C74_distance",
    "Semitone.Mix.C74_diff"
   ],
   "note": "Every session (DL.Play, Mix.Play; Turn and Later are its calls and their sequences). What a call of the core may be expected to mean is Sat.Promise (the limits are those of C15-C17); the new_gt of C33 is excepted."
  },
  {
   "property": "C75",
   "status": "proved",
   "theorems": [
    "Semitone.Comp.C75_core",
    "Semitone.Comp.C75_clauses",
    "Semitone.Comp.C75_arith_backed",
    "Semitone.Comp.C75_diff_backed",
    "Semitone.Comp.C75_arith",
    "Semitone.Comp.C75_arith_eq",
    "Semitone.Comp.C75_arith_var",
    "Semitone.Comp.C75_distance",
    "Semitone.Comp.C75_diff",
    "Semitone.Comp.C75_object",
    "Semitone.Comp.C75_object_value",
    "Semitone.Comp.C75_object_lits",
    "Semitone.Comp.C75_object_eq"
   ],
   "note": "Every session (Comp.Play) of any product of the theories LRA.comp, DL.comp (integers and reals) and OV.comp; Comp.Within picks one of them. What a call of the core may be expected to mean is Sat.Promise (the limits are those of C15-C17); the new_gt of C33 is excepted."
  },
  {
   "property": "C76",
   "status": "proved",
   "theorems": [
    "Semitone.Comp.C76_returns",
    "Semitone.Comp.C76_arith_returns",
    "Semitone.Comp.C76_diff_returns",
    "Semitone.Comp.C76_object_returns",
    "Semitone.Comp.C76_stops",
    "Semitone.Comp.C76_arith_solution",
    "Semitone.Comp.C76_diff_solution",
    "Semitone.Comp.C76_object_solution"
   ],
   "note": "Sessions as in C75. The client may still meet a call that fails, and an answer false may be wrong with difference logic: C63, C69."
  },
  {
   "property": "C77",
   "status": "proved",
   "theorems": [
    "Semitone.Family.C77_sound",
    "Semitone.Family.C77_definitive",
    "Semitone.Family.C77_arith_bounds",
    "Semitone.Family.C77_arith",
    "Semitone.Family.C77_arith_var",
    "Semitone.Family.C77_arith_set",
    "Semitone.Family.C77_object_values",
    "Semitone.Family.C77_object",
    "Semitone.Family.C77_object_lits",
    "Semitone.Family.C77_object_eq"
   ],
   "note": "Every plain family (Family in Lib/Family.lean, without difference logic), every session (Comp.Session). The theorems with suffix _partial extend this to families with difference logic as long as its explanation bugs are not met: they are listed under C66, C67 and C69."
  },
  {
   "property": "C78",
   "status": "proved",
   "theorems": [
    "Semitone.Family.C78_total",
    "Semitone.Family.C78_arith_calls",
    "Semitone.Family.C78_object_calls"
   ],
   "note": "Sessions of C77. Failures of memory allocation and overflow of the 64-bit rationals are outside the model."
  },
  {
   "property": "C79",
   "status": "proved",
   "theorems": [
    "Semitone.Family.C79_decides"
   ],
   "note": "Sessions of C77; the client is Sat.solve."
  },
  {
   "property": "C80",
   "status": "partial",
   "theorems": [
    "Semitone.LRA.C80_lra_bounds_partial",
    "Semitone.LRA.C80_lra_core_partial",
    "Semitone.DL.C80_dl_distances_partial",
    "Semitone.DL.C80_dl_core_partial",
    "Semitone.Kit.C80_arith_partial",
    "Semitone.Kit.C80_diff_partial",
    "Semitone.Kit.C80_object_partial",
    "Semitone.Sat.step_tc",
    "Semitone.Sat.Layered.restores",
    "Semitone.LRA.C80_lra_case",
    "Semitone.DL.C80_dl_case",
    "Semitone.Kit.C80_pair_case",
    "Semitone.LRA.C80_witness_levels",
    "Semitone.LRA.C80_witness_literal",
    "Semitone.LRA.C80_witness_bounds",
    "Semitone.DL.C80_witness_levels",
    "Semitone.DL.C80_witness_constraint",
    "Semitone.Kit.C80_witness_equality"
   ],
   "note": "Proved for every state, any number of theories and any calls on the pushed core (stacks inside included) that end at its root level: bounds of the arithmetic variables, distances of the time points, values of the object variables (for these also with decisions open), cores below. Missing, because false of the code (witnesses): dropped cores with decisions open, relations, equalities and definitions first made on the pushed core, difference constraints made on the pushed core."
  },
  {
   "property": "C81",
   "status": "proved",
   "theorems": [
    "Semitone.Family.C81_calls_succeed",
    "Semitone.Family.C81_push_succeeds",
    "Semitone.Family.C81_pop_succeeds",
    "Semitone.Family.C81_sound",
    "Semitone.Family.C81_definitive",
    "Semitone.Family.C81_complete",
    "Semitone.Family.C81_decides",
    "Semitone.Family.C81_resumes",
    "Semitone.Family.C81_arith_bounds",
    "Semitone.Family.C81_arith",
    "Semitone.Family.C81_arith_calls",
    "Semitone.Family.C81_object_values",
    "Semitone.Family.C81_object"
   ],
   "note": "Sessions Comp.StackSession of plain families (no difference logic). Calls of the theories are made while the stack has one core and pop is called with no decision open: C80 has the witnesses of what goes wrong otherwise. The theorems with suffix _partial in Lib/Stacks.lean extend this to families with difference logic as long as its explanation bugs are not met."
  },
  {
   "property": "C82",
   "status": "proved",
   "theorems": [
    "Semitone.Family.C82_decides",
    "Semitone.Family.C82_same_answer",
    "Semitone.Family.C82_definitive",
    "Semitone.Family.C82_values",
    "Semitone.Family.C82_bounds",
    "Semitone.Family.C82_object",
    "Semitone.Family.C82_refused",
    "Semitone.Family.C82_exact",
    "Semitone.Family.C82_answered"
   ],
   "note": "Specification: Lib/Talk.lean (Said, Said.holds, Meets, Talk). Plain families (no difference logic, whose explanation bugs make the claim false: C66, C69). Requests not covered: sat_core::new_eq, new_at_most_one and new_exct_one (their literals can be wrong: C15, C16, C17), new_var(lin) with a known term or basic variables (wrong: C38, C42), the object variables of new_var(lits, vals) and new_var without enforcement; they can be made in the sessions of C77."
  },
  {
   "property": "C83",
   "status": "proved",
   "theorems": [
    "Semitone.Family.C83_assuming",
    "Semitone.Family.C83_decides",
    "Semitone.Family.C83_same_answer",
    "Semitone.Family.C83_definitive",
    "Semitone.Family.C83_values",
    "Semitone.Family.C83_bounds",
    "Semitone.Family.C83_object",
    "Semitone.Family.C83_exact",
    "Semitone.Family.C83_push_pop",
    "Semitone.Family.C83_answered",
    "Semitone.Family.C83_single"
   ],
   "note": "Specification: Lib/StackTalk.lean (assuming, StackTalk) on top of Lib/Talk.lean (Said, Said.holds, Meets). Plain families (no difference logic). With more than one core on the stack, the requests are those of the core (variables, clauses, conj, disj, next, search) and allows; those that make variables, relations or bounds of the theories are made while the stack has one core, and pop is called with no decision of the top core open: C80 has the witnesses of what goes wrong otherwise."
  },
  {
   "property": "C84",
   "status": "partial",
   "theorems": [
    "Semitone.Family.C84_decides_partial",
    "Semitone.Family.C84_definitive_partial",
    "Semitone.Family.C84_values_partial",
    "Semitone.Family.C84_distances_partial",
    "Semitone.Family.C84_bounds_partial",
    "Semitone.Family.C84_object_partial",
    "Semitone.Family.C84_exact_partial",
    "Semitone.Family.C84_same_answer_partial",
    "Semitone.Family.C84_answered_partial",
    "Semitone.Family.C84_relations_partial"
   ],
   "note": "Specification: Lib/Talk.lean (Said, Said.holds, Meets, SafeTalk). Every family of theories of the three kinds, every sequence of requests. Proved as long as no theory of difference logic is told a literal in an unsafe situation (Family.safe: the call would fail with excluded). Missing, because false of the code: in those situations difference logic records wrong explanations and the answer may be wrong (C63, C66, Mix.C66_witness; C69); the literal of new_gt for c (x - y) + k > 0 with c > 0 is wrong (C33, DL.C33_new_gt_wrong). Relations of linear expressions are requests over the integers; real difference logic: new_distance."
  },
  {
   "property": "C85",
   "status": "partial",
   "theorems": [
    "Semitone.Family.C85_decides_partial",
    "Semitone.Family.C85_same_answer_partial",
    "Semitone.Family.C85_definitive_partial",
    "Semitone.Family.C85_values_partial",
    "Semitone.Family.C85_distances_partial",
    "Semitone.Family.C85_bounds_partial",
    "Semitone.Family.C85_object_partial",
    "Semitone.Family.C85_exact_partial",
    "Semitone.Family.C85_push_pop_partial",
    "Semitone.Family.C85_answered_partial",
    "Semitone.Family.C85_relations_partial",
    "Semitone.Family.C85_single_partial"
   ],
   "note": "Specification: Lib/StackTalk.lean (assuming, SafeStackTalk) on top of Lib/Talk.lean. Every family of theories of the three kinds, every depth. Proved as long as no theory of difference logic is told a literal in an unsafe situation (Family.safe: the call would fail with excluded). Missing, because false of the code: in those situations difference logic records wrong explanations and the answer may be wrong (C63, C66, Mix.C66_witness; C69). Calls of the theories only while the stack has one core (C80)."
  }
 ]
}