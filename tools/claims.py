CLAIMS = []
def c(p, st, th, n): CLAIMS.append((p, st, th, n))
N = "Semitone."
c("C01", "proved", [N + x for x in ["C01_variable", "C01_sign", "C01_neg", "C01_neg_involutive", "C01_injective", "C01_index", "C01_undef", "C01_bound_sharp"]],
  "Packed 64-bit representation of lit.h, all variables below 2^63-1; C01_bound_sharp shows the bound is sharp.")
def pr(p, names, n, st="proved"): c(p, st, [N + x for x in names.split()], n)
pr("C02", "C02_network_is_posted C02_new_clause C02_defined C02_only", "Reachable histories over any theory satisfying the recorded contract; the stored network (clauses + root facts) has the same solutions as what was posted.")
pr("C03", "C03_values_are_consequences C03_root C03_false C03_legal", "Every value is a consequence of posted clauses, theory and decisions up to its level.")
pr("C04", "C04_learnt_clauses_are_consequences C04_legal C04_no_solution_lost", "Stored (hence learnt) clauses follow from the posted network.")
pr("C05", "C05_propagate C05_assume C05_assume_false C05_next C05_simplify C05_forever", "A false answer means unsatisfiable, and stays so in every later history.")
pr("C06", "C06_propagate_reaches_fixpoint C06_every_quiet_state C06_queue_empty", "Unit-propagation fixpoint after propagate and in every legal quiet state (no theories attached).")
pr("C07", "C07_complete_assignment_is_model C07_solution", "A complete conflict-free assignment is a model of everything posted.")
pr("C08", "C08_legal_calls_succeed C08_copy_succeeds C08_next_precondition_needed", "Legal calls never hit an assertion, out-of-range access or empty container; C08_next_precondition_needed shows one stated precondition is needed.")
pr("C09", "C09_propagate C09_progress C09_assume C09_check", "Termination of the propagate/analyze loop with no bound on the history.")
pr("C10", "C10_pop C10_assume_pop", "pop restores values, levels and reasons exactly.")
pr("C11", "C11_answer_sound C11_partial C11_partial_same_level C11_context_lost", "The answer is sound always; the context is restored when no backjump goes below the caller's level. C11_context_lost is a reachable witness on which the real code loses a caller's decision, so the full statement is false of the code.", "partial")
pr("C12", "C12_root C12_next C12_never_again C12_never_again_state", "next() excludes the current decisions in every later history.")
pr("C13", "C13_new_conj", "Every reachable root state, every vector of literals.")
pr("C14", "C14_new_disj", "Every reachable root state, every vector of literals.")
pr("C15", "C15_partial Sat.C15_sign_exact C15_wrong_sign C15_not_complete", "Proved where the code is right; the witnesses show the code returns a wrong literal when an operand is decided (sign error) and misses a clause otherwise, so the full statement is false of the code. C15_sign_exact says exactly what is returned in the sign-error case.", "partial")
pr("C16", "C16_partial Sat.C16_any_partial C16_true_literal C16_duplicates", "Proved for vectors of distinct literals none of which is already true; the two witnesses show the code is wrong outside; C16_any_partial says what holds for every vector.", "partial")
pr("C17", "C17_partial Sat.C17_any_partial C17_true_literal C17_negative_singleton C17_shared_with_amo", "Proved for vectors of distinct literals none of which is already true and a new expression; witnesses for the excluded cases; C17_any_partial says what holds for every vector.", "partial")
pr("C18", "C18_keys_injective C18_eq_key C18_cached_meaning", "Injectivity of the textual keys over all expressions and meaning of every cached literal in every later state.")
pr("C19", "C19_false C19_same_solutions C19_removed", "Legal root states of the propositional core: same compatible assignments, exactly the satisfied clauses and the false literals are removed.")
pr("C20", "C20_values C20_constraints C20_push C20_stack", "Copies of legal cores at any decision level; pop of the stack gives the previous core back (the ghost log of notifications aside).")
pr("C21", "C21_partial C21_listen C21_no_other C21_until_root C21_stack C21_late_listener_misses_pop C21_pushed_listener_misses_stack_pop", "Proved for listeners registered while the variable is unassigned; the two witnesses show that a listener registered while the variable is assigned above root level, or only in a pushed core, misses a change, so the full statement is false of the code.", "partial")
pr("C22", "C22_new_var C22_fresh C22_constants C22_constants_legal", "Every reachable state, with any theories respecting the contract.")
pr("C23", "C23_partial C23_add_exact C23_known_term_lost", "a += b, a + c, c + a, a += c proved for every module over the rationals; binary + adds the left known term twice (lin.cpp:26): exact formula and witness.", "partial")
pr("C24", "C24_partial C24_negation_terminates C24_self_subtraction_ub", "a - b, a -= b, a - c, a -= c proved; -a and c - a are proved to terminate the program for every expression with a variable (lin.cpp:176), a -= a is undefined behaviour.", "partial")
pr("C25", "C25_partial C25_mul_assign_exact C25_mul_assign_wrong", "a * c, c * a, a / c, a /= c proved; a *= c does not scale the known term (lin.cpp:152): exact formula and witness.", "partial")
pr("C26", "C26_canonical C26_scaled C26_terms_are_dependencies C26_unique C26_mul_zero_not_canonical", "All canonical expressions; C26_mul_zero_not_canonical records that a * 0 (outside the claim) keeps zero coefficients.")
pr("C27", "DL.C27_distances_sound", "Both theories (model over an ordered group, instances for integers and rationals with infinitesimals), all histories of assertions, push, pop and new_var.")
pr("C28", "DL.C28_distances_tight", "Closure of the asserted constraints, attained bounds and satisfiability in every history.")
pr("C29", "DL.C29_conflicts_real DL.C29_check_holds", "A refused literal is inconsistent with the asserted constraints, an accepted one leaves the network consistent, the assertions of check hold.")
pr("C30", "DL.C30_explanations_valid_partial DL.C30_solver_partial DL.C30_witness_pred DL.C30_witness_constr", "Proved for the histories in which no pair gets a second constraint and no distance with an indirect predecessor is shortened inside a level; outside of them the code gives invalid lemmas: set_pred saves the wrong predecessor (C30_witness_pred), dist_constr.emplace does not overwrite (C30_witness_constr).", "partial")
pr("C31", "DL.C31_pop_restores_partial DL.C31_witness", "Distances and constraints in force are restored in every history; the predecessors are not (C31_witness), because set_pred saves the wrong value.", "partial")
pr("C36", "DL.C36_growth_partial DL.C36_in_range DL.C36_witness", "Proved for initial capacity at least 1; with capacity 0 the time points are outside the matrix (C36_witness).", "partial")
pr("C32", "DL.C32_new_distance", "Every history of either theory, all three outcomes; the effect of accepting the literal or its negation.")
pr("C33", "DL.C33_idl_relations_partial DL.C33_idl_controls_partial DL.C33_idl_accepts DL.C33_new_gt_wrong", "All relations except new_gt in the two-variable case with positive first coefficient, where the code is wrong (witness C33_new_gt_wrong). The solver-level theorem excludes the histories with invalid explanations (see C30); the controls theorem covers all histories.", "partial")
pr("C34", "DL.C34_rdl_controls DL.C34_rdl_accepts", "Every history of the rational theory. A solver-level version (C34_rdl_relations_partial) excludes the histories with invalid explanations (see C30).")
pr("C35", "DL.C35_idl_partial DL.C35_rdl_partial DL.C35_matches_partial DL.C35_rdl_matches_partial DL.C35_idl_witness DL.C35_rdl_witness", "Proved for the expressions the code handles correctly (constants, one variable with positive coefficient, unit differences); the witnesses show wrong answers for negative coefficients, scaled differences, known terms in distance and matches, and the orientation of two-variable bounds in the rational theory.", "partial")
pr("C46", "LRA.C46_infinitesimals_to_rationals LRA.C46_rationals LRA.C46_equisatisfiable", "Every finite system of linear constraints with strict and weak inequalities.")
pr("C38", "LRA.C38_values_satisfy_definitions_partial LRA.C38_witness", "Proved for histories in which new_var(l) is called on expressions over non-basic variables (the relational constructors only do that); on an expression with a basic variable the code is wrong (C38_witness: update only touches the rows of the watched variable).", "partial")
pr("C39", "LRA.C39_check_gives_solution_partial LRA.C39_witness", "All histories of C38. With a basic variable in the expression given to new_var the full statement is false of the code (C39_witness).", "partial")
pr("C40", "LRA.C40_check_conflict_partial LRA.C40_crossing_bounds_partial LRA.C40_witness", "All histories of C38; conflicts of check and crossing bounds. With a basic variable in the expression given to new_var the full statement is false of the code (C40_witness).", "partial")
pr("C41", "LRA.C41_check_terminates_partial LRA.C41_witness", "All histories of C38; Bland's rule, at most 4^n iterations. With a basic variable in the expression given to new_var, check can fail an assertion (C41_witness).", "partial")
pr("C42", "LRA.C42_propagation_partial LRA.C42_witness", "All histories of C38 in which no definition has a known term (the relational constructors only create such ones); with a known term row propagation records invalid clauses (C42_witness).", "partial")
pr("C43", "LRA.C43_pop_restores_partial LRA.C43_bounds_restored LRA.C43_witness", "C43_bounds_restored: bounds, reasons and saved levels are restored in every history, without restriction on new_var(l). Consistency of the values with the definitions (C43_pop_restores_partial): all histories of C38; false of the code otherwise (C43_witness).", "partial")
pr("C44", "LRA.C44_relations_partial LRA.C44_equality_partial LRA.C44_answers_partial LRA.C44_witness", "All histories of the core with the theory in which new_var(l) is only called without known term on non-basic variables and simplify_db only when no clause is watched on a false literal. With a known term the full statement is false of the code (C44_witness).", "partial")
pr("C45", "LRA.C45_enclose LRA.C45_tight LRA.C45_matches LRA.C45_matches_exact", "Every state and every expression; the bounds are also attained, and matches is exact on the two intervals.")
pr("C48", "LRA.C48_sound_partial LRA.C48_definitive_partial LRA.C48_bounds_partial LRA.C48_witness", "All histories of C44. With a known term in the expression given to new_var, propagate() can answer false on a satisfiable problem (C48_witness).", "partial")
pr("C49", "OV.C49_exactly_one OV.C49_each_item OV.C49_nothing_else OV.C49_returns", "For every reachable state of a core with any theories satisfying the contract and every domain (repetitions included): in every solution of every later state exactly one item is selected; every earlier solution extends to one that selects any given item (hypothesis Local: the theories do not constrain the variables that do not exist yet); nothing else changes; at root level the call returns unless the network has no solution.", "proved")
pr("C50", "OV.C50_means_equal OV.C50_means_sets OV.C50_preserves OV.C50_same_literal OV.C50_returns", "In every later state; earlier solutions in which both variables select exactly one value are preserved; C50_means_sets describes variables over given literals, for which several values may be selected.", "proved")
pr("C51", "OV.C51_value OV.C51_value_items OV.C51_contains OV.C51_allows OV.C51_allows_lits", "In every reachable state, at every decision level.", "proved")
pr("C52", "OV.C52_hears OV.C52_root OV.C52_single", "Registration at root level, or above it while no value is decided except for good. Outside that case the claim is false of the code: OV.C52_late_listener_misses_value exhibits a listener registered while a decision excludes a value, which is not told when the value comes back.", "proved")
pr("C37", "DL.C37_simulates DL.C37_no_overflow DL.C37_new_distance", "A second model with checked 64-bit operations and the inf() sentinel is proved to simulate the exact one; C37_witness_large shows that a constraint as large as inf() is taken for one that always holds. The rational arithmetic on linear expressions is outside.", "proved")
pr("C47", "LRA.C47_partial LRA.C47_witness LRA.C47_example", "False of the code: the copy constructor resizes t_watches but does not register the copied rows in it, so bounds asserted on the copy are not propagated through rows and values of derived variables are not updated (C47_witness). Proved for states without derived variables: the copy is the original up to the order of the assertions of each variable, and every later sequence of calls gets the same answers, makes the same literals true and ends with the same bounds, reasons and values.", "partial")
pr("C53", "DL.C53_copy_same DL.C53_pop_own", "For both number types. The layers of the copy hold pointers to the constraint objects of the original; C53_pop_own shows that pop never uses them.", "proved")
pr("C54", "LRA.C54_relations LRA.C54_equality LRA.C54_answers LRA.C54_sound LRA.C54_definitive LRA.C54_bounds", "Every session (ZReach in LRA/Session.lean).", "proved")
pr("C55", "LRA.C55_core_calls LRA.C55_theory_calls LRA.C55_witness_unpropagated", "Every session. C55_witness_unpropagated shows why imposed bounds must be propagated before a decision: otherwise an assertion of the conflict analysis fails. Failures of memory allocation and overflow of the 64-bit rationals are outside the model.", "proved")
pr("C56", "LRA.C56_values_any LRA.C56_clauses_any LRA.C56_solution_any LRA.C56_values LRA.C56_clauses LRA.C56_solution", "Every session (Play), decisions taken before the imposed bounds are propagated included, and every call that propagates and returns true.", "proved")
pr("C57", "C57_core_decides LRA.C57_lra_decides", "The client is Sat.solve; it decides from any non-inconsistent state, with decisions already taken or not.", "proved")
pr("C58", "LRA.C58_told LRA.C58_change LRA.C58_listen LRA.C58_permanent LRA.C58_witness_late", "Every reachable state and every later sequence of calls (ACalls). C58_witness_late shows that the hypothesis on the bounds is needed: a registration made while decisions fix the variable is dropped, and the listener misses the changes that follow backtracking.", "proved")
pr("C59", "DL.C59_told_partial DL.C59_exact_partial DL.C59_solver_partial DL.C59_permanent DL.C59_listen DL.C59_witness_pop DL.C59_witness_late", "False of the code when a level is closed: pop() restores looser bounds without notifying (C59_witness_pop). Proved: for every history, the bounds read last are at least as tight as the current ones, and they are exactly the current ones as long as no level is closed; also inside the core (C59_solver_partial, histories as in C30). C59_witness_late: the rational theory drops registrations made while the time point is fixed.", "partial")
pr("C60", "DL.C60_sound_partial DL.C60_definitive_partial DL.C60_witness", "Every session (DSess in DL/Session.lean) in which no call tells the theory a literal in an unsafe situation (Avoids: a second constraint in force on a pair, or, inside a level, the shortening of a distance whose predecessor is not restored). Otherwise false of the code: C60_witness, propagate() answers false on a satisfiable network.", "partial")
pr("C61", "DL.C61_core_calls_partial DL.C61_theory_calls DL.C61_witness", "Sessions and calls as in C60. Otherwise false of the code: C61_witness, a legal assume has undefined behaviour.", "partial")
pr("C62", "DL.C62_positions DL.C62_clauses DL.C62_solution", "Every session (Play), unsafe propagations and wrong lemmas included; only calls that fail (C61) end it.")
pr("C63", "DL.C63_decides_partial DL.C63_witness", "Sessions as in C60 in which the run of the client reaches no unsafe propagation (SolveAvoids). Otherwise false of the code: C63_witness.", "partial")
pr("C64", "Lin.C64_lin_text C64_assertion_text C64_object_text C64_expression_cache C64_assertion_cache C64_object_cache C64_variable_text Lin.C64_lin_reads", "Text/Lin.lean models to_string(lin) character by character; how utils prints a rational is a parameter with the stated assumptions (RatText, InfText), which the usual way of printing is proved to meet (RatText.std).")
pr("C65", "Sat.C65_core_dump Sat.C65_core_values LRA.C65_lra_dump Sat.C65_core_reads LRA.C65_lra_reads", "Text/Json.lean. The json library is external: objects are lists of fields.")
pr("C66", "Mix.C66_sound_partial Mix.C66_definitive_partial Mix.C66_arith_partial Mix.C66_var_partial Mix.C66_bounds_partial Mix.C66_distance_partial Mix.C66_idl_partial Mix.C66_rdl_partial Family.C77_sound_partial Family.C77_definitive_partial Family.C77_arith_bounds_partial Family.C77_arith_partial Family.C77_arith_var_partial Family.C77_arith_set_partial Family.C77_distances_partial Family.C77_distance_partial Family.C77_diff_partial Family.C77_object_values_partial Family.C77_object_partial Family.C77_object_lits_partial Family.C77_object_eq_partial Mix.C66_witness", "The Family theorems cover any number of theories of any kind, the Mix ones one arithmetic and one difference-logic theory. Every session (Mix.Sess in Mix/Session.lean) in which no call tells the difference-logic theory a literal in an unsafe situation (as in C60; the new_gt of C33 is excepted too). Otherwise false of the code: C66_witness.", "partial")
pr("C67", "Mix.C67_core_calls_partial Mix.C67_theory_calls Family.C78_total_partial Family.C78_arith_calls_partial Family.C78_object_calls_partial Mix.C67_witness", "The Family theorems cover any number of theories. Sessions and calls as in C66. Otherwise false of the code: C67_witness, a legal assume has undefined behaviour.", "partial")
pr("C68", "Mix.C68_backed Mix.C68_clauses Mix.C68_solution", "Every session (Mix.Play), unsafe propagations, wrong lemmas and unpropagated bounds included; only calls that fail (C67) end it.")
pr("C69", "Mix.C69_decides_partial Family.C79_decides_partial Mix.C69_witness", "The Family theorem covers any number of theories. Sessions as in C66 in which the run of the client reaches no unsafe propagation (SolveAvoids). Otherwise false of the code: C69_witness.", "partial")
pr("C70", "C70_conj C70_disj C70_eq C70_amo C70_exo LRA.C70_relations LRA.C70_relations_rewritten", "The core is not inconsistent after the first request (otherwise the literal is meaningless). The difference-logic constructors do not share literals and are not part of the claim.")
pr("C71", "C71_any C71_core LRA.C71_lra DL.C71_dl Mix.C71_mix DL.C71_witness", "Difference logic: sessions as in C60; DL.C71_witness shows what happens outside (an invalid lemma of difference logic leaves a clause with one literal, whose destructor reads the second one).")
pr("C72", "DL.C72_dl_returns LRA.C72_lra_returns Mix.C72_mix_returns", "Every session (Play), only calls that fail end it. A loop that does not end is the outcome Err.fuel of the model.")
pr("C73", "DL.C73_dl_stops LRA.C73_lra_stops Mix.C73_mix_stops", "Every session (Play). The client may still meet a call that fails, and an answer false may be wrong with difference logic: C63, C69.")
pr("C74", "DL.C74_core DL.C74_distance DL.C74_distance2 DL.C74_relation Mix.C74_core Mix.C74_arith Mix.C74_arith_eq Mix.C74_arith_var Mix.C74_distance Mix.C74_diff", "Every session (DL.Play, Mix.Play; Turn and Later are its calls and their sequences). What a call of the core may be expected to mean is Sat.Promise (the limits are those of C15-C17); the new_gt of C33 is excepted.")
pr("C75", "Comp.C75_core Comp.C75_clauses Comp.C75_arith_backed Comp.C75_diff_backed Comp.C75_arith Comp.C75_arith_eq Comp.C75_arith_var Comp.C75_distance Comp.C75_diff Comp.C75_object Comp.C75_object_value Comp.C75_object_lits Comp.C75_object_eq", "Every session (Comp.Play) of any product of the theories LRA.comp, DL.comp (integers and reals) and OV.comp; Comp.Within picks one of them. What a call of the core may be expected to mean is Sat.Promise (the limits are those of C15-C17); the new_gt of C33 is excepted.")
pr("C76", "Comp.C76_returns Comp.C76_arith_returns Comp.C76_diff_returns Comp.C76_object_returns Comp.C76_stops Comp.C76_arith_solution Comp.C76_diff_solution Comp.C76_object_solution", "Sessions as in C75. The client may still meet a call that fails, and an answer false may be wrong with difference logic: C63, C69.")
pr("C77", "Family.C77_sound Family.C77_definitive Family.C77_arith_bounds Family.C77_arith Family.C77_arith_var Family.C77_arith_set Family.C77_object_values Family.C77_object Family.C77_object_lits Family.C77_object_eq", "Every plain family (Family in Lib/Family.lean, without difference logic), every session (Comp.Session). The theorems with suffix _partial extend this to families with difference logic as long as its explanation bugs are not met: they are listed under C66, C67 and C69.")
pr("C78", "Family.C78_total Family.C78_arith_calls Family.C78_object_calls", "Sessions of C77. Failures of memory allocation and overflow of the 64-bit rationals are outside the model.")
pr("C79", "Family.C79_decides", "Sessions of C77; the client is Sat.solve.")
pr("C80", "LRA.C80_lra_bounds_partial LRA.C80_lra_core_partial DL.C80_dl_distances_partial DL.C80_dl_core_partial Kit.C80_arith_partial Kit.C80_diff_partial Kit.C80_object_partial Sat.step_tc Sat.Layered.restores LRA.C80_lra_case DL.C80_dl_case Kit.C80_pair_case LRA.C80_witness_levels LRA.C80_witness_literal LRA.C80_witness_bounds DL.C80_witness_levels DL.C80_witness_constraint Kit.C80_witness_equality", "Proved for every state, any number of theories and any calls on the pushed core (stacks inside included) that end at its root level: bounds of the arithmetic variables, distances of the time points, values of the object variables (for these also with decisions open), cores below. Missing, because false of the code (witnesses): dropped cores with decisions open, relations, equalities and definitions first made on the pushed core, difference constraints made on the pushed core.", "partial")
pr("C81", "Family.C81_calls_succeed Family.C81_push_succeeds Family.C81_pop_succeeds Family.C81_sound Family.C81_definitive Family.C81_complete Family.C81_decides Family.C81_resumes Family.C81_arith_bounds Family.C81_arith Family.C81_arith_calls Family.C81_object_values Family.C81_object", "Sessions Comp.StackSession of plain families (no difference logic). Calls of the theories are made while the stack has one core and pop is called with no decision open: C80 has the witnesses of what goes wrong otherwise. The theorems with suffix _partial in Lib/Stacks.lean extend this to families with difference logic as long as its explanation bugs are not met.")
pr("C82", "Family.C82_decides Family.C82_same_answer Family.C82_definitive Family.C82_values Family.C82_bounds Family.C82_object Family.C82_refused Family.C82_exact Family.C82_answered", "Specification: Lib/Talk.lean (Said, Said.holds, Meets, Talk). Plain families (no difference logic, whose explanation bugs make the claim false: C66, C69). Requests not covered: sat_core::new_eq, new_at_most_one and new_exct_one (their literals can be wrong: C15, C16, C17), new_var(lin) with a known term or basic variables (wrong: C38, C42), the object variables of new_var(lits, vals) and new_var without enforcement; they can be made in the sessions of C77.")
pr("C83", "Family.C83_assuming Family.C83_decides Family.C83_same_answer Family.C83_definitive Family.C83_values Family.C83_bounds Family.C83_object Family.C83_exact Family.C83_push_pop Family.C83_answered Family.C83_single", "Specification: Lib/StackTalk.lean (assuming, StackTalk) on top of Lib/Talk.lean (Said, Said.holds, Meets). Plain families (no difference logic). With more than one core on the stack, the requests are those of the core (variables, clauses, conj, disj, next, search) and allows; those that make variables, relations or bounds of the theories are made while the stack has one core, and pop is called with no decision of the top core open: C80 has the witnesses of what goes wrong otherwise.")
pr("C84", "Family.C84_decides_partial Family.C84_definitive_partial Family.C84_values_partial Family.C84_distances_partial Family.C84_bounds_partial Family.C84_object_partial Family.C84_exact_partial Family.C84_same_answer_partial Family.C84_answered_partial Family.C84_relations_partial", "Specification: Lib/Talk.lean (Said, Said.holds, Meets, SafeTalk). Every family of theories of the three kinds, every sequence of requests. Proved as long as no theory of difference logic is told a literal in an unsafe situation (Family.safe: the call would fail with excluded). Missing, because false of the code: in those situations difference logic records wrong explanations and the answer may be wrong (C63, C66, Mix.C66_witness; C69); the literal of new_gt for c (x - y) + k > 0 with c > 0 is wrong (C33, DL.C33_new_gt_wrong). Relations of linear expressions are requests over the integers; real difference logic: new_distance.", "partial")
pr("C85", "Family.C85_decides_partial Family.C85_same_answer_partial Family.C85_definitive_partial Family.C85_values_partial Family.C85_distances_partial Family.C85_bounds_partial Family.C85_object_partial Family.C85_exact_partial Family.C85_push_pop_partial Family.C85_answered_partial Family.C85_relations_partial Family.C85_single_partial", "Specification: Lib/StackTalk.lean (assuming, SafeStackTalk) on top of Lib/Talk.lean. Every family of theories of the three kinds, every depth. Proved as long as no theory of difference logic is told a literal in an unsafe situation (Family.safe: the call would fail with excluded). Missing, because false of the code: in those situations difference logic records wrong explanations and the answer may be wrong (C63, C66, Mix.C66_witness; C69). Calls of the theories only while the stack has one core (C80).", "partial")
