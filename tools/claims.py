c("C01", "proved", ["Verif.IntPacker.C01_int_packer"], "all ranges 1..2^31-1, all buffers")
c("C02", "proved", ["Verif.IntPacker.C02_packed_canonical"], "any two sequences of legal sets from a zero buffer")
c("C03", "proved", ["Verif.IntHashSet.C03_hash_set", "Verif.IntHashSet.C03_hash_set_progress", "Verif.IntHashSet.C03_documented_limit_fails"], "any hasher/equality that are compatible; every sequence of inserts; the documented clean exit at the capacity limit is refuted (overflow instead)")
c("C04", "proved", ["Verif.SegmentedVector.C04_segmented_vector", "Verif.SegmentedVector.C04_segmented_array_vector"], "any element size, any operation sequence")
c("C05", "proved", ["Verif.Registry.C05_state_registry"], "every hash function, well-formed task and request history; hash-set capacity overflow (C03) is an explicit outcome")
c("C06", "proved", ["Verif.Registry.C06_successor_semantics"], "conditional effects, axioms, packed and unpacked paths")
c("C09", "proved", ["Verif.Axioms.C09_axiom_evaluation"], "unique stable model of stratified axioms")
c("C07", "proved", ["Verif.PerState.C07_per_state_information", "Verif.PerState.C07_per_state_array"], "any history, including registry destruction, address reuse and destruction of the object; heap of entry vectors explicit")
c("C08", "proved", ["Verif.Bitset.C08_dynamic_bitset", "Verif.Bitset.C08_bitset_view"], "any block width, number of bits, history over several bitsets")
c("C10", "proved", ["Verif.SuccGen.C10_successor_generator"], "every task, state and switch layout")
c("C11", "proved", ["Verif.EquivRel.C11_equivalence_relation", "Verif.EquivRel.C11_duplicates_over_refine", "Verif.EquivRel.C11_no_elements"], "arguments of refine must be duplicate-free (witness shows why); nonempty element set")
c("C12", "proved", ["Verif.MaxCliques.C12_max_cliques"], "every symmetric irreflexive graph; the list contains exactly the maximal cliques, each once")
c("C13", "proved", ["Verif.Sccs.C13_sccs", "Verif.PySccs.C13_python_sccs"], "both implementations, every directed graph: partition into strongly connected components in topological order")
c("C14", "proved", ["Verif.AdaptiveQueue.C14_adaptive_queue"], "every history with switching between bucket and heap representation")
c("C15", "proved", ["Verif.OrderedSet.C15_ordered_set"], "every history")
c("C16", "proved", ["Verif.OpenList.C16_best_first", "Verif.OpenList.C16_tiebreaking"], "every history")
c("C17", "proved", ["Verif.OpenList.C17_alternation"], "every nesting of sublists and every history")
c("C18", "partial", ["Verif.OpenList.C18_pareto_partial", "Verif.OpenList.C18_state_uniform_fails"], "front and FIFO proved for every history and random choice; the documented weights of state_uniform_selection=true do not hold of the code (proved counterexample: the weight used is the number of evaluators, not the bucket size)")
c("C19", "proved", ["Verif.OpenList.C19_epsilon_greedy", "Verif.OpenList.C19_type_based"], "every history and every random stream; evaluator values are > INT_MIN; std heap functions by their ISO contract")
c("C20", "proved", ["Verif.OpenList.C20_dead_ends"], "every nesting of open lists")
c("C51", "proved", ["Verif.OpenList.C51_open_list_bag"], "every nesting, history and random stream")
c("C21", "proved", ["Verif.Search.C21_eager_sound"], "every task, evaluators, open list, pruning method, bound, cost type, with and without reopening and lazy evaluator")
c("C22", "proved", ["Verif.Search.C22_eager_complete", "Verif.Search.C22_eager_complete_bound", "Verif.Search.C22_eager_terminates", "Verif.Search.C22_eager_defined", "Verif.Search.C22_eager_ends", "Verif.Search.C22_eager_finds_plan"], "failure means no plan; termination is proved without lazy evaluator (an arbitrary lazy evaluator can change its estimate forever); no undefined behaviour if costs of simple paths fit into the types")
c("C23", "proved", ["Verif.Search.C23_astar_optimal", "Verif.Search.C23_astar_optimal_cost_type", "Verif.Relax.C23_astar_hmax"], "admissible heuristic, possibly inconsistent and path-dependent, zero-cost operators allowed, any bound for cost_type normal")
c("C24", "partial", ["Verif.Search.C24_eager_bound_partial", "Verif.Search.C24_eager_bound_fails", "Verif.Search.C24_lazy_bound_partial", "Verif.Search.C24_lazy_bound_fails", "Verif.Search.C24_ehc_bound"], "eager search with cost_type normal, lazy search with cost_type normal or without reopening; otherwise the property is false of the code, with proved counterexamples: a plan that violates the bound is returned")
c("C25", "proved", ["Verif.Search.C25_lazy_sound", "Verif.Search.C25_lazy_complete", "Verif.Search.C25_lazy_complete_bound", "Verif.Search.C25_lazy_terminates", "Verif.Search.C25_lazy_defined", "Verif.Search.C25_lazy_ends", "Verif.Search.C25_lazy_finds_plan"], "every task, evaluators, open list, preferred operators, successor order, cost type, with and without reopening")
c("C28", "proved", ["Verif.Search.C28_weighted_astar", "Verif.Search.C28_weighted_astar_cost_type"], "every weight (bound max(w,1)), with reopening")
c("C29", "proved", ["Verif.Evaluators.C29_caching_transparent", "Verif.Evaluators.C29_large_estimates_fail"], "every history of contexts, evaluator DAGs and estimate changes; estimates below 2^30 (counterexample beyond)")
c("C30", "proved", ["Verif.Evaluators.C30_sum", "Verif.Evaluators.C30_max", "Verif.Evaluators.C30_weighted", "Verif.Evaluators.C30_max_admissible", "Verif.Evaluators.C30_sum_saturates"], "every nesting; a finite sum of exactly INT_MAX is taken for infinity (witness)")
c("C33", "proved", ["Verif.LmCut.C33_landmarks", "Verif.LmCut.C33_value", "Verif.LmCut.C33_admissible", "Verif.LmCut.C33_plans_meet_landmarks", "Verif.LmCut.C33_astar_lmcut"], "every task LM-cut supports (no axioms, no conditional effects) whose preconditions and goals do not repeat facts and whose operator costs have an int sum; every sequence of evaluations")
c("C44", "proved", ["Verif.OperatorCost.C44_cost_types", "Verif.OperatorCost.C44_axioms_free", "Verif.OperatorCost.C44_same_plans", "Verif.OperatorCost.C44_adapted_costs", "Verif.OperatorCost.C44_plan_cost", "Verif.OperatorCost.C44_plan_cost_types", "Verif.OperatorCost.C44_optimal_plans"], "every task and cost type, including axioms")
c("C26", "proved", ["Verif.Search.C26_ehc_sound", "Verif.Search.C26_ehc_unsolvable", "Verif.Search.C26_ehc_terminates", "Verif.Search.C26_ehc_defined", "Verif.Search.C26_ehc_improves"], "every task, heuristic, preferred operators, options and random stream; also termination, definedness and that every phase ends with a better heuristic value")
c("C27", "proved", ["Verif.Iterated.C27_saved_plans", "Verif.Iterated.C27_final_plan", "Verif.Iterated.C27_bounds", "Verif.Iterated.C27_order", "Verif.Iterated.C27_repeat_last", "Verif.Iterated.C27_result", "Verif.Iterated.C27_failed", "Verif.Iterated.C27_solved", "Verif.Iterated.C27_defined", "Verif.Iterated.C27_terminates_without_repeat", "Verif.Iterated.C27_terminates", "Verif.Iterated.C27_solved_without_plan", "Verif.Iterated.C27_repeat_diverges"], "every sequence of component searches and all options; two witnesses: SOLVED without a stored plan when a component ignores its bound, and an endless repetition when the initial state is a goal")
c("C52", "partial", ["Verif.Search.C52_non_preferred_dropped", "Verif.Search.C52_rank_preferred_first_fails"], "the property is false of the code: the open list is created with pref_only=true, so that non-preferred successors are dropped; proved for all expansions, with a solvable task on which the search fails because of this")
c("C31", "proved", ["Verif.Relax.C31_hmax_exact", "Verif.Relax.C31_hmax_dead_end", "Verif.Relax.C31_hmax_defined", "Verif.Relax.C31_hmax_consistent", "Verif.Relax.C31_hmax_admissible"], "every task (with axioms and conditional effects), every sequence of evaluations; admissibility and consistency for tasks without axioms, as documented for this heuristic")
c("C32", "partial", ["Verif.Relax.C32_hadd_exact_partial", "Verif.Relax.C32_hadd_dead_end_partial", "Verif.Relax.C32_ff_relaxed_plan_partial", "Verif.Relax.C32_large_costs_fail"], "every task with operator costs up to 100000000, every sequence of evaluations; for larger costs the property is false of the code, with a proved counterexample: a solvable state is a dead end")
c("C34", "proved", ["Verif.Pdb.C34_ranking", "Verif.Pdb.C34_overflow"], "every task and pattern (variables in range, none twice)")
c("C35", "proved", ["Verif.Pdb.C35_value", "Verif.Pdb.C35_heuristic", "Verif.Pdb.C35_astar_pdb", "Verif.Pdb.C35_misaligned_fails"], "every task of the stated kind, pattern and cost function; including the match tree and Dijkstra's algorithm; counterexample for operators whose preconditions and effects are in different orders (only an assert checks this)")
c("C36", "proved", ["Verif.Pdb.C36_value", "Verif.Pdb.C36_pruning", "Verif.Pdb.C36_heuristic", "Verif.Pdb.C36_astar"], "every collection of patterns whose distances fit into an int (pruning: no empty pattern, for which the code reads out of range); exact value, pruning with any time limit, goal-awareness, consistency, admissibility, A*")
c("C37", "proved", ["Verif.Pdb.C37_value", "Verif.Pdb.C37_heuristic", "Verif.Pdb.C37_astar"], "every sequence of patterns whose distances fit into an int; exact value, goal-awareness, consistency, admissibility, A*")
c("C39", "proved", ["Verif.Mas.C39_init_below", "Verif.Mas.C39_goal_below", "Verif.Mas.C39_init_exact", "Verif.Mas.C39_goal_exact"], "every transition system whose states are in range; exact if size times maximal cost is less than the largest int, otherwise whenever the computation returns, with costs of at least that size read as infinite")
c("C53", "proved", ["Verif.Pdb.C53_normalize"], "every list")
c("C38", "proved", ["Verif.Mas.C38_operations", "Verif.Mas.C38_admissible", "Verif.Mas.C38_consistent", "Verif.Mas.C38_trivial"], "every task without axioms whose effect conditions mention no variable twice; all options, merge strategies, shrink strategies that return classes containing all states, label reduction methods and time limits; costs of plans below the largest int")
c("C57", "proved", ["Verif.Mas.C57_targets", "Verif.Mas.C57_limits", "Verif.Mas.C57_iteration", "Verif.Mas.C57_max_states"], "shrink strategies may exceed their targets in the code (shrink_perfect bisimulation); the limit on built factors is for strategies that meet them")
c("C58", "proved", ["Verif.Products.C58_limit", "Verif.Products.C58_limits"], "32-bit int")
c("C48", "proved", ["Verif.Hm.C48_exact", "Verif.Hm.C48_defined", "Verif.Hm.C48_admissible", "Verif.Hm.C48_dead_end", "Verif.Hm.C48_consistent", "Verif.Hm.C48_increasing", "Verif.Hm.C48_hmax", "Verif.Hm.C48_astar", "Verif.Hm.C48_unsorted_goals_fail"], "supported tasks: no axioms and conditional effects, goals sorted by variable (otherwise the code throws: C48_unsorted_goals_fail)")
c("C50", "proved", ["Verif.Driver.C50_meaning", "Verif.Driver.C50_defined", "Verif.Driver.C50_multiset", "Verif.Driver.C50_unhandled"], "C50_unhandled records the inputs for which the function fails: no components, components killed by a signal")
c("C47", "proved", ["Verif.PlanFiles.C47_roundtrip", "Verif.PlanFiles.C47_incomplete", "Verif.PlanFiles.C47_injective", "Verif.PlanFiles.C47_numbers", "Verif.PlanFiles.C47_cost", "Verif.PlanFiles.C47_cost_defined"], "operator names without line breaks")
c("C59", "proved", ["Verif.PlanFiles.C59_portfolio", "Verif.PlanFiles.C59_run"], "planner runs that respect the bound they are given (see C24 for the exception); operator names without line breaks; a killed run leaves a beginning of the file it was writing")
c("C43", "proved", ["Verif.Stubborn.C43_safe", "Verif.Stubborn.C43_defined", "Verif.Stubborn.C43_astar", "Verif.Stubborn.C43_astar_limited", "Verif.Stubborn.C43_limited_switch", "Verif.Stubborn.C43_two_effects_fail"], "all pruning methods and options; counterexample for operators with two effects on the same variable, which the code does not exclude")
c("C40", "proved", ["Verif.Cart.C40_exact", "Verif.Cart.C40_split_defined", "Verif.Cart.C40_distances", "Verif.Cart.C40_admissible"], "tasks without axioms and conditional effects (the code rejects others) whose operators and goals mention no variable twice; every sequence of splits that split off some but not all values; distances below the largest int")
c("C41", "proved", ["Verif.Cart.C41_admissible", "Verif.Cart.C41_consistent", "Verif.Cart.C41_additive", "Verif.Cart.C41_additive_consistent", "Verif.Cart.C41_goals_legal"], "the abstractions are those computed by the refinement loop for the original task, for goal facts and for landmarks of the delete relaxation, with or without combined values; sums of costs that fit into ints; the landmark generation itself is a hypothesis (landmarks of the delete relaxation)")
c("C60", "proved", ["Verif.Cart.C60_outcome", "Verif.Cart.C60_complete", "Verif.Cart.C60_perfect"], "tasks without axioms and conditional effects (the code rejects others); distances that fit into ints")
c("C45", "proved", ["Verif.DomAbs.C45_abstraction", "Verif.DomAbs.C45_plans", "Verif.DomAbs.C45_rejected"], "the groups must satisfy the assertions of the code (disjoint, values of the variable) and be non-empty; names of facts are not modelled")
c("C46", "proved", ["Verif.Lex.C46_lexer", "Verif.Lex.C46_lexer_exact", "Verif.Lex.C46_parser", "Verif.Lex.C46_unambiguous", "Verif.Lex.C46_round_trip", "Verif.Lex.C46_reserved_prefix_fails"], "std::regex is modelled by ordered backtracking over the expressions of the code; memory and stack limits are not modelled; identifiers beginning with let, true, false or infinity are split by the code, which is recorded as a disagreement")
c("C42", "proved", ["Verif.Landmarks." + x for x in ["C42_past", "C42_future_sound", "C42_future_complete", "C42_cycles", "C42_uniform_admissible", "C42_uniform_rounding", "C42_optimal_admissible", "C42_optimal_dominates", "C42_sum_dead_ends", "C42_preferred"]], "the landmark graph is a parameter whose nodes, orderings and achievers are true statements about the plans of the task; doubles are rational numbers, with a theorem on errors up to 1/100; the LP solver is a parameter with a contract; necessary orderings are not used by the progression, which only loses information")
c("C61", "proved", ["Verif.Landmarks." + x for x in ["C61_exploration", "C61_achievers", "C61_achievers_exact", "C61_zhu_givan", "C61_zhu_givan_valid", "C61_exhaust", "C61_exhaust_valid", "C61_same_landmarks", "C61_admissible", "C61_overridden_effects_fail"]], "validity for plans: tasks without axioms whose unconditional effects are not overridden by other effects of the same operator (counterexample C61_overridden_effects_fail: the code does not exclude them and the heuristic then overestimates); the exact characterisation also covers axioms")
c("C62", "partial", ["Verif.Landmarks." + x for x in ["C62_merged", "C62_unsupported", "C62_valid_partial", "C62_admissible", "C62_superset_fails"]], "truth is preserved if no ordering leads to a disjunctive landmark that is a proper subset of another given disjunctive landmark (in particular for atomic landmarks); without this condition the code replaces the smaller landmark by the larger one and the claim is false: C62_superset_fails, where a solvable initial state is reported as a dead end")
c("C49", "partial", ["Verif.Sampling." + x for x in ["C49_choose", "C49_trials", "C49_sample", "C49_complete", "C49_documented_restart_fails"]], "doubles are rational numbers; the engine and the distributions are arbitrary streams that satisfy the C++ standard; the documented restart in states without successors is not what the code does (C49_documented_restart_fails: the walk ends there)")
c("C63", "proved", ["Verif.Potentials." + x for x in ["C63_linear_program", "C63_characterisation", "C63_optimiser", "C63_heuristic", "C63_maximum", "C63_optimal", "C63_all_states", "C63_tolerance", "C63_tolerance_fails", "C63_diverse", "C63_astar"]], "doubles are rational numbers and the LP solver is a parameter with an exact contract, which can be met (exists_maxSolver); C63_tolerance bounds the error for inexact solutions and C63_tolerance_fails shows that the correction of 1/100 does not suffice for long plans with a tolerance of 1e-6; sums of potentials must fit into int; operators with two effects on one variable are excluded")
c("C64", "partial", ["Verif.Counting." + x for x in ["C64_created", "C64_value_partial", "C64_plans", "C64_admissible_partial", "C64_dead_ends", "C64_dominates", "C64_independent", "C64_consistent", "C64_goal", "C64_astar", "C64_soplex_two_lmcut_fails"]], "the claims hold for CPLEX, and for SoPlex with at most one LM-cut generator; with two of them the interface to SoPlex forgets to remove landmark constraints of earlier states and a goal state can get a positive value (C64_soplex_two_lmcut_fails). Doubles are rational numbers, the LP solver is a parameter with a contract that can be met (exists_minSolver); the delete-relaxation constraints are C83 and C84")
c("C55", "partial", ["Verif.SasFile." + x for x in ["C55_accepted_partial", "C55_round_trip", "C55_truncated", "C55_rejected", "C55_unchecked_variable"]], "the full claim is false for files with an effect or axiom on a variable that does not exist: the code accesses the vector of variables before checking the number (C55_unchecked_variable); C55_accepted_partial shows that this is the only exception. Tasks with derived variables but without axioms are accepted; they are well-formed when these variables are seen as ordinary ones. Memory limits, reading errors and characters outside of ASCII are not modelled")
c("C54", "proved", ["Verif.DefaultAxioms." + x for x in ["C54_axioms", "C54_no_axioms", "C54_relaxation", "C54_hmax", "C54_hadd", "C54_ff", "C54_astar_hmax", "C54_self_support_fails"]], "axioms that use the variable they set (accepted by the reader, never written by the translator) are treated as if they were not cyclic: then h^max reports a state with a plan as a dead end (C54_self_support_fails); the statement excludes them")
c("C65", "proved", ["Verif.SimpleHeuristics." + x for x in ["C65_blind_value", "C65_blind_consistent", "C65_blind_admissible", "C65_blind_astar", "C65_blind_int_max_fails", "C65_goal_count", "C65_goal_count_admissible", "C65_goal_count_inadmissible", "C65_modify_costs", "C65_modify_costs_types", "C65_modify_costs_inadmissible"]], "operator costs below 2^30 for what the search sees of the blind heuristic: an operator of cost INT_MAX, which the reader accepts, makes it report a state with a plan as a dead end (C65_blind_int_max_fails)")
c("C66", "proved", ["Verif.Mas." + x for x in ["C66_classes", "C66_preserves_distances", "C66_bisimulation", "C66_perfect", "C66_irrelevant_collision", "C66_greedy_overflow"]], "the conditions on large numbers are needed: goal distance INT_MAX - 1 is confused with infinity (C66_irrelevant_collision), and with greedy the sum of a distance and a cost can overflow (C66_greedy_overflow). C66_perfect assumes that no time limit is reached and that the construction is defined; the merge strategy is a parameter")
c("C67", "proved", ["Verif.Simplify." + x for x in ["C67_plans", "C67_valid", "C67_variables", "C67_facts", "C67_keeping_effects"]], "the condition on effects that keep a value is needed: such an effect is dropped although it could override another one (C67_keeping_effects). With --keep-no-ops the new task may contain operators without effects, so its validity is stated for the default only")
c("C68", "proved", ["Verif.VarOrder." + x for x in ["C68_variables", "C68_valid", "C68_plans", "C68_keep_no_ops"]], "with --keep-no-ops, operators that have lost their effects have also lost preconditions, so that they have to be removed from plans of the new task (C68_keep_no_ops); validity of the new task is stated for the default only.")
c("C69", "proved", ["Verif.Mas." + x for x in ["C69_fh", "C69_random", "C69_merge_and_shrink", "C69_overflow"]], "random choices are a parameter: any pairs of different positions. The sum of two finite distances must be an int (C69_overflow)")
c("C70", "proved", ["Verif.OrderFinder." + x for x in ["C70_causal_graph", "C70_level_orders", "C70_causal_orders", "C70_greedy_pattern"]], "with an irrelevant variable in the task the orders along the causal graph exit with an input error; the greedy generator does so only if all relevant variables fit")
c("C71", "proved", ["Verif.Mas." + x for x in ["C71_views", "C71_precomputed", "C71_linear", "C71_selector", "C71_stateless", "C71_total_order", "C71_single_random", "C71_goal_relevance", "C71_dfp", "C71_sccs"]], "scores of type double are rational numbers; MIASM scores are covered as an arbitrary scoring function only. The total order is limited to 32768 variables because a score above INT_MAX would remove all candidates")
c("C73", "proved", ["Verif.StripsToSas." + x for x in ["C73_plans", "C73_mutexes", "C73_valid", "C73_pipeline", "C73_implied_not_canonical"]], "with --add-implied-preconditions two effects on one variable can have different values before, which sas_tasks.py does not allow (C73_implied_not_canonical); C73_pipeline (with C67 and C68) is for the default options. The grounded task is the one after axiom_rules.handle_axioms")
c("C72", "proved", ["Verif.FactGroups." + x for x in ["C72_returns", "C72_groups", "C72_cover", "C72_partition", "C72_negative", "C72_full", "C72_greedy", "C72_mutexes", "C72_names", "C72_nameOk", "C72_deterministic", "C72_task", "C72_plans"]], "the invariants are a parameter (C80 proves that those of the code meet the hypotheses); facts of an invariant have at most one counted variable")
c("C74", "proved", ["Verif.AxiomRules." + x for x in ["C74_defined", "C74_stratifiable", "C74_layers", "C74_stratification", "C74_stratified", "C74_min", "C74_max", "C74_axioms", "C74_complete", "C74_plans_kept", "C74_plans", "C74_states", "C74_pipeline", "C74_unneeded_unchecked"]], "axioms of derived atoms that do not matter are not checked for stratifiability (C74_unneeded_unchecked); plans are kept from input to result without that assumption")
c("C75", "proved", ["Verif.BuildModel." + x for x in ["C75_exploration", "C75_complete", "C75_exact", "C75_order", "C75_projected_join_fails"]], "joins whose common variable is not in the effect pass the assertions, but the exploration ignores the common variable, so that it finds more than what follows (C75_projected_join_fails). Strings are variables or objects; output and counters are left out")
c("C76", "proved", ["Verif.PrologProgram." + x for x in ["C76_translation", "C76_explored", "C76_bounds", "C76_exact", "C76_duplicates_fail"]], "the generation of rules from actions (translate_facts, get_normalized rules) is not part of this property. Names of new predicates and variables are assumed not to occur in the program; sorting is any permutation. Without the condition on duplicate variables the exploration finds more than what follows (C76_duplicates_fail)")
c("C77", "proved", ["Verif.Instantiate." + x for x in ["C77_defined", "C77_unsolvable", "C77_plans", "C77_states", "C77_params", "C77_grounded", "C77_pipeline", "C77Example.C77_cost_fails"]], "for tasks as the normalisation makes them (LTask.Ok): conditions are conjunctions of literals. No variable may occur twice in the cost of an action, otherwise an assertion can fail (C77_cost_fails). The direction from plans of the task to plans of the grounded task needs stratifiable axioms, because actions without effects are left out. C77_pipeline assumes that the invariants are correct (see C80 and C81)")
c("C78", "proved", ["Verif.Normalize." + x for x in ["C78_defined", "C78_plans", "C78_task", "C78_simplify", "C78_pipeline", "C78Example.C78_empty_type_fails", "C78Example.C78_universal_fails"]], "variables of an action, axiom or goal are assumed to have different names (C79 proves that uniquify_variables achieves this). Both conditions are needed: a trivial quantifier over a type without objects is simplified wrongly (C78_empty_type_fails), and an atom that depends on itself below a universal quantifier gets a second model (C78_universal_fails). C78_pipeline assumes that the invariants are correct (see C80 and C81)")
c("C79", "proved", ["Verif.Uniquify." + x for x in ["C79_nnf", "C79_condition", "C79_task", "C79_normalize", "number_inj", "C79Example.C79_capture_fails"]], "the condition on names of free variables is needed: parse_condition renames variables without knowing the parameters of the action, so that a quantified ?x can become ?x1 and capture a parameter ?x1 (C79_capture_fails). Formulas are given as trees; syntax errors of nested lists are not modelled")
c("C80", "proved", ["Verif.Invariants." + x for x in ["C80_invariant", "C80_find", "C80_groups", "C80_form", "C80_invariants", "C80Counter.C80_readding_fails", "C80Counter.C80_types_fail", "C80Counter.C80_falsity_fails"]], "the three conditions are needed: the check takes an atom that is deleted and added again as deleted (C80_readding_fails), ignores the types of variables of delete effects (C80_types_fail), and treats a false condition like an empty one (C80_falsity_fails). The lists of reachable parameters contain all applicable instances (C77_params); C80_invariants uses them. The order of new candidates may differ from that of the code")
c("C81", "proved", ["Verif.Invariants." + x for x in ["C81_pipeline", "C81_translate"]], "composition of C72 to C80, from a task whose conditions are in negation normal form (C79_condition) to the finite-domain task. The conditions of C79 (names), C78 (types without objects, recursion below universal quantifiers) and C80 (effects that delete and add the same atom, types of variables of delete effects) are hypotheses, stated for the normalised task where the steps after the normalisation need them. No object may be named ?X. The steps of simplify.py and variable_order.py after it are properties of their own")
c("C82", "proved", ["Verif.SasFile.C82_read", "Verif.Invariants.C82_file", "Verif.Invariants.C82_translate"], "composition of C81, C67, C68 and C55. The plans of the task that is read start in its initial state, in which the derived variables were evaluated. The conditions of C81 are hypotheses; so is that the numbers of the finite-domain task fit into 32-bit integers (SasTask.Fits)")
c("C83", "proved", ["Verif.CountingIF." + x for x in ["C83_created", "C83_value", "C83_relaxed_plans", "C83_below_hplus", "C83_admissible", "C83_hplus", "C83_nonneg", "C83_goal", "C83_step", "C83_consistent", "C83_hplus_consistent", "C83_astar", "C83_axioms_fails"]], "the heuristic with these constraints only (combinations with other constraints are not covered). The condition on axioms is needed: the code ignores axioms without an error and can return DEAD_END for a state with a plan (C83_axioms_fails; the documentation says that axioms are not supported). Doubles are rational numbers, the solver is a parameter with a contract that can be met for every positive error (exists_mixedSolver)")
c("C84", "proved", ["Verif.CountingRR." + x for x in ["C84_created", "C84_created_fails", "C84_history", "C84_below_hplus", "C84_admissible", "C84_hplus", "C84_nonneg", "C84_goal", "C84_hplus_consistent", "C84_astar", "C84_hplus_self_fails", "C84_value", "C84_step", "C84_consistent"]], "the heuristic with these constraints only (combinations with other constraints are not covered). The conditions on effects that are preconditions are needed: with vertex elimination such a task always ends in an exception (C84_created_fails), with time labels an operator can support itself and the value can be below h^+ (C84_hplus_self_fails). Hash maps are lists without repetitions, the order of entries with the same degree in the priority queue is a parameter, doubles are rational numbers, the solver is a parameter with a contract that can be met for every positive error (exists_mixedSolver)")
c("C85", "proved", ["Verif.PerTask.C85_per_task_information", "Verif.PerTask.C85_destroyed"], "the function that constructs entries has no side effects in the model (so it does not access other per-task information); hash sets are lists with any order of iteration")
c("C86", "proved", ["Verif.Lisp.C86_read", "Verif.Lisp.C86_unambiguous", "Verif.Lisp.C86_errors", "Verif.Lisp.C86_round_trip"], "for files without tokens the code raises StopIteration instead of a ParseError (part of C86_errors). The limit of Python for the depth of recursion is not modelled; the interpretation of the nested lists (parsing_functions.py) is not covered")
c("C87", "proved", ["Verif.Types.C87_closure", "Verif.Types.C87_supertypes"], "the bound on the number of steps in the model is never reached (part of the theorems). In C77 to C82 the supertypes are a parameter of the task")
c("C88", "proved", ["Verif.Effects.C88_effects", "Verif.Effects.C88_accepts", "Verif.Effects.C88_capture_fails", "Verif.Effects.C88_assertions_fail"], "conditions and atoms are abstract, with the laws of conjunction and of simplification (for the conditions of the translator, C78 proves the latter if quantifiers over types without objects are not trivial); reading of the nested list into an effect is not modelled")
c("C89", "proved", ["Verif.TypedList.C89_typed_lists", "Verif.TypedList.C89_unique", "Verif.TypedList.C89_errors", "Verif.TypedList.C89_exception"], "lists of functions, which use another constructor, are not modelled; warnings and the texts of errors are left out")
