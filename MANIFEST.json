{
 "claims": [
  {
   "property": "C01",
   "status": "proved",
   "theorems": [
    "Verif.IntPacker.C01_int_packer"
   ],
   "note": "all ranges 1..2^31-1, all buffers"
  },
  {
   "property": "C02",
   "status": "proved",
   "theorems": [
    "Verif.IntPacker.C02_packed_canonical"
   ],
   "note": "any two sequences of legal sets from a zero buffer"
  },
  {
   "property": "C03",
   "status": "proved",
   "theorems": [
    "Verif.IntHashSet.C03_hash_set",
    "Verif.IntHashSet.C03_hash_set_progress",
    "Verif.IntHashSet.C03_documented_limit_fails"
   ],
   "note": "any hasher/equality that are compatible; every sequence of inserts; the documented clean exit at the capacity limit is refuted (overflow instead)"
  },
  {
   "property": "C04",
   "status": "proved",
   "theorems": [
    "Verif.SegmentedVector.C04_segmented_vector",
    "Verif.SegmentedVector.C04_segmented_array_vector"
   ],
   "note": "any element size, any operation sequence"
  },
  {
   "property": "C05",
   "status": "proved",
   "theorems": [
    "Verif.Registry.C05_state_registry"
   ],
   "note": "every hash function, well-formed task and request history; hash-set capacity overflow (C03) is an explicit outcome"
  },
  {
   "property": "C06",
   "status": "proved",
   "theorems": [
    "Verif.Registry.C06_successor_semantics"
   ],
   "note": "conditional effects, axioms, packed and unpacked paths"
  },
  {
   "property": "C07",
   "status": "proved",
   "theorems": [
    "Verif.PerState.C07_per_state_information",
    "Verif.PerState.C07_per_state_array"
   ],
   "note": "any history, including registry destruction, address reuse and destruction of the object; heap of entry vectors explicit"
  },
  {
   "property": "C08",
   "status": "proved",
   "theorems": [
    "Verif.Bitset.C08_dynamic_bitset",
    "Verif.Bitset.C08_bitset_view"
   ],
   "note": "any block width, number of bits, history over several bitsets"
  },
  {
   "property": "C09",
   "status": "proved",
   "theorems": [
    "Verif.Axioms.C09_axiom_evaluation"
   ],
   "note": "unique stable model of stratified axioms"
  },
  {
   "property": "C10",
   "status": "proved",
   "theorems": [
    "Verif.SuccGen.C10_successor_generator"
   ],
   "note": "every task, state and switch layout"
  },
  {
   "property": "C11",
   "status": "proved",
   "theorems": [
    "Verif.EquivRel.C11_equivalence_relation",
    "Verif.EquivRel.C11_duplicates_over_refine",
    "Verif.EquivRel.C11_no_elements"
   ],
   "note": "arguments of refine must be duplicate-free (witness shows why); nonempty element set"
  },
  {
   "property": "C12",
   "status": "proved",
   "theorems": [
    "Verif.MaxCliques.C12_max_cliques"
   ],
   "note": "every symmetric irreflexive graph; the list contains exactly the maximal cliques, each once"
  },
  {
   "property": "C13",
   "status": "proved",
   "theorems": [
    "Verif.Sccs.C13_sccs",
    "Verif.PySccs.C13_python_sccs"
   ],
   "note": "both implementations, every directed graph: partition into strongly connected components in topological order"
  },
  {
   "property": "C14",
   "status": "proved",
   "theorems": [
    "Verif.AdaptiveQueue.C14_adaptive_queue"
   ],
   "note": "every history with switching between bucket and heap representation"
  },
  {
   "property": "C15",
   "status": "proved",
   "theorems": [
    "Verif.OrderedSet.C15_ordered_set"
   ],
   "note": "every history"
  },
  {
   "property": "C16",
   "status": "proved",
   "theorems": [
    "Verif.OpenList.C16_best_first",
    "Verif.OpenList.C16_tiebreaking"
   ],
   "note": "every history"
  },
  {
   "property": "C17",
   "status": "proved",
   "theorems": [
    "Verif.OpenList.C17_alternation"
   ],
   "note": "every nesting of sublists and every history"
  },
  {
   "property": "C18",
   "status": "partial",
   "theorems": [
    "Verif.OpenList.C18_pareto_partial",
    "Verif.OpenList.C18_state_uniform_fails"
   ],
   "note": "front and FIFO proved for every history and random choice; the documented weights of state_uniform_selection=true do not hold of the code (proved counterexample: the weight used is the number of evaluators, not the bucket size)"
  },
  {
   "property": "C19",
   "status": "proved",
   "theorems": [
    "Verif.OpenList.C19_epsilon_greedy",
    "Verif.OpenList.C19_type_based"
   ],
   "note": "every history and every random stream; evaluator values are > INT_MIN; std heap functions by their ISO contract"
  },
  {
   "property": "C20",
   "status": "proved",
   "theorems": [
    "Verif.OpenList.C20_dead_ends"
   ],
   "note": "every nesting of open lists"
  },
  {
   "property": "C21",
   "status": "proved",
   "theorems": [
    "Verif.Search.C21_eager_sound"
   ],
   "note": "every task, evaluators, open list, pruning method, bound, cost type, with and without reopening and lazy evaluator"
  },
  {
   "property": "C22",
   "status": "proved",
   "theorems": [
    "Verif.Search.C22_eager_complete",
    "Verif.Search.C22_eager_complete_bound",
    "Verif.Search.C22_eager_terminates",
    "Verif.Search.C22_eager_defined",
    "Verif.Search.C22_eager_ends",
    "Verif.Search.C22_eager_finds_plan"
   ],
   "note": "failure means no plan; termination is proved without lazy evaluator (an arbitrary lazy evaluator can change its estimate forever); no undefined behaviour if costs of simple paths fit into the types"
  },
  {
   "property": "C23",
   "status": "proved",
   "theorems": [
    "Verif.Search.C23_astar_optimal",
    "Verif.Search.C23_astar_optimal_cost_type",
    "Verif.Relax.C23_astar_hmax"
   ],
   "note": "admissible heuristic, possibly inconsistent and path-dependent, zero-cost operators allowed, any bound for cost_type normal"
  },
  {
   "property": "C24",
   "status": "partial",
   "theorems": [
    "Verif.Search.C24_eager_bound_partial",
    "Verif.Search.C24_eager_bound_fails",
    "Verif.Search.C24_lazy_bound_partial",
    "Verif.Search.C24_lazy_bound_fails",
    "Verif.Search.C24_ehc_bound"
   ],
   "note": "eager search with cost_type normal, lazy search with cost_type normal or without reopening; otherwise the property is false of the code, with proved counterexamples: a plan that violates the bound is returned"
  },
  {
   "property": "C25",
   "status": "proved",
   "theorems": [
    "Verif.Search.C25_lazy_sound",
    "Verif.Search.C25_lazy_complete",
    "Verif.Search.C25_lazy_complete_bound",
    "Verif.Search.C25_lazy_terminates",
    "Verif.Search.C25_lazy_defined",
    "Verif.Search.C25_lazy_ends",
    "Verif.Search.C25_lazy_finds_plan"
   ],
   "note": "every task, evaluators, open list, preferred operators, successor order, cost type, with and without reopening"
  },
  {
   "property": "C26",
   "status": "proved",
   "theorems": [
    "Verif.Search.C26_ehc_sound",
    "Verif.Search.C26_ehc_unsolvable",
    "Verif.Search.C26_ehc_terminates",
    "Verif.Search.C26_ehc_defined",
    "Verif.Search.C26_ehc_improves"
   ],
   "note": "every task, heuristic, preferred operators, options and random stream; also termination, definedness and that every phase ends with a better heuristic value"
  },
  {
   "property": "C27",
   "status": "proved",
   "theorems": [
    "Verif.Iterated.C27_saved_plans",
    "Verif.Iterated.C27_final_plan",
    "Verif.Iterated.C27_bounds",
    "Verif.Iterated.C27_order",
    "Verif.Iterated.C27_repeat_last",
    "Verif.Iterated.C27_result",
    "Verif.Iterated.C27_failed",
    "Verif.Iterated.C27_solved",
    "Verif.Iterated.C27_defined",
    "Verif.Iterated.C27_terminates_without_repeat",
    "Verif.Iterated.C27_terminates",
    "Verif.Iterated.C27_solved_without_plan",
    "Verif.Iterated.C27_repeat_diverges"
   ],
   "note": "every sequence of component searches and all options; two witnesses: SOLVED without a stored plan when a component ignores its bound, and an endless repetition when the initial state is a goal"
  },
  {
   "property": "C28",
   "status": "proved",
   "theorems": [
    "Verif.Search.C28_weighted_astar",
    "Verif.Search.C28_weighted_astar_cost_type"
   ],
   "note": "every weight (bound max(w,1)), with reopening"
  },
  {
   "property": "C29",
   "status": "proved",
   "theorems": [
    "Verif.Evaluators.C29_caching_transparent",
    "Verif.Evaluators.C29_large_estimates_fail"
   ],
   "note": "every history of contexts, evaluator DAGs and estimate changes; estimates below 2^30 (counterexample beyond)"
  },
  {
   "property": "C30",
   "status": "proved",
   "theorems": [
    "Verif.Evaluators.C30_sum",
    "Verif.Evaluators.C30_max",
    "Verif.Evaluators.C30_weighted",
    "Verif.Evaluators.C30_max_admissible",
    "Verif.Evaluators.C30_sum_saturates"
   ],
   "note": "every nesting; a finite sum of exactly INT_MAX is taken for infinity (witness)"
  },
  {
   "property": "C31",
   "status": "proved",
   "theorems": [
    "Verif.Relax.C31_hmax_exact",
    "Verif.Relax.C31_hmax_dead_end",
    "Verif.Relax.C31_hmax_defined",
    "Verif.Relax.C31_hmax_consistent",
    "Verif.Relax.C31_hmax_admissible"
   ],
   "note": "every task (with axioms and conditional effects), every sequence of evaluations; admissibility and consistency for tasks without axioms, as documented for this heuristic"
  },
  {
   "property": "C32",
   "status": "partial",
   "theorems": [
    "Verif.Relax.C32_hadd_exact_partial",
    "Verif.Relax.C32_hadd_dead_end_partial",
    "Verif.Relax.C32_ff_relaxed_plan_partial",
    "Verif.Relax.C32_large_costs_fail"
   ],
   "note": "every task with operator costs up to 100000000, every sequence of evaluations; for larger costs the property is false of the code, with a proved counterexample: a solvable state is a dead end"
  },
  {
   "property": "C33",
   "status": "proved",
   "theorems": [
    "Verif.LmCut.C33_landmarks",
    "Verif.LmCut.C33_value",
    "Verif.LmCut.C33_admissible",
    "Verif.LmCut.C33_plans_meet_landmarks",
    "Verif.LmCut.C33_astar_lmcut"
   ],
   "note": "every task LM-cut supports (no axioms, no conditional effects) whose preconditions and goals do not repeat facts and whose operator costs have an int sum; every sequence of evaluations"
  },
  {
   "property": "C34",
   "status": "proved",
   "theorems": [
    "Verif.Pdb.C34_ranking",
    "Verif.Pdb.C34_overflow"
   ],
   "note": "every task and pattern (variables in range, none twice)"
  },
  {
   "property": "C35",
   "status": "proved",
   "theorems": [
    "Verif.Pdb.C35_value",
    "Verif.Pdb.C35_heuristic",
    "Verif.Pdb.C35_astar_pdb",
    "Verif.Pdb.C35_misaligned_fails"
   ],
   "note": "every task of the stated kind, pattern and cost function; including the match tree and Dijkstra's algorithm; counterexample for operators whose preconditions and effects are in different orders (only an assert checks this)"
  },
  {
   "property": "C36",
   "status": "proved",
   "theorems": [
    "Verif.Pdb.C36_value",
    "Verif.Pdb.C36_pruning",
    "Verif.Pdb.C36_heuristic",
    "Verif.Pdb.C36_astar"
   ],
   "note": "every collection of patterns whose distances fit into an int (pruning: no empty pattern, for which the code reads out of range); exact value, pruning with any time limit, goal-awareness, consistency, admissibility, A*"
  },
  {
   "property": "C37",
   "status": "proved",
   "theorems": [
    "Verif.Pdb.C37_value",
    "Verif.Pdb.C37_heuristic",
    "Verif.Pdb.C37_astar"
   ],
   "note": "every sequence of patterns whose distances fit into an int; exact value, goal-awareness, consistency, admissibility, A*"
  },
  {
   "property": "C38",
   "status": "proved",
   "theorems": [
    "Verif.Mas.C38_operations",
    "Verif.Mas.C38_admissible",
    "Verif.Mas.C38_consistent",
    "Verif.Mas.C38_trivial"
   ],
   "note": "every task without axioms whose effect conditions mention no variable twice; all options, merge strategies, shrink strategies that return classes containing all states, label reduction methods and time limits; costs of plans below the largest int"
  },
  {
   "property": "C39",
   "status": "proved",
   "theorems": [
    "Verif.Mas.C39_init_below",
    "Verif.Mas.C39_goal_below",
    "Verif.Mas.C39_init_exact",
    "Verif.Mas.C39_goal_exact"
   ],
   "note": "every transition system whose states are in range; exact if size times maximal cost is less than the largest int, otherwise whenever the computation returns, with costs of at least that size read as infinite"
  },
  {
   "property": "C40",
   "status": "proved",
   "theorems": [
    "Verif.Cart.C40_exact",
    "Verif.Cart.C40_split_defined",
    "Verif.Cart.C40_distances",
    "Verif.Cart.C40_admissible"
   ],
   "note": "tasks without axioms and conditional effects (the code rejects others) whose operators and goals mention no variable twice; every sequence of splits that split off some but not all values; distances below the largest int"
  },
  {
   "property": "C41",
   "status": "proved",
   "theorems": [
    "Verif.Cart.C41_admissible",
    "Verif.Cart.C41_consistent",
    "Verif.Cart.C41_additive",
    "Verif.Cart.C41_additive_consistent",
    "Verif.Cart.C41_goals_legal"
   ],
   "note": "the abstractions are those computed by the refinement loop for the original task, for goal facts and for landmarks of the delete relaxation, with or without combined values; sums of costs that fit into ints; the landmark generation itself is a hypothesis (landmarks of the delete relaxation)"
  },
  {
   "property": "C42",
   "status": "proved",
   "theorems": [
    "Verif.Landmarks.C42_past",
    "Verif.Landmarks.C42_future_sound",
    "Verif.Landmarks.C42_future_complete",
    "Verif.Landmarks.C42_cycles",
    "Verif.Landmarks.C42_uniform_admissible",
    "Verif.Landmarks.C42_uniform_rounding",
    "Verif.Landmarks.C42_optimal_admissible",
    "Verif.Landmarks.C42_optimal_dominates",
    "Verif.Landmarks.C42_sum_dead_ends",
    "Verif.Landmarks.C42_preferred"
   ],
   "note": "the landmark graph is a parameter whose nodes, orderings and achievers are true statements about the plans of the task; doubles are rational numbers, with a theorem on errors up to 1/100; the LP solver is a parameter with a contract; necessary orderings are not used by the progression, which only loses information"
  },
  {
   "property": "C43",
   "status": "proved",
   "theorems": [
    "Verif.Stubborn.C43_safe",
    "Verif.Stubborn.C43_defined",
    "Verif.Stubborn.C43_astar",
    "Verif.Stubborn.C43_astar_limited",
    "Verif.Stubborn.C43_limited_switch",
    "Verif.Stubborn.C43_two_effects_fail"
   ],
   "note": "all pruning methods and options; counterexample for operators with two effects on the same variable, which the code does not exclude"
  },
  {
   "property": "C44",
   "status": "proved",
   "theorems": [
    "Verif.OperatorCost.C44_cost_types",
    "Verif.OperatorCost.C44_axioms_free",
    "Verif.OperatorCost.C44_same_plans",
    "Verif.OperatorCost.C44_adapted_costs",
    "Verif.OperatorCost.C44_plan_cost",
    "Verif.OperatorCost.C44_plan_cost_types",
    "Verif.OperatorCost.C44_optimal_plans"
   ],
   "note": "every task and cost type, including axioms"
  },
  {
   "property": "C45",
   "status": "proved",
   "theorems": [
    "Verif.DomAbs.C45_abstraction",
    "Verif.DomAbs.C45_plans",
    "Verif.DomAbs.C45_rejected"
   ],
   "note": "the groups must satisfy the assertions of the code (disjoint, values of the variable) and be non-empty; names of facts are not modelled"
  },
  {
   "property": "C46",
   "status": "proved",
   "theorems": [
    "Verif.Lex.C46_lexer",
    "Verif.Lex.C46_lexer_exact",
    "Verif.Lex.C46_parser",
    "Verif.Lex.C46_unambiguous",
    "Verif.Lex.C46_round_trip",
    "Verif.Lex.C46_reserved_prefix_fails"
   ],
   "note": "std::regex is modelled by ordered backtracking over the expressions of the code; memory and stack limits are not modelled; identifiers beginning with let, true, false or infinity are split by the code, which is recorded as a disagreement"
  },
  {
   "property": "C47",
   "status": "proved",
   "theorems": [
    "Verif.PlanFiles.C47_roundtrip",
    "Verif.PlanFiles.C47_incomplete",
    "Verif.PlanFiles.C47_injective",
    "Verif.PlanFiles.C47_numbers",
    "Verif.PlanFiles.C47_cost",
    "Verif.PlanFiles.C47_cost_defined"
   ],
   "note": "operator names without line breaks"
  },
  {
   "property": "C48",
   "status": "proved",
   "theorems": [
    "Verif.Hm.C48_exact",
    "Verif.Hm.C48_defined",
    "Verif.Hm.C48_admissible",
    "Verif.Hm.C48_dead_end",
    "Verif.Hm.C48_consistent",
    "Verif.Hm.C48_increasing",
    "Verif.Hm.C48_hmax",
    "Verif.Hm.C48_astar",
    "Verif.Hm.C48_unsorted_goals_fail"
   ],
   "note": "supported tasks: no axioms and conditional effects, goals sorted by variable (otherwise the code throws: C48_unsorted_goals_fail)"
  },
  {
   "property": "C49",
   "status": "partial",
   "theorems": [
    "Verif.Sampling.C49_choose",
    "Verif.Sampling.C49_trials",
    "Verif.Sampling.C49_sample",
    "Verif.Sampling.C49_complete",
    "Verif.Sampling.C49_documented_restart_fails"
   ],
   "note": "doubles are rational numbers; the engine and the distributions are arbitrary streams that satisfy the C++ standard; the documented restart in states without successors is not what the code does (C49_documented_restart_fails: the walk ends there)"
  },
  {
   "property": "C50",
   "status": "proved",
   "theorems": [
    "Verif.Driver.C50_meaning",
    "Verif.Driver.C50_defined",
    "Verif.Driver.C50_multiset",
    "Verif.Driver.C50_unhandled"
   ],
   "note": "C50_unhandled records the inputs for which the function fails: no components, components killed by a signal"
  },
  {
   "property": "C51",
   "status": "proved",
   "theorems": [
    "Verif.OpenList.C51_open_list_bag"
   ],
   "note": "every nesting, history and random stream"
  },
  {
   "property": "C52",
   "status": "partial",
   "theorems": [
    "Verif.Search.C52_non_preferred_dropped",
    "Verif.Search.C52_rank_preferred_first_fails"
   ],
   "note": "the property is false of the code: the open list is created with pref_only=true, so that non-preferred successors are dropped; proved for all expansions, with a solvable task on which the search fails because of this"
  },
  {
   "property": "C53",
   "status": "proved",
   "theorems": [
    "Verif.Pdb.C53_normalize"
   ],
   "note": "every list"
  },
  {
   "property": "C57",
   "status": "proved",
   "theorems": [
    "Verif.Mas.C57_targets",
    "Verif.Mas.C57_limits",
    "Verif.Mas.C57_iteration",
    "Verif.Mas.C57_max_states"
   ],
   "note": "shrink strategies may exceed their targets in the code (shrink_perfect bisimulation); the limit on built factors is for strategies that meet them"
  },
  {
   "property": "C58",
   "status": "proved",
   "theorems": [
    "Verif.Products.C58_limit",
    "Verif.Products.C58_limits"
   ],
   "note": "32-bit int"
  },
  {
   "property": "C59",
   "status": "proved",
   "theorems": [
    "Verif.PlanFiles.C59_portfolio",
    "Verif.PlanFiles.C59_run"
   ],
   "note": "planner runs that respect the bound they are given (see C24 for the exception); operator names without line breaks; a killed run leaves a beginning of the file it was writing"
  },
  {
   "property": "C60",
   "status": "proved",
   "theorems": [
    "Verif.Cart.C60_outcome",
    "Verif.Cart.C60_complete",
    "Verif.Cart.C60_perfect"
   ],
   "note": "tasks without axioms and conditional effects (the code rejects others); distances that fit into ints"
  },
  {
   "property": "C61",
   "status": "proved",
   "theorems": [
    "Verif.Landmarks.C61_exploration",
    "Verif.Landmarks.C61_achievers",
    "Verif.Landmarks.C61_achievers_exact",
    "Verif.Landmarks.C61_zhu_givan",
    "Verif.Landmarks.C61_zhu_givan_valid",
    "Verif.Landmarks.C61_exhaust",
    "Verif.Landmarks.C61_exhaust_valid",
    "Verif.Landmarks.C61_same_landmarks",
    "Verif.Landmarks.C61_admissible",
    "Verif.Landmarks.C61_overridden_effects_fail"
   ],
   "note": "validity for plans: tasks without axioms whose unconditional effects are not overridden by other effects of the same operator (counterexample C61_overridden_effects_fail: the code does not exclude them and the heuristic then overestimates); the exact characterisation also covers axioms"
  },
  {
   "property": "C62",
   "status": "partial",
   "theorems": [
    "Verif.Landmarks.C62_merged",
    "Verif.Landmarks.C62_unsupported",
    "Verif.Landmarks.C62_valid_partial",
    "Verif.Landmarks.C62_admissible",
    "Verif.Landmarks.C62_superset_fails"
   ],
   "note": "truth is preserved if no ordering leads to a disjunctive landmark that is a proper subset of another given disjunctive landmark (in particular for atomic landmarks); without this condition the code replaces the smaller landmark by the larger one and the claim is false: C62_superset_fails, where a solvable initial state is reported as a dead end"
  },
  {
   "property": "C63",
   "status": "proved",
   "theorems": [
    "Verif.Potentials.C63_linear_program",
    "Verif.Potentials.C63_characterisation",
    "Verif.Potentials.C63_optimiser",
    "Verif.Potentials.C63_heuristic",
    "Verif.Potentials.C63_maximum",
    "Verif.Potentials.C63_optimal",
    "Verif.Potentials.C63_all_states",
    "Verif.Potentials.C63_tolerance",
    "Verif.Potentials.C63_tolerance_fails",
    "Verif.Potentials.C63_diverse",
    "Verif.Potentials.C63_astar"
   ],
   "note": "doubles are rational numbers and the LP solver is a parameter with an exact contract, which can be met (exists_maxSolver); C63_tolerance bounds the error for inexact solutions and C63_tolerance_fails shows that the correction of 1/100 does not suffice for long plans with a tolerance of 1e-6; sums of potentials must fit into int; operators with two effects on one variable are excluded"
  },
  {
   "property": "C64",
   "status": "partial",
   "theorems": [
    "Verif.Counting.C64_created",
    "Verif.Counting.C64_value_partial",
    "Verif.Counting.C64_plans",
    "Verif.Counting.C64_admissible_partial",
    "Verif.Counting.C64_dead_ends",
    "Verif.Counting.C64_dominates",
    "Verif.Counting.C64_independent",
    "Verif.Counting.C64_consistent",
    "Verif.Counting.C64_goal",
    "Verif.Counting.C64_astar",
    "Verif.Counting.C64_soplex_two_lmcut_fails"
   ],
   "note": "the claims hold for CPLEX, and for SoPlex with at most one LM-cut generator; with two of them the interface to SoPlex forgets to remove landmark constraints of earlier states and a goal state can get a positive value (C64_soplex_two_lmcut_fails). Doubles are rational numbers, the LP solver is a parameter with a contract that can be met (exists_minSolver); the delete-relaxation constraints are C83 and C84"
  },
  {
   "property": "C55",
   "status": "partial",
   "theorems": [
    "Verif.SasFile.C55_accepted_partial",
    "Verif.SasFile.C55_round_trip",
    "Verif.SasFile.C55_truncated",
    "Verif.SasFile.C55_rejected",
    "Verif.SasFile.C55_unchecked_variable"
   ],
   "note": "the full claim is false for files with an effect or axiom on a variable that does not exist: the code accesses the vector of variables before checking the number (C55_unchecked_variable); C55_accepted_partial shows that this is the only exception. Tasks with derived variables but without axioms are accepted; they are well-formed when these variables are seen as ordinary ones. Memory limits, reading errors and characters outside of ASCII are not modelled"
  },
  {
   "property": "C65",
   "status": "proved",
   "theorems": [
    "Verif.SimpleHeuristics.C65_blind_value",
    "Verif.SimpleHeuristics.C65_blind_consistent",
    "Verif.SimpleHeuristics.C65_blind_admissible",
    "Verif.SimpleHeuristics.C65_blind_astar",
    "Verif.SimpleHeuristics.C65_blind_int_max_fails",
    "Verif.SimpleHeuristics.C65_goal_count",
    "Verif.SimpleHeuristics.C65_goal_count_admissible",
    "Verif.SimpleHeuristics.C65_goal_count_inadmissible",
    "Verif.SimpleHeuristics.C65_modify_costs",
    "Verif.SimpleHeuristics.C65_modify_costs_types",
    "Verif.SimpleHeuristics.C65_modify_costs_inadmissible"
   ],
   "note": "operator costs below 2^30 for what the search sees of the blind heuristic: an operator of cost INT_MAX, which the reader accepts, makes it report a state with a plan as a dead end (C65_blind_int_max_fails)"
  },
  {
   "property": "C54",
   "status": "proved",
   "theorems": [
    "Verif.DefaultAxioms.C54_axioms",
    "Verif.DefaultAxioms.C54_no_axioms",
    "Verif.DefaultAxioms.C54_relaxation",
    "Verif.DefaultAxioms.C54_hmax",
    "Verif.DefaultAxioms.C54_hadd",
    "Verif.DefaultAxioms.C54_ff",
    "Verif.DefaultAxioms.C54_astar_hmax",
    "Verif.DefaultAxioms.C54_self_support_fails"
   ],
   "note": "axioms that use the variable they set (accepted by the reader, never written by the translator) are treated as if they were not cyclic: then h^max reports a state with a plan as a dead end (C54_self_support_fails); the statement excludes them"
  },
  {
   "property": "C66",
   "status": "proved",
   "theorems": [
    "Verif.Mas.C66_classes",
    "Verif.Mas.C66_preserves_distances",
    "Verif.Mas.C66_bisimulation",
    "Verif.Mas.C66_perfect",
    "Verif.Mas.C66_irrelevant_collision",
    "Verif.Mas.C66_greedy_overflow"
   ],
   "note": "the conditions on large numbers are needed: goal distance INT_MAX - 1 is confused with infinity (C66_irrelevant_collision), and with greedy the sum of a distance and a cost can overflow (C66_greedy_overflow). C66_perfect assumes that no time limit is reached and that the construction is defined; the merge strategy is a parameter"
  },
  {
   "property": "C67",
   "status": "proved",
   "theorems": [
    "Verif.Simplify.C67_plans",
    "Verif.Simplify.C67_valid",
    "Verif.Simplify.C67_variables",
    "Verif.Simplify.C67_facts",
    "Verif.Simplify.C67_keeping_effects"
   ],
   "note": "the condition on effects that keep a value is needed: such an effect is dropped although it could override another one (C67_keeping_effects). With --keep-no-ops the new task may contain operators without effects, so its validity is stated for the default only"
  },
  {
   "property": "C68",
   "status": "proved",
   "theorems": [
    "Verif.VarOrder.C68_variables",
    "Verif.VarOrder.C68_valid",
    "Verif.VarOrder.C68_plans",
    "Verif.VarOrder.C68_keep_no_ops"
   ],
   "note": "with --keep-no-ops, operators that have lost their effects have also lost preconditions, so that they have to be removed from plans of the new task (C68_keep_no_ops); validity of the new task is stated for the default only."
  },
  {
   "property": "C69",
   "status": "proved",
   "theorems": [
    "Verif.Mas.C69_fh",
    "Verif.Mas.C69_random",
    "Verif.Mas.C69_merge_and_shrink",
    "Verif.Mas.C69_overflow"
   ],
   "note": "random choices are a parameter: any pairs of different positions. The sum of two finite distances must be an int (C69_overflow)"
  },
  {
   "property": "C70",
   "status": "proved",
   "theorems": [
    "Verif.OrderFinder.C70_causal_graph",
    "Verif.OrderFinder.C70_level_orders",
    "Verif.OrderFinder.C70_causal_orders",
    "Verif.OrderFinder.C70_greedy_pattern"
   ],
   "note": "with an irrelevant variable in the task the orders along the causal graph exit with an input error; the greedy generator does so only if all relevant variables fit"
  },
  {
   "property": "C71",
   "status": "proved",
   "theorems": [
    "Verif.Mas.C71_views",
    "Verif.Mas.C71_precomputed",
    "Verif.Mas.C71_linear",
    "Verif.Mas.C71_selector",
    "Verif.Mas.C71_stateless",
    "Verif.Mas.C71_total_order",
    "Verif.Mas.C71_single_random",
    "Verif.Mas.C71_goal_relevance",
    "Verif.Mas.C71_dfp",
    "Verif.Mas.C71_sccs"
   ],
   "note": "scores of type double are rational numbers; MIASM scores are covered as an arbitrary scoring function only. The total order is limited to 32768 variables because a score above INT_MAX would remove all candidates"
  },
  {
   "property": "C73",
   "status": "proved",
   "theorems": [
    "Verif.StripsToSas.C73_plans",
    "Verif.StripsToSas.C73_mutexes",
    "Verif.StripsToSas.C73_valid",
    "Verif.StripsToSas.C73_pipeline",
    "Verif.StripsToSas.C73_implied_not_canonical"
   ],
   "note": "with --add-implied-preconditions two effects on one variable can have different values before, which sas_tasks.py does not allow (C73_implied_not_canonical); C73_pipeline (with C67 and C68) is for the default options. The grounded task is the one after axiom_rules.handle_axioms"
  },
  {
   "property": "C72",
   "status": "proved",
   "theorems": [
    "Verif.FactGroups.C72_returns",
    "Verif.FactGroups.C72_groups",
    "Verif.FactGroups.C72_cover",
    "Verif.FactGroups.C72_partition",
    "Verif.FactGroups.C72_negative",
    "Verif.FactGroups.C72_full",
    "Verif.FactGroups.C72_greedy",
    "Verif.FactGroups.C72_mutexes",
    "Verif.FactGroups.C72_names",
    "Verif.FactGroups.C72_nameOk",
    "Verif.FactGroups.C72_deterministic",
    "Verif.FactGroups.C72_task",
    "Verif.FactGroups.C72_plans"
   ],
   "note": "the invariants are a parameter (C80 proves that those of the code meet the hypotheses); facts of an invariant have at most one counted variable"
  },
  {
   "property": "C74",
   "status": "proved",
   "theorems": [
    "Verif.AxiomRules.C74_defined",
    "Verif.AxiomRules.C74_stratifiable",
    "Verif.AxiomRules.C74_layers",
    "Verif.AxiomRules.C74_stratification",
    "Verif.AxiomRules.C74_stratified",
    "Verif.AxiomRules.C74_min",
    "Verif.AxiomRules.C74_max",
    "Verif.AxiomRules.C74_axioms",
    "Verif.AxiomRules.C74_complete",
    "Verif.AxiomRules.C74_plans_kept",
    "Verif.AxiomRules.C74_plans",
    "Verif.AxiomRules.C74_states",
    "Verif.AxiomRules.C74_pipeline",
    "Verif.AxiomRules.C74_unneeded_unchecked"
   ],
   "note": "axioms of derived atoms that do not matter are not checked for stratifiability (C74_unneeded_unchecked); plans are kept from input to result without that assumption"
  },
  {
   "property": "C75",
   "status": "proved",
   "theorems": [
    "Verif.BuildModel.C75_exploration",
    "Verif.BuildModel.C75_complete",
    "Verif.BuildModel.C75_exact",
    "Verif.BuildModel.C75_order",
    "Verif.BuildModel.C75_projected_join_fails"
   ],
   "note": "joins whose common variable is not in the effect pass the assertions, but the exploration ignores the common variable, so that it finds more than what follows (C75_projected_join_fails). Strings are variables or objects; output and counters are left out"
  },
  {
   "property": "C76",
   "status": "proved",
   "theorems": [
    "Verif.PrologProgram.C76_translation",
    "Verif.PrologProgram.C76_explored",
    "Verif.PrologProgram.C76_bounds",
    "Verif.PrologProgram.C76_exact",
    "Verif.PrologProgram.C76_duplicates_fail"
   ],
   "note": "the generation of rules from actions (translate_facts, get_normalized rules) is not part of this property. Names of new predicates and variables are assumed not to occur in the program; sorting is any permutation. Without the condition on duplicate variables the exploration finds more than what follows (C76_duplicates_fail)"
  },
  {
   "property": "C77",
   "status": "proved",
   "theorems": [
    "Verif.Instantiate.C77_defined",
    "Verif.Instantiate.C77_unsolvable",
    "Verif.Instantiate.C77_plans",
    "Verif.Instantiate.C77_states",
    "Verif.Instantiate.C77_params",
    "Verif.Instantiate.C77_grounded",
    "Verif.Instantiate.C77_pipeline",
    "Verif.Instantiate.C77Example.C77_cost_fails"
   ],
   "note": "for tasks as the normalisation makes them (LTask.Ok): conditions are conjunctions of literals. No variable may occur twice in the cost of an action, otherwise an assertion can fail (C77_cost_fails). The direction from plans of the task to plans of the grounded task needs stratifiable axioms, because actions without effects are left out. C77_pipeline assumes that the invariants are correct (see C80 and C81)"
  },
  {
   "property": "C78",
   "status": "proved",
   "theorems": [
    "Verif.Normalize.C78_defined",
    "Verif.Normalize.C78_plans",
    "Verif.Normalize.C78_task",
    "Verif.Normalize.C78_simplify",
    "Verif.Normalize.C78_pipeline",
    "Verif.Normalize.C78Example.C78_empty_type_fails",
    "Verif.Normalize.C78Example.C78_universal_fails"
   ],
   "note": "variables of an action, axiom or goal are assumed to have different names (C79 proves that uniquify_variables achieves this). Both conditions are needed: a trivial quantifier over a type without objects is simplified wrongly (C78_empty_type_fails), and an atom that depends on itself below a universal quantifier gets a second model (C78_universal_fails). C78_pipeline assumes that the invariants are correct (see C80 and C81)"
  },
  {
   "property": "C79",
   "status": "proved",
   "theorems": [
    "Verif.Uniquify.C79_nnf",
    "Verif.Uniquify.C79_condition",
    "Verif.Uniquify.C79_task",
    "Verif.Uniquify.C79_normalize",
    "Verif.Uniquify.number_inj",
    "Verif.Uniquify.C79Example.C79_capture_fails"
   ],
   "note": "the condition on names of free variables is needed: parse_condition renames variables without knowing the parameters of the action, so that a quantified ?x can become ?x1 and capture a parameter ?x1 (C79_capture_fails). Formulas are given as trees; syntax errors of nested lists are not modelled"
  },
  {
   "property": "C80",
   "status": "proved",
   "theorems": [
    "Verif.Invariants.C80_invariant",
    "Verif.Invariants.C80_find",
    "Verif.Invariants.C80_groups",
    "Verif.Invariants.C80_form",
    "Verif.Invariants.C80_invariants",
    "Verif.Invariants.C80Counter.C80_readding_fails",
    "Verif.Invariants.C80Counter.C80_types_fail",
    "Verif.Invariants.C80Counter.C80_falsity_fails"
   ],
   "note": "the three conditions are needed: the check takes an atom that is deleted and added again as deleted (C80_readding_fails), ignores the types of variables of delete effects (C80_types_fail), and treats a false condition like an empty one (C80_falsity_fails). The lists of reachable parameters contain all applicable instances (C77_params); C80_invariants uses them. The order of new candidates may differ from that of the code"
  },
  {
   "property": "C81",
   "status": "proved",
   "theorems": [
    "Verif.Invariants.C81_pipeline",
    "Verif.Invariants.C81_translate"
   ],
   "note": "composition of C72 to C80, from a task whose conditions are in negation normal form (C79_condition) to the finite-domain task. The conditions of C79 (names), C78 (types without objects, recursion below universal quantifiers) and C80 (effects that delete and add the same atom, types of variables of delete effects) are hypotheses, stated for the normalised task where the steps after the normalisation need them. No object may be named ?X. The steps of simplify.py and variable_order.py after it are properties of their own"
  },
  {
   "property": "C82",
   "status": "proved",
   "theorems": [
    "Verif.SasFile.C82_read",
    "Verif.Invariants.C82_file",
    "Verif.Invariants.C82_translate"
   ],
   "note": "composition of C81, C67, C68 and C55. The plans of the task that is read start in its initial state, in which the derived variables were evaluated. The conditions of C81 are hypotheses; so is that the numbers of the finite-domain task fit into 32-bit integers (SasTask.Fits)"
  },
  {
   "property": "C83",
   "status": "proved",
   "theorems": [
    "Verif.CountingIF.C83_created",
    "Verif.CountingIF.C83_value",
    "Verif.CountingIF.C83_relaxed_plans",
    "Verif.CountingIF.C83_below_hplus",
    "Verif.CountingIF.C83_admissible",
    "Verif.CountingIF.C83_hplus",
    "Verif.CountingIF.C83_nonneg",
    "Verif.CountingIF.C83_goal",
    "Verif.CountingIF.C83_step",
    "Verif.CountingIF.C83_consistent",
    "Verif.CountingIF.C83_hplus_consistent",
    "Verif.CountingIF.C83_astar",
    "Verif.CountingIF.C83_axioms_fails"
   ],
   "note": "the heuristic with these constraints only (combinations with other constraints are not covered). The condition on axioms is needed: the code ignores axioms without an error and can return DEAD_END for a state with a plan (C83_axioms_fails; the documentation says that axioms are not supported). Doubles are rational numbers, the solver is a parameter with a contract that can be met for every positive error (exists_mixedSolver)"
  },
  {
   "property": "C84",
   "status": "proved",
   "theorems": [
    "Verif.CountingRR.C84_created",
    "Verif.CountingRR.C84_created_fails",
    "Verif.CountingRR.C84_history",
    "Verif.CountingRR.C84_below_hplus",
    "Verif.CountingRR.C84_admissible",
    "Verif.CountingRR.C84_hplus",
    "Verif.CountingRR.C84_nonneg",
    "Verif.CountingRR.C84_goal",
    "Verif.CountingRR.C84_hplus_consistent",
    "Verif.CountingRR.C84_astar",
    "Verif.CountingRR.C84_hplus_self_fails",
    "Verif.CountingRR.C84_value",
    "Verif.CountingRR.C84_step",
    "Verif.CountingRR.C84_consistent"
   ],
   "note": "the heuristic with these constraints only (combinations with other constraints are not covered). The conditions on effects that are preconditions are needed: with vertex elimination such a task always ends in an exception (C84_created_fails), with time labels an operator can support itself and the value can be below h^+ (C84_hplus_self_fails). Hash maps are lists without repetitions, the order of entries with the same degree in the priority queue is a parameter, doubles are rational numbers, the solver is a parameter with a contract that can be met for every positive error (exists_mixedSolver)"
  },
  {
   "property": "C85",
   "status": "proved",
   "theorems": [
    "Verif.PerTask.C85_per_task_information",
    "Verif.PerTask.C85_destroyed"
   ],
   "note": "the function that constructs entries has no side effects in the model (so it does not access other per-task information); hash sets are lists with any order of iteration"
  },
  {
   "property": "C86",
   "status": "proved",
   "theorems": [
    "Verif.Lisp.C86_read",
    "Verif.Lisp.C86_unambiguous",
    "Verif.Lisp.C86_errors",
    "Verif.Lisp.C86_round_trip"
   ],
   "note": "for files without tokens the code raises StopIteration instead of a ParseError (part of C86_errors). The limit of Python for the depth of recursion is not modelled; the interpretation of the nested lists (parsing_functions.py) is not covered"
  },
  {
   "property": "C87",
   "status": "proved",
   "theorems": [
    "Verif.Types.C87_closure",
    "Verif.Types.C87_supertypes"
   ],
   "note": "the bound on the number of steps in the model is never reached (part of the theorems). In C77 to C82 the supertypes are a parameter of the task"
  },
  {
   "property": "C88",
   "status": "proved",
   "theorems": [
    "Verif.Effects.C88_effects",
    "Verif.Effects.C88_accepts",
    "Verif.Effects.C88_capture_fails",
    "Verif.Effects.C88_assertions_fail"
   ],
   "note": "conditions and atoms are abstract, with the laws of conjunction and of simplification (for the conditions of the translator, C78 proves the latter if quantifiers over types without objects are not trivial); reading of the nested list into an effect is not modelled"
  },
  {
   "property": "C89",
   "status": "proved",
   "theorems": [
    "Verif.TypedList.C89_typed_lists",
    "Verif.TypedList.C89_unique",
    "Verif.TypedList.C89_errors",
    "Verif.TypedList.C89_exception"
   ],
   "note": "lists of functions, which use another constructor, are not modelled; warnings and the texts of errors are left out"
  }
 ]
}