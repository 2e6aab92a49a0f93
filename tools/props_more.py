p("C51", "Every nesting of open lists is a bag",
  "For open lists nested to any depth (alternation over any mix of best-first, tie-breaking, pareto, epsilon-greedy and type-based lists, themselves possibly alternation lists), every history of insertions, removals, boosts and clears with any random numbers runs without error; every removal returns an entry which is stored; an inserted entry is stored as many times as there are leaf lists accepting it; nothing else is lost, created or duplicated; and empty() holds exactly when nothing is stored.",
  "every nesting of open lists, every history, every random stream, every evaluator outcome",
  "The nesting depth and the history are unbounded; the interaction of sizes, buckets and priorities depends on both.",
  [S+"open_lists/alternation_open_list.cc", S+"open_list.h:OpenList::insert", S+"open_lists/best_first_open_list.cc", S+"open_lists/tiebreaking_open_list.cc", S+"open_lists/pareto_open_list.cc", S+"open_lists/epsilon_greedy_open_list.cc", S+"open_lists/type_based_open_list.cc"])

p("C52", "Enforced hill climbing with rank_preferred_first ranks, it does not prune",
  "As documented, with preferred_usage=rank_preferred_first enforced hill climbing inserts preferred successors first, then the non-preferred ones: in the breadth-first search of a phase every applicable operator of an expanded state within the bound is considered.",
  "every task, heuristic, preferred operators and state expanded",
  "The effect depends on the interaction of an option value with the acceptance rule of an open list created by another component; it only shows on tasks in which the preferred operators are not enough to find a better state.",
  [S+"search_algorithms/enforced_hill_climbing_search.cc", S+"open_lists/tiebreaking_open_list.cc", S+"open_list.h:OpenList::insert"])

p("C53", "Given patterns are validated and normalised",
  "A pattern given by the user or a generator is rejected exactly if it names a variable which does not exist; otherwise the pattern used is sorted, has no duplicates and contains exactly the given variables.",
  "every list of integers and number of variables",
  "All lists of integers.",
  [S+"pdbs/validation.cc:validate_and_normalize_pattern"])

p("C57", "Merge-and-shrink respects its size limits",
  "The size options are accepted exactly if each is unset or positive, and are then normalised so that neither the limit before merging nor the threshold exceeds the limit on the number of states. For non-empty factors the shrink targets are positive, do not exceed the sizes and the limit before merging, their product respects the limit, and nothing is shrunk below its size if the limits already hold. If the shrink strategy meets its targets, every factor built by merging has at most max_states states.",
  "all options, sizes, merge and shrink strategies, label reductions and numbers of iterations",
  "The sizes depend on the history of merges; the arithmetic with products and square roots has corner cases for every combination of sizes and limits.",
  [S+"merge_and_shrink/utils.cc:compute_shrink_sizes", S+"merge_and_shrink/utils.cc:shrink_before_merge_step", S+"merge_and_shrink/merge_and_shrink_algorithm.cc:handle_shrink_limit_defaults", S+"merge_and_shrink/merge_and_shrink_algorithm.cc:main_loop"])

p("C58", "Tests on products are safe against overflow",
  "is_product_within_limit and is_product_within_limits never overflow or divide by zero for arguments that satisfy their documented requirements, and answer exactly whether the mathematical product respects the limits.",
  "all ints and limits that satisfy the documented requirements",
  "The domain has more than 2^64 elements, and the interesting cases are at its borders.",
  [S+"utils/math.cc:is_product_within_limit", S+"utils/math.cc:is_product_within_limits"])

p("C59", "Anytime portfolios survive kills at any point",
  "If the planner runs of an anytime portfolio are killed at any point, even in the middle of writing a plan file, the driver never fails: it keeps exactly the plans whose files were written completely, with strictly decreasing costs below the bound of the user, deletes the incomplete file, numbers the plans consecutively and gives the cost of the best plan as bound to the next run.",
  "every number of runs, every plan found by each run, every point at which it is killed", "Crash points can be anywhere in the output, and the state depends on the history of runs.",
  ["driver/plan_manager.py:PlanManager.process_new_plans", "driver/plan_manager.py:_parse_plan", "driver/plan_manager.py:PlanManager.compute_next_portfolio_cost_bound", S+"plan_manager.cc:PlanManager::save_plan"])

p("C60", "Counterexample-guided refinement of Cartesian abstractions",
  "The refinement never fails, whatever the limits and the selection of splits: if it stops with a plan, the plan is optimal; if it stops because the abstraction has no solution, there is no plan; without limits it stops with one of the two, and the heuristic value of the initial state is the cost of an optimal plan (or infinite).",
  "every task, every cost function, every limit, every sequence of selected splits", "Quantifies over all plans and over all sequences of refinements.",
  [S+"cartesian_abstractions/cegar.cc:CEGAR::refinement_loop", S+"cartesian_abstractions/abstract_search.cc:AbstractSearch::find_solution", S+"cartesian_abstractions/split_selector.cc:SplitSelector::pick_split"])

p("C61", "Generated landmarks are landmarks",
  "The relaxed exploration reaches exactly the facts reachable in the delete relaxation without the excluded facts. The landmarks of the factory of Zhu and Givan, and of exhaustive search, are exactly the facts without which some goal cannot be reached in the delete relaxation, independently of the order in which hash sets are visited; orderings are true of all plans; the achievers contain every operator which makes the landmark true (for the first time) on some plan. Hence heuristics over these landmarks are admissible.",
  "every task (with conditional effects and, for the exact characterisation, axioms), every order of hash sets, every history of the search", "Quantifies over all plans of all tasks; the fixed point of label propagation depends on the order of hash sets.",
  [S+"landmarks/exploration.cc:Exploration::compute_relaxed_reachability", S+"landmarks/landmark_factory_zhu_givan.cc", S+"landmarks/landmark_factory_rpg_exhaust.cc", S+"landmarks/landmark_factory_relaxation.cc:LandmarkFactoryRelaxation::calc_achievers", S+"landmarks/landmark_graph.cc"])

p("C62", "Merging landmark graphs keeps them true",
  "Merging the landmark graphs of several factories only yields landmarks of these graphs, no two of which share an atom; every given atomic landmark is kept, and an ordering between two landmarks is there exactly if one of the graphs orders landmarks they stand for, with the strongest type. If the given graphs only contain true statements about plans, so does the merged graph, and heuristics over it are admissible.",
  "every number of landmark graphs with atomic and disjunctive landmarks, every task", "Quantifies over all plans and all combinations of graphs.",
  [S+"landmarks/landmark_factory_merged.cc", S+"landmarks/landmark_factory.cc:LandmarkFactory::add_or_replace_ordering_if_stronger", S+"landmarks/landmark_graph.cc:LandmarkGraph::contains_superset_disjunctive_landmark"])

p("C63", "Potential heuristics are consistent and optimal for their objective",
  "Whatever states are optimised for, in whatever sequence, the potential function obtained is goal-aware and consistent, so the heuristic is admissible and A* with it is optimal; the optimiser finds the function with the greatest sum of potentials of the samples (or average over all states) among all consistent goal-aware potential functions, and reports no solution only if there is no maximum. Diverse potential heuristics never exceed the number of functions or samples and, unless limited, attain for every sample the best possible value.",
  "every task without axioms and conditional effects, every sequence of optimisations, every list of samples, every exact LP solver, every order of hash maps", "Quantifies over all states, transitions and plans, over all potential functions and all solutions an LP solver may return.",
  [S+"potentials/potential_optimizer.cc:PotentialOptimizer", S+"potentials/potential_function.cc:PotentialFunction::get_value", S+"potentials/potential_heuristic.cc", S+"potentials/potential_max_heuristic.cc", S+"potentials/diverse_potential_heuristics.cc:DiversePotentialHeuristics"])

p("C64", "Operator-counting heuristics are admissible and combine their constraints",
  "Whatever states have been evaluated before, the value of a state is the minimal cost (rounded up, with a correction of 0.01) of operator counts that satisfy exactly the constraints of this state: state equation, landmarks found by LM-cut, post-hoc optimisation constraints. Every plan satisfies all of them, so the value never exceeds the cost of a plan, dead ends have no plans and A* is optimal; the value is at least that of every pattern database, of the landmark cost sum and of h^max; without LM-cut it is consistent and does not depend on earlier evaluations.",
  "every task without axioms and conditional effects, every non-empty list of constraint generators, every sequence of evaluated states, every LP or MIP solver with an error below 0.01", "Quantifies over all plans, all solutions of linear programs and all histories of temporary constraints.",
  [S+"operator_counting/operator_counting_heuristic.cc:OperatorCountingHeuristic::compute_heuristic", S+"operator_counting/state_equation_constraints.cc", S+"operator_counting/lm_cut_constraints.cc", S+"operator_counting/pho_constraints.cc", S+"lp/soplex_solver_interface.cc", S+"lp/cplex_solver_interface.cc"])

p("C55", "The search component reads what the translator writes and accepts only well-formed tasks",
  "For every file, the reader either reports an input error or accepts it and yields a task in which all facts exist, the axioms are stratified and set binary derived variables to non-default values, operators have effects and only on variables that are not derived, there is a goal without repeated variables, the mutex relation is symmetric, and the initial state is the one that follows from the axioms. For every valid task of the translator, reading the written file yields the intended task with its names, costs and mutexes; if the end of the file is missing because the translator was stopped, the file is not accepted, nor is a file with more text at its end or another version.",
  "every sequence of characters as a file; every valid task of the translator (any number and size of variables, operators, axioms, mutex groups); every point at which writing the file was stopped", "Quantifies over all files and all tasks.",
  [S+"tasks/root_task.cc:TaskParser", S+"tasks/root_task.cc:RootTask", S+"utils/task_lexer.cc:TaskLexer", "src/translate/sas_tasks.py:SASTask.output"])

p("C65", "Blind and goal-count heuristics and modified costs are what they are documented to be",
  "The blind heuristic is 0 for goal states and the cost of a cheapest operator for all other states; if operators cost less than 2^30 it is admissible and consistent, and A* with it finds plans of minimal cost for tasks with axioms and conditional effects. The goal-count heuristic is the number of goals that do not hold, 0 for goal states only; it is admissible if no operator costs less than it has effects, but not in general. An evaluator for a task with modified costs is admissible for the original task if it is admissible for the modified one and no operator becomes more expensive.",
  "every task (with axioms and conditional effects), every state, every plan, every cost type", "Quantifies over all states and plans of all tasks.",
  [S+"heuristics/blind_search_heuristic.cc:BlindSearchHeuristic::compute_heuristic", S+"heuristics/goal_count_heuristic.cc:GoalCountHeuristic::compute_heuristic", S+"task_utils/task_properties.cc:get_min_operator_cost", S+"evaluators/modify_costs_evaluator.cc"])

p("C54", "Axioms for default values make relaxation heuristics safe for tasks with axioms",
  "For every task with axioms the transformed task is defined, and differs only in additional axioms. They give a derived variable its default value, for exactly those variables whose default value is needed (in the goal, preconditions, effect conditions, or indirectly in axioms); the condition is empty for variables on cycles (or all, as the option says), and otherwise the conditions are in every state equivalent to no axiom of the variable being triggered. If no axiom uses the variable it sets, or all variables are approximated, then every plan of the original task is a relaxed plan of the transformed one: h^max is admissible, h^max, h^add and FF (operator costs up to 10^8) report dead ends only for states without a plan, and A* with h^max finds plans of minimal cost for tasks with axioms. Tasks without axioms stay the same.",
  "every well-formed task with binary derived variables and stratified axioms, both options, every order in which hash sets are visited, every state, every plan", "Quantifies over all tasks with axioms, states and plans, and over the order of hash tables.",
  [S+"tasks/default_value_axioms_task.cc:DefaultValueAxiomsTask", S+"tasks/default_value_axioms_task.cc:collect_non_dominated_hitting_sets_recursively", S+"tasks/default_value_axioms_task.cc:get_default_value_axioms_task_if_needed", S+"heuristics/max_heuristic.cc", S+"heuristics/additive_heuristic.cc", S+"heuristics/ff_heuristic.cc"])

p("C66", "Shrinking by bisimulation preserves distances and makes merge-and-shrink perfect",
  "Bisimulation shrinking always ends with a partition of the states that respects the bound on its size unless more combinations of goal status and goal distance occur; states of one class agree in both, so goal distances are never changed, whatever the bound, the option greedy and the option at_limit. If the bound is not smaller than the number of states the result is a bisimulation (with greedy, for the transitions on cheapest paths). If the bounds are not smaller than the number of states of a task without conditional effects and the construction is not stopped by the time limit, the merge-and-shrink heuristic with bisimulation is the cost of a cheapest plan of every state (of every reachable one if unreachable states are pruned), and every state without a plan is reported as a dead end, for all merge strategies, label reductions, prunings and thresholds. Goal distances must not be INT_MAX - 1, and with greedy no sum of a goal distance and an operator cost may exceed INT_MAX.",
  "every transition system, every bound, both options; every task without axioms and conditional effects, every merge strategy and configuration, every state", "Quantifies over all transition systems, all tasks and all states and plans.",
  [S+"merge_and_shrink/shrink_bisimulation.cc:ShrinkBisimulation::compute_equivalence_relation", S+"merge_and_shrink/shrink_bisimulation.cc:ShrinkBisimulation::compute_signatures", S+"merge_and_shrink/merge_and_shrink_algorithm.cc", S+"merge_and_shrink/merge_and_shrink_heuristic.cc"])

p("C67", "Removing unreachable facts and constant variables keeps the plans of a task",
  "For every valid task of the translator in which no effect that keeps a value overrides another effect, the simplification at the end of the translation ends without an error. It reports an unsolvable task only if there is no plan, and a trivially solvable one only if the empty plan is a plan. Otherwise the new task is a valid task again; its variables are those with at least two values that can be reached by single effects and axioms, with exactly these values, in the old order and with their names and layers; the initial state, the goal and the mutexes say the same about them as before. Every plan of the new task is, with its names and costs, a plan of the given task, and every plan of the given task becomes one of the new task if operators without effects are left out (none has to be left out with --keep-no-ops).",
  "every task of the translator (any number and size of variables, operators with conditional effects, axioms, mutex groups), with and without --keep-no-ops, every plan", "Quantifies over all tasks and plans.",
  ["src/translate/simplify.py:filter_unreachable_propositions", "src/translate/simplify.py:VarValueRenaming", "src/translate/simplify.py:build_dtgs", "src/translate/sas_tasks.py:SASOperator"])

p("C68", "Reordering variables and removing irrelevant ones keeps the plans of a task",
  "For every valid task of the translator, the choice of a variable order at the end of the translation ends without an error. The variables of the new task are variables of the given one, each at most once, with their values, names, layers and initial values: all of them, or, if irrelevant ones are removed, exactly those from which a goal variable can be reached in the causal graph. If variables are reordered, a variable comes before another one that has influence on it only if they are on a common cycle of the causal graph; otherwise the old order is kept. Goal and mutexes say the same about the facts of the new task as before. The new task is valid again. Every plan of the given task becomes a plan of the new one if operators that affect removed variables only are left out, and every plan of the new task is, with its names and costs, a plan of the given one (with --keep-no-ops, after operators without effects have been left out).",
  "every task of the translator (any number of variables, operators with conditional effects, axioms, mutex groups), all combinations of the three options, every plan", "Quantifies over all tasks and plans.",
  ["src/translate/variable_order.py:find_and_apply_variable_order", "src/translate/variable_order.py:CausalGraph", "src/translate/variable_order.py:MaxDAG", "src/translate/variable_order.py:VariableOrder", "src/translate/sccs.py"])

p("C69", "f-preserving and random shrinking meet their target and shrink in the documented order",
  "The f-preserving and the random shrink strategy always end with a partition of the states, whatever the random number generator returns; the number of classes is exactly the target size, or the number of states if that is smaller. If the target size is not less than the number of pairs of f and h values that occur, f-preserving shrinking only combines states with equal f and h. It respects the options: if a state shares its class with another one, then all states of equal f and h that are preferred for shrinking share one class. The way in which buckets are stored does not matter for this. So merge-and-shrink with these strategies is admissible and never builds a factor with more than max_states states. (The sum of two finite distances must be an int.)",
  "every transition system and its distances, every target size, all options, every random number generator; every task and configuration of merge-and-shrink", "Quantifies over all transition systems, target sizes and random choices.",
  [S+"merge_and_shrink/shrink_bucket_based.cc:ShrinkBucketBased::compute_abstraction", S+"merge_and_shrink/shrink_fh.cc:ShrinkFH::partition_into_buckets", S+"merge_and_shrink/shrink_random.cc:ShrinkRandom::partition_into_buckets"])

p("C70", "Causal graph, variable orders and the greedy pattern follow their definitions",
  "For every task, the causal graph of the search component consists of exactly these arcs: from a variable in a precondition or effect condition of an operator or axiom to another variable it affects, and between different variables affected by the same operator or axiom; every list of neighbours is sorted and has no duplicates. The variable orders by level and the random one contain every variable once. The orders along the causal graph also do, and every variable is the first one left that some variable chosen before depends on, or of the goal, in the priority the type says; if some variable is not relevant for the goal the planner exits with an input error instead. The pattern of the greedy generator is the longest beginning of such an order whose projection has at most max_states states.",
  "every task whose operators, axioms and goal mention existing variables only, every order type, every way of shuffling, every bound", "Quantifies over all tasks and bounds.",
  [S+"task_utils/causal_graph.cc:CausalGraph::CausalGraph", S+"task_utils/variable_order_finder.cc:VariableOrderFinder::next", S+"pdbs/pattern_generator_greedy.cc:PatternGeneratorGreedy::compute_pattern"])

p("C71", "Merge strategies always return two active factors and follow their documented order",
  "However often a merge strategy is asked while at least two factors are left, it returns two different active factors: precomputed merge trees (each variable being a leaf once), linear strategies (if the variable order does not end in an input error), and the stateless strategy and the one along strongly connected components with score-based filtering that contains a tie-breaking function (single random, or the total order for at most 32768 variables). After k merges the variables are partitioned among the remaining factors. A linear strategy combines the variables in the given order. Score-based filtering returns the candidate with the lexicographically least scores and exits with a critical error only if two candidates have the same least scores. The scores of goal relevance, DFP and the total order are as documented. The strategy along strongly connected components merges the components of the causal graph one after the other in the order the option says, each completely before the next one, and combines different components only afterwards.",
  "every task, every sequence of factored transition systems with the right active factors, every sequence of calls, all options, every random choice", "Quantifies over all histories of calls, transition systems and random choices.",
  [S+"merge_and_shrink/merge_strategy_precomputed.cc:MergeStrategyPrecomputed::get_next", S+"merge_and_shrink/merge_tree_factory_linear.cc", S+"merge_and_shrink/merge_selector_score_based_filtering.cc:select_merge_from_candidates", S+"merge_and_shrink/merge_strategy_sccs.cc:MergeStrategySCCs::get_next", S+"merge_and_shrink/merge_scoring_function_dfp.cc:MergeScoringFunctionDFP::compute_scores", S+"merge_and_shrink/merge_scoring_function_total_order.cc"])

p("C73", "Translating a grounded task to finite-domain variables keeps its plans",
  "Given a grounded task (sets of atoms, actions with conditional effects, axioms in layers) and groups of atoms of which at most one is true in every reachable state, which cover the task and in which derived atoms and negative goals are alone, the translator always produces a task with finite-domain variables, for all options. Every plan of the new task is, with names and costs, a plan of the grounded task; from every plan of the grounded task a plan of the new one results by leaving out actions that change nothing (with --keep-no-ops none is left out unless the goal is empty). Facts in a common mutex group of the new task are never true together in its reachable states. The new task is valid for the search component, and in the canonical form described in sas_tasks.py unless --add-implied-preconditions is used. Together with C67 and C68 the same holds for the final output of the translator.",
  "every grounded task (any number of atoms, actions, conditional effects, axioms), all suitable groups of atoms, all options, every plan", "Quantifies over all tasks, groups and plans.",
  ["src/translate/main.py:translate_task", "src/translate/main.py:translate_strips_operator", "src/translate/main.py:build_sas_operator", "src/translate/main.py:translate_strips_conditions_aux", "src/translate/main.py:negate_and_translate_condition", "src/translate/main.py:translate_strips_axiom"])

p("C72", "Groups of atoms for finite-domain variables are chosen greedily from invariants and cover all atoms",
  "Given the invariants found for a task, the computation of groups ends without an error. Every group is a single reachable atom or consists of at least two reachable instances of one invariant; together the groups have exactly the reachable atoms, in the standard encoding each atom is in one group only, and in the full encoding each invariant with two instances gives a group. The groups are chosen one after another, always one with the most atoms that are not covered yet. Atoms that have to be false in the goal are alone in their groups. The mutex groups are the reachable instances of the invariants and single atoms that are no instances. The names of values are the atoms in order, followed by one more name. Nothing depends on the order in which Python iterates over sets, except for the order of mutex groups. If at most one instance of each invariant is true in every reachable state, the groups are suitable for the translation to finite-domain variables of C73, so that this translation keeps the plans.",
  "every set of invariants, objects, reachable atoms and negative goals, both encodings, every order of the sets; every grounded task", "Quantifies over all tasks, invariants and iteration orders.",
  ["src/translate/fact_groups.py:compute_groups", "src/translate/fact_groups.py:GroupCoverQueue", "src/translate/fact_groups.py:choose_groups", "src/translate/fact_groups.py:expand_group", "src/translate/fact_groups.py:build_translation_key", "src/translate/fact_groups.py:collect_all_mutex_groups"])

p("C74", "Removing and simplifying axioms and computing axiom layers keeps the plans",
  "The treatment of axioms of a grounded task always ends: with an error message if the axioms of the derived atoms that matter for the goal or an action cannot be stratified, otherwise with axioms and layers. The derived atoms of the result are exactly those that matter, each with one layer; no atom is below one it depends on, and it is above those it depends on by negation. With the strategy \"min\" each layer is the lowest possible one, with \"max\" atoms share a layer only if they depend on each other. Axioms of the result are axioms of the input without duplicates in their bodies; none needs its own head and none is weaker than another one for the same atom, and an axiom is left out only for one of these reasons. If the axioms of the input are stratifiable, the result has the same plans and, up to derived atoms that do not matter, the same reachable states. Together with C72 and C73 this covers the way from the grounded task to finite-domain variables.",
  "every grounded task, both layer strategies, every plan", "Quantifies over all tasks, axioms, dependencies and plans.",
  ["src/translate/axiom_rules.py:handle_axioms", "src/translate/axiom_rules.py:compute_necessary_atoms", "src/translate/axiom_rules.py:get_strongly_connected_components", "src/translate/axiom_rules.py:compute_simplified_axioms", "src/translate/axiom_rules.py:compute_clusters", "src/translate/axiom_rules.py:compute_axiom_layers"])

p("C75", "The exploration finds every atom that follows from the facts and rules",
  "For every Datalog program in normal form (each predicate with one arity; variables of an effect occur in the conditions; no variable occurs twice in an atom; rules are joins, products or projections with the shape that their assertions demand) the exploration ends without an error, and no assertion fails. Its result starts with the facts, contains no other atom twice, and contains every atom that follows from the facts by the rules. If variables that two conditions of a rule have in common also occur in its effect, then the result contains exactly the atoms that follow. Without this condition it contains exactly those that follow if the conditions of a rule have to agree on variables of its effect only. As a set, the result does not depend on the order of facts and rules.",
  "every program in normal form over a non-empty set of objects, any number of facts, rules, conditions and arguments", "Quantifies over all programs; the derivations are unbounded.",
  ["src/translate/build_model.py:compute_model", "src/translate/build_model.py:variables_to_numbers", "src/translate/build_model.py:JoinRule", "src/translate/build_model.py:ProductRule", "src/translate/build_model.py:ProjectRule", "src/translate/build_model.py:Unifier", "src/translate/build_model.py:Queue"])

p("C76", "The normalised Datalog program means the same as the original rules",
  "For every Datalog program whose facts contain the equality of all its objects and whose predicates have one arity each, the normalisation (free variables of effects, variables that occur twice in an atom, rules without conditions) and the splitting of rules (connected parts, greedy binary joins with projections) end without a failed assertion. All resulting rules have the form that the exploration demands. Exactly the same atoms of the original predicates follow from the new program as from the original one, where a variable that occurs in the effect of a rule only stands for any object. Hence the exploration of the new program finds every atom that can be derived from the original program; it finds exactly these if every variable of a rule occurs in its effect and no variable occurs twice in a condition.",
  "every program of this kind, any number of facts, rules, conditions and arguments, any sorting orders", "Quantifies over all programs; the greedy join has a different shape for each of them.",
  ["src/translate/pddl_to_prolog.py:normalize", "src/translate/pddl_to_prolog.py:remove_free_effect_variables", "src/translate/pddl_to_prolog.py:split_duplicate_arguments", "src/translate/pddl_to_prolog.py:convert_trivial_rules", "src/translate/split_rules.py:split_rule", "src/translate/greedy_join.py:greedy_join", "src/translate/graph.py:connected_components"])

p("C77", "Instantiation keeps the plans of a normalised task",
  "For every normalised PDDL task with typed objects, action and axiom schemas, conditional and universal effects, negative conditions and action costs, the relaxed exploration and the instantiation end without a failed assertion (if no variable occurs twice in the cost of an action). If they report that the goal is not relaxed reachable or impossible, the task has no plan. Otherwise every plan of the grounded task is a plan of the given task with the same names and costs, and every plan of the given task is a plan of the grounded one, up to actions without effects, which are kept on request. Both have the same reachable states, in which atoms that are not listed as fluent never change. Together with the later steps, the plans of the finite-domain task are those of the given task.",
  "every normalised task, any number of objects, schemas, parameters and effects, any states and plans, any names", "Quantifies over all tasks, all instances of schemas and all plans.",
  ["src/translate/instantiate.py:explore", "src/translate/instantiate.py:instantiate", "src/translate/instantiate.py:get_fluent_facts", "src/translate/normalize.py:build_exploration_rules", "src/translate/normalize.py:condition_to_rule_body", "src/translate/pddl/actions.py:instantiate", "src/translate/pddl/effects.py:instantiate", "src/translate/pddl/conditions.py:instantiate", "src/translate/pddl/axioms.py:instantiate"])

p("C78", "Normalisation of a PDDL task keeps its plans",
  "For every PDDL task with arbitrary conditions (conjunctions, disjunctions, quantifiers, negation, in negation normal form), derived predicates, conditional and universal effects and action costs, the normalisation (universal conditions become new derived predicates, a complicated goal becomes a derived predicate, conditions are brought to disjunctive normal form and split, existential variables become parameters) ends without a failed assertion. It reports an error exactly if a derived predicate is true initially or changed by an action. Otherwise the result has the form that exploration and instantiation need, and it has exactly the same plans with the same names and costs, if the axioms are stratifiable where atoms below a universal quantifier count like negated ones and if quantifiers over types without objects are not trivial. Together with the later steps, the plans of the finite-domain task are those of the PDDL task.",
  "every task of this kind, any nesting of conditions, any number of objects, schemas and parameters, any states and plans", "Quantifies over all formulas, tasks and plans.",
  ["src/translate/normalize.py:normalize", "src/translate/normalize.py:remove_universal_quantifiers", "src/translate/normalize.py:substitute_complicated_goal", "src/translate/normalize.py:build_DNF", "src/translate/normalize.py:split_disjunctions", "src/translate/normalize.py:move_existential_quantifiers", "src/translate/normalize.py:eliminate_existential_quantifiers_from_axioms", "src/translate/normalize.py:eliminate_existential_quantifiers_from_preconditions", "src/translate/normalize.py:eliminate_existential_quantifiers_from_conditional_effects", "src/translate/normalize.py:verify_axiom_predicates", "src/translate/pddl/conditions.py:simplified", "src/translate/pddl/conditions.py:negate"])

p("C79", "Parsed conditions and renamed variables mean the same as the PDDL formulas",
  "For every PDDL formula (and, or, not, imply, forall, exists, any nesting) the parser returns a condition in negation normal form that is true in exactly the states and for exactly the values of free variables in which the formula is, and whose quantified variables have pairwise different names, if the parameters of each quantifier are different and have objects of their types and no free variable is called like a quantified variable followed by a number. For every task whose actions, axioms, effects and quantifiers each have different parameters, but may use names again elsewhere, renaming of variables always finds new names, gives a task in which the variables of each action, axiom and of the goal have different names, and keeps all plans with the names and costs of actions, so that normalisation (C78) applies to the result.",
  "every formula, every task of this kind, any nesting and shadowing of variables, any states, values and plans", "Quantifies over all formulas, tasks and plans; capture of variables needs names that tests do not contain.",
  ["src/translate/pddl_parser/parsing_functions.py:parse_condition", "src/translate/pddl_parser/parsing_functions.py:parse_condition_aux", "src/translate/pddl/conditions.py:uniquify_variables", "src/translate/pddl/conditions.py:rename_variables", "src/translate/pddl/effects.py:uniquify_variables", "src/translate/pddl/actions.py:uniquify_variables", "src/translate/pddl/axioms.py:uniquify_variables", "src/translate/pddl/pddl_types.py:uniquify_name"])

p("C80", "Invariants that are found are true in all reachable states",
  "For every normalised PDDL task the synthesis of invariants ends without an error. For each group of atoms that it returns, exactly one atom is true in the initial state and at most one atom is true in every reachable state, whatever the order in which actions are checked and wherever the limits for time and candidates stop the search. This holds if variables of delete effects range over all objects, no delete effect has a condition that is simply false, and no action adds an atom again that it deletes while it adds another atom of the same invariant; without each of these conditions there are tasks with wrong groups.",
  "every normalised task of this kind, any number of predicates, parameters, actions and effects, any order of checks, any limits, every reachable state", "Quantifies over all tasks and all reachable states; the check solves systems of equalities and inequalities that stand for all instances of an action.",
  ["src/translate/invariant_finder.py:get_groups", "src/translate/invariant_finder.py:find_invariants", "src/translate/invariant_finder.py:get_initial_invariants", "src/translate/invariant_finder.py:useful_groups", "src/translate/invariant_finder.py:BalanceChecker", "src/translate/invariants.py:check_balance", "src/translate/invariants.py:_operator_too_heavy", "src/translate/invariants.py:_operator_unbalanced", "src/translate/invariants.py:_refine_candidate", "src/translate/invariants.py:possible_mappings", "src/translate/constraints.py:ConstraintSystem", "src/translate/constraints.py:EqualityConjunction"])
p("C81", "The translation of PDDL tasks to finite-domain tasks keeps their plans",
  "For every PDDL task that meets the conditions of the single steps (C78, C79, C80), all steps from renaming of variables over normalisation, exploration, instantiation, synthesis of invariants, treatment of axioms and choice of groups to the finite-domain task end without an error. If the goal turns out to be unreachable, the PDDL task has no plan. Otherwise every plan of the finite-domain task is a plan of the PDDL task with the same names and costs of actions, and every plan of the PDDL task is one of the finite-domain task after leaving out actions that can be left out; with the option to keep actions without effects, it is the same plan.",
  "all PDDL tasks, options, orders of actions in the checks of invariants, limits of candidates and time, orders of sets", "Quantifies over all tasks and all plans; tests compare single tasks.",
  ["src/translate/main.py:pddl_to_sas", "src/translate/normalize.py:normalize", "src/translate/instantiate.py:explore", "src/translate/fact_groups.py:compute_groups", "src/translate/invariant_finder.py:get_groups", "src/translate/axiom_rules.py:handle_axioms"])
p("C82", "The search component solves the PDDL task that was given to the translator",
  "For every PDDL task that meets the conditions of C81, with names that can be written in lines and numbers that fit into the types of the search component: the translator writes a file that the search component reads without an error. Every plan of the task that is read is a plan of the PDDL task with the same names and costs of actions, and every plan of the PDDL task is one of the task that is read after leaving out actions that can be left out. If the translator finds that the task cannot be solved or is solved by the empty plan, this is the case.",
  "all PDDL tasks, options (without added implied preconditions and without keeping actions that have no effects), orders of actions in the checks of invariants, limits of candidates and time, orders of sets", "Quantifies over all tasks and all plans, through two programs and a file; tests compare single tasks.",
  ["src/translate/main.py:main", "src/translate/sas_tasks.py:SASTask.output", "src/translate/simplify.py:filter_unreachable_propositions", "src/translate/variable_order.py:find_and_apply_variable_order", "src/search/tasks/root_task.cc:read_root_task"])
p("C83", "The operator-counting heuristic with delete-relaxation constraints is admissible and can compute h^+",
  "For every task without axioms in which no operator has two effects with the same fact, the operator-counting heuristic with the delete-relaxation constraints by Imai and Fukunaga, whatever has been evaluated before and whatever the options are, returns the minimal cost of operator counts that satisfy the constraints for this state, rounded up, and DEAD_END only if there are none. The value is never negative, 0 for goal states, at most h^+, and so at most the cost of every plan. With variables for time steps and integer auxiliary variables, on tasks without conditional effects, it is exactly h^+, it is DEAD_END exactly if there is no relaxed plan, and it is consistent. Without variables for time steps it is consistent up to the rounding of the errors of the solver. A* with it finds optimal plans.",
  "every supported task, all options, every sequence of evaluated states, every solver that meets its contract up to an error less than 0.01", "Quantifies over all tasks, states and histories of evaluations; h^+ is NP-hard to compute, and tests compare single values.",
  ["src/search/operator_counting/delete_relaxation_if_constraints.cc:create_auxiliary_variables", "src/search/operator_counting/delete_relaxation_if_constraints.cc:create_constraints", "src/search/operator_counting/delete_relaxation_if_constraints.cc:update_constraints", "src/search/operator_counting/operator_counting_heuristic.cc:compute_heuristic"])
p("C84", "The operator-counting heuristic with delete-relaxation constraints based on vertex elimination is admissible and can compute h^+",
  "For every task without axioms in which no operator has two effects with the same fact, the operator-counting heuristic with the delete-relaxation constraints by Rankooh and Rintanen can be constructed (unless integer variables are used with SoPlex, or vertex elimination is used and an operator has an effect that is one of its preconditions; in the latter case the construction always ends with an exception). With any options the value of a state does not depend on the states that were evaluated before, is never negative, 0 for goal states, at most h^+, and so at most the cost of every plan; A* with it finds optimal plans. With vertex elimination (with any tie-breaking of the elimination order) or time labels and integer auxiliary variables, on tasks without conditional effects and without effects that are preconditions, the value is exactly h^+, it is DEAD_END exactly if there is no relaxed plan, and it is consistent. With time labels or without exclusion of cycles the value is the minimal cost of operator counts that satisfy the constraints of the paper for this state (less 0.01, rounded up); without exclusion of cycles it is consistent up to the rounding of solver errors, for all choices of integer variables.",
  "every supported task, all options, all tie-breakings of the priority queue, every sequence of evaluated states, every solver that meets its contract up to an error less than 0.01", "Quantifies over all tasks, states and histories of evaluations; whether the eliminated graph excludes all cycles is a statement about all graphs, and tests compare single values.",
  ["src/search/operator_counting/delete_relaxation_rr_constraints.cc:VEGraph", "src/search/operator_counting/delete_relaxation_rr_constraints.cc:create_auxiliary_variables", "src/search/operator_counting/delete_relaxation_rr_constraints.cc:create_constraints", "src/search/operator_counting/delete_relaxation_rr_constraints.cc:update_constraints", "src/search/operator_counting/operator_counting_heuristic.cc:compute_heuristic"])
p("C85", "Per-task information belongs to the task, not to its address",
  "For every history of creating and destroying tasks and objects for per-task information (PerTaskInformation) and reading and writing entries, in any order and with any reuse of addresses, in which only living objects are used: no assertion fails and no destroyed object is accessed, also if tasks and information objects are destroyed in any order; the entry for a task is constructed exactly at the first access after both objects were created and afterwards is the value that was written last, never a value of an earlier task at the same address; and the entries of a task are destroyed together with the task.",
  "all histories, all addresses, all orders in which hash sets are iterated", "Stale entries and dangling pointers only show with particular orders of destruction and reuse of addresses; the property quantifies over all of them.",
  ["src/search/per_task_information.h:operator[]", "src/search/per_task_information.h:notify_service_destroyed", "src/search/algorithms/subscriber.h:Subscriber", "src/search/algorithms/subscriber.h:SubscriberService"])
p("C86", "PDDL files are read as the nested lists that they contain",
  "For every file: the reader of the translator for PDDL files returns a nested list exactly if the file (in ASCII up to comments, which start with a semicolon and may contain any character) consists of the words and parentheses of this list, with words in lower case, separated by white space, parentheses or the question marks of variables; there is at most one such list. Every nested list of words in lower case that is written to a file is read again, with any comments. All other files are reported as parse errors, except for files without any word or parenthesis: for them an exception is raised that is not caught.",
  "all files, all nested lists, any depth", "There are infinitely many files; unit tests look at a few of them and at few errors.",
  ["src/translate/pddl_parser/lisp_parser.py:parse_nested_list", "src/translate/pddl_parser/lisp_parser.py:tokenize", "src/translate/pddl_parser/lisp_parser.py:parse_list_aux"])
p("C87", "The supertypes of a PDDL type are exactly its ancestors",
  "For every list of types with or without base types, in any order and also with cycles, the translator stores as supertypes of a type exactly the types that are reached by one or more steps to the base type, each of them once; the computation of the transitive closure terminates for every relation and returns exactly the pairs that are connected by a path of at least one edge, sorted and without repetitions.",
  "all lists of types, all finite relations", "Quantifies over all relations, including cyclic ones and those in which descendants are declared first.",
  ["src/translate/graph.py:transitive_closure", "src/translate/pddl_parser/parsing_functions.py:set_supertypes"])
p("C88", "The parsed effects of an action mean the same as its nested PDDL effect",
  "For every nested effect of an action (conjunctions, universal and conditional effects at any depth, add, delete and cost effects) that the translator accepts and in which no variable of a condition is bound again within the effect of this condition, provided that simplifying the conditions keeps their meaning (C78): the list of parsed effects has the same meaning, that is, in every state and for all values of the parameters of the action, the same atoms are true afterwards, also if an effect occurs both as an add and as a delete effect. All effects in which no condition is above both a quantifier and a conjunction, and with effects on the costs only in the outer conjunctions, are accepted. The condition on variables is needed, and some valid effects are not accepted: an assertion fails for a universal effect in a conjunction below a condition and for an action whose only effect is on the costs.",
  "all nested effects of any depth, all states, all values of parameters", "Quantifies over all nested effects and all states; tests look at single effects.",
  ["src/translate/pddl/effects.py:normalize", "src/translate/pddl/effects.py:extract_cost", "src/translate/pddl_parser/parsing_functions.py:add_effect", "src/translate/pddl_parser/parsing_functions.py:parse_effects"])
p("C89", "Typed lists of PDDL files are read as the groups of names and types that they contain",
  "For every nested list that is read as a typed list (of types, objects, constants, parameters, arguments of predicates): the translator returns names with types exactly if the list consists of groups of names, a separator and a type, and a last group that may have no type, where names are words (starting with a question mark if only variables are allowed) and types are words or, where allowed, lists that start with the word either; the result contains every name once for each occurrence, in the order of the list, with the type of its group or the default type. There is at most one such result. All other lists are reported as errors, except that a list in the place of a variable can lead to an exception that is not caught.",
  "all nested lists, all options, all default types", "Quantifies over all lists; tests look at few of them and at few errors.",
  ["src/translate/pddl_parser/parsing_functions.py:parse_typed_list", "src/translate/pddl_parser/parsing_functions.py:construct_typed_object", "src/translate/pddl_parser/parsing_functions.py:construct_type"])
