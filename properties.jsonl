{"id": "C01", "title": "Packed integers: reading back what was written, without interference", "statement": "For an integer packer built from any list of variable ranges (each at least 1 and representable as a non-negative int), setting a variable of a packed buffer to a legal value and then getting it returns that value, and getting any other variable returns what it returned before the set. No access is outside the buffer of the advertised number of bins.", "quantifier": "every list of ranges, every buffer content, every pair of variables, every legal value", "why_tests_cant": "The bin-packing layout depends on the whole multiset of ranges; tests only sample a few layouts and overlap of two bit fields shows only for particular combinations.", "anchors": ["src/search/algorithms/int_packer.cc:IntPacker::pack_bins,pack_one_bin,get,set"]}
{"id": "C02", "title": "Packed states are canonical", "statement": "Two packed buffers that were filled from an all-zero buffer by setting every variable (in any order, any number of times) are bitwise equal if and only if all variables have equal values; hence comparing and hashing raw bins decides state equality.", "quantifier": "every list of ranges, all pairs of variable assignments, every order of set operations", "why_tests_cant": "Garbage in unused bits would break duplicate detection only for particular layouts.", "anchors": ["src/search/algorithms/int_packer.cc", "src/search/state_registry.h:StateIDSemanticEqual", "src/search/state_registry.cc:StateRegistry::get_initial_state"]}
{"id": "C03", "title": "The integer hash set is a set", "statement": "After any sequence of insertions, inserting key k returns (k', false) where k' is the already stored key equal to k if there is one, and otherwise (k, true) and k is stored from then on; the reported size is the number of distinct classes inserted. This holds for every hash function compatible with equality, through any number of displacements and resizes.", "quantifier": "every insertion sequence, every hash function and every equivalence compatible with it", "why_tests_cant": "Hopscotch displacement chains and nested resizes are triggered only by rare collision patterns.", "anchors": ["src/search/algorithms/int_hash_set.h:IntHashSet::insert,rehash,enlarge,find_equal_key"]}
{"id": "C04", "title": "Segmented vectors behave like vectors and never move elements", "statement": "For any sequence of push_back, pop_back, resize and writes, indexing a segmented (array) vector gives exactly what a plain vector would give, no access leaves allocated memory, and the address of a live element never changes while it is live.", "quantifier": "every operation history, every element size and array length (at least 1)", "why_tests_cant": "Segment boundaries depend on element sizes; address stability is a property of all future operations.", "anchors": ["src/search/algorithms/segmented_vector.h"]}
{"id": "C05", "title": "State registry: IDs and states are in bijection for ever", "statement": "After any history of initial-state and successor requests on a registry, distinct IDs denote distinct states, requesting a state already registered returns its old ID, a new state gets the next consecutive ID, the size is the number of distinct states requested, and looking up an ID always returns the values it was registered with.", "quantifier": "every task, every history of successor requests", "why_tests_cant": "Interaction of packing, in-place modification of the newest pool entry, duplicate removal and hash-set resizing over unbounded histories.", "anchors": ["src/search/state_registry.cc:insert_id_or_pop_state,get_initial_state,get_successor_state,lookup_state"]}
{"id": "C06", "title": "Successor states follow the planning semantics", "statement": "The state returned for a predecessor and an operator gives every variable the value of the (last) effect on it whose conditions hold in the predecessor, every other variable its old value, and every derived variable the value given by the axioms; effect conditions are evaluated in the predecessor, never in the partially updated state. The registered and the unregistered successor functions agree.", "quantifier": "every task with conditional effects and axioms, every state, every operator", "why_tests_cant": "The packed implementation updates a copy in place; order dependencies would only show on particular conditional effects.", "anchors": ["src/search/state_registry.cc:get_successor_state", "src/search/task_proxy.cc:State::get_unregistered_successor", "src/search/task_proxy.h:does_fire"]}
{"id": "C07", "title": "Per-state information is a default map keyed by (registry, state)", "statement": "For any interleaving of reads, writes, growth of registries and destruction of registries, a per-state information object returns for a state the last value written for that state in that registry, and the default value if none was written; data of a destroyed registry never becomes visible again, and no dangling cached pointer is used.", "quantifier": "every interleaving of accesses, registry growth, registry creation (also at a reused address) and destruction", "why_tests_cant": "The one-entry cache and lazy resizing give the wrong answer only for particular interleavings.", "anchors": ["src/search/per_state_information.h", "src/search/per_state_array.h", "src/search/algorithms/subscriber.h"]}
{"id": "C08", "title": "Bitsets are finite sets of positions", "statement": "For any history of set/reset/set-all/reset-all/intersect operations, testing a position returns whether it is in the mathematical set, count is its cardinality, and subset and intersection tests agree with set theory, for every number of bits, including sizes that are not a multiple of the block size.", "quantifier": "every number of bits, every operation history", "why_tests_cant": "Unused bits of the last block matter only for certain sizes and operation orders.", "anchors": ["src/search/algorithms/dynamic_bitset.h", "src/search/per_state_bitset.cc"]}
{"id": "C09", "title": "Axiom evaluation computes the stratified semantics", "statement": "For every task whose axioms are stratified by layers, evaluating the axioms on a state leaves non-derived variables unchanged and gives every derived variable its value in the layer-by-layer least fixpoint with negation by failure; the result does not depend on the previous values of the derived variables, and evaluation is idempotent and terminates.", "quantifier": "every stratified axiom set, every state, including axioms with no or repeated conditions", "why_tests_cant": "Counter-based propagation with a work queue is correct only through an invariant over the whole run.", "anchors": ["src/search/axioms.cc:AxiomEvaluator::evaluate"]}
{"id": "C10", "title": "The successor generator returns exactly the applicable operators", "statement": "For every task and state, the generated list contains each operator whose preconditions all hold exactly once and nothing else.", "quantifier": "every operator set, every state", "why_tests_cant": "The decision tree's shape depends on the sort order of all preconditions.", "anchors": ["src/search/task_utils/successor_generator_factory.cc", "src/search/task_utils/successor_generator_internals.cc"]}
{"id": "C11", "title": "Equivalence relation refinement", "statement": "For a nonempty set of elements and refining lists without duplicates, after any sequence of refinements two elements are in the same block iff they were never separated by a refining set; blocks are nonempty, disjoint and cover all elements.", "quantifier": "every nonempty element set and every sequence of duplicate-free refining lists", "why_tests_cant": "Iterator bookkeeping across histories.", "anchors": ["src/search/algorithms/equivalence_relation.cc"]}
{"id": "C12", "title": "Maximal cliques are exactly enumerated", "statement": "For every undirected loop-free graph with sorted adjacency lists, the computed list contains exactly the maximal cliques, each exactly once.", "quantifier": "every graph", "why_tests_cant": "The pivoting rule may skip a clique only for particular graphs.", "anchors": ["src/search/algorithms/max_cliques.cc"]}
{"id": "C13", "title": "Strongly connected components", "statement": "For every directed graph the result is a partition of the vertices into the maximal strongly connected components, listed so that there is no edge from a later component to an earlier one. This holds for the implementation of the search component and for the one of the translator, which gives the same result.", "quantifier": "every directed graph", "why_tests_cant": "Low-link bookkeeping errors need particular graphs.", "anchors": ["src/search/algorithms/sccs.cc", "src/translate/sccs.py:get_sccs_adjacency_list"]}
{"id": "C14", "title": "Adaptive priority queue", "statement": "For any sequence of pushes and pops with non-negative keys, every pop returns an entry with minimal key among those present, no entry is lost or duplicated, and switching the representation from buckets to a heap is unobservable except for the order among equal keys.", "quantifier": "every push/pop/clear history", "why_tests_cant": "The switch happens at a history-dependent point.", "anchors": ["src/search/algorithms/priority_queues.h"]}
{"id": "C15", "title": "Ordered set", "statement": "An ordered set contains each inserted item once, in order of first insertion, and membership agrees with the sequence, for any history of inserts, clears and pops.", "quantifier": "every history", "why_tests_cant": "Two synchronised containers over all histories.", "anchors": ["src/search/algorithms/ordered_set.h"]}
{"id": "C16", "title": "Best-first and tie-breaking open lists", "statement": "remove_min returns an entry whose key (the evaluator value, or the lexicographic vector of evaluator values) is minimal among all entries present and which was inserted first among those with this key; nothing inserted is lost or duplicated; empty() is true iff nothing is stored.", "quantifier": "every history of insertions, removals and clears", "why_tests_cant": "Order properties over unbounded histories.", "anchors": ["src/search/open_lists/best_first_open_list.cc", "src/search/open_lists/tiebreaking_open_list.cc"]}
{"id": "C17", "title": "Alternation open list: fairness", "statement": "The alternation open list removes from a non-empty sublist with the smallest usage priority; without boosts, while all sublists stay non-empty, the numbers of removals from any two sublists differ by at most one.", "quantifier": "every number of sublists and every history", "why_tests_cant": "Fairness is a property of all histories.", "anchors": ["src/search/open_lists/alternation_open_list.cc"]}
{"id": "C18", "title": "Pareto open list", "statement": "The pareto open list returns, for every random choice, the oldest entry of a bucket whose key is not dominated by any stored key; it is empty iff nothing is stored; and (as documented) with state_uniform_selection=true a bucket is selected with weight equal to its number of entries.", "quantifier": "every history and random choice", "why_tests_cant": "Incremental maintenance of the Pareto front.", "anchors": ["src/search/open_lists/pareto_open_list.cc"]}
{"id": "C19", "title": "Randomised open lists lose nothing", "statement": "For every sequence of random numbers, the epsilon-greedy and type-based open lists return each inserted entry exactly once over time and report empty exactly when everything was returned; with epsilon 0 the epsilon-greedy list returns a minimal entry, oldest first.", "quantifier": "every history and every random stream", "why_tests_cant": "Random streams cannot be enumerated.", "anchors": ["src/search/open_lists/epsilon_greedy_open_list.cc", "src/search/open_lists/type_based_open_list.cc"]}
{"id": "C20", "title": "Dead-end decisions of open lists", "statement": "If an open list built from evaluators whose dead ends are all reliable declares a dead end, then some evaluator is infinite, hence the state is unsolvable; is_reliable_dead_end never trusts an unreliable evaluator; an entry which is not a dead end (and preferred if required) is always inserted.", "quantifier": "every nesting of open lists and every evaluator outcome", "why_tests_cant": "Compositional property over all nestings.", "anchors": ["src/search/open_list.h:OpenList::insert", "src/search/open_lists/*"]}
{"id": "C21", "title": "Plans found by eager search are valid", "statement": "Whatever the evaluators, open list, pruning method, bound and cost type, if eager search reports a solution then the reported operator sequence is applicable in the initial state and leads to a goal state.", "quantifier": "every task, every evaluator, every open list policy, every pruning method, with and without reopening", "why_tests_cant": "Parent pointers are rewritten during search; a wrong or cyclic chain needs a particular history.", "anchors": ["src/search/search_algorithms/eager_search.cc", "src/search/search_space.cc:SearchSpace::trace_path"]}
{"id": "C22", "title": "Eager search is complete", "statement": "If eager search without bound and pruning, with evaluators whose dead ends are real, reports failure, then no plan exists; and without a lazy evaluator (whose estimates may change forever) it always terminates with solved or failed.", "quantifier": "every task, every evaluator and open list policy", "why_tests_cant": "Quantifies over all expansion orders.", "anchors": ["src/search/search_algorithms/eager_search.cc"]}
{"id": "C23", "title": "A* returns optimal plans", "statement": "Eager search with the f = g + h tie-breaking open list, reopening and an admissible (possibly inconsistent) heuristic returns a plan of minimal cost.", "quantifier": "every task (non-negative costs, zero allowed), every admissible heuristic", "why_tests_cant": "Optimality quantifies over all plans.", "anchors": ["src/search/search_algorithms/eager_search.cc", "src/search/search_algorithms/search_common.cc:create_astar_open_list_factory_and_f_eval"]}
{"id": "C24", "title": "Cost bounds are respected", "statement": "Every plan reported by a search with bound b has real cost below b.", "quantifier": "every task, bound, cost type and search option", "why_tests_cant": "Bound checks use stored g-values that may become stale.", "anchors": ["src/search/search_algorithms/eager_search.cc", "src/search/search_algorithms/lazy_search.cc", "src/search/search_algorithms/enforced_hill_climbing_search.cc"]}
{"id": "C25", "title": "Lazy search: soundness and completeness", "statement": "Plans reported by lazy search are valid; if it reports failure without bound and with safe dead-end detection, no plan exists.", "quantifier": "every task, evaluator, open list policy, successor ordering", "why_tests_cant": "All expansion orders.", "anchors": ["src/search/search_algorithms/lazy_search.cc"]}
{"id": "C26", "title": "Enforced hill climbing: soundness", "statement": "Plans reported by enforced hill climbing are valid plans.", "quantifier": "every task, evaluator and preferred-operator usage", "why_tests_cant": "All histories of phases.", "anchors": ["src/search/search_algorithms/enforced_hill_climbing_search.cc"]}
{"id": "C27", "title": "Iterated search improves monotonically", "statement": "The plans saved by iterated search have strictly decreasing cost, all below the initial bound, and the final plan is the cheapest one found; with pass_bound every phase is run with a bound not above the best cost so far.", "quantifier": "every sequence of component searches and outcomes, all option combinations", "why_tests_cant": "All phase histories.", "anchors": ["src/search/search_algorithms/iterated_search.cc"]}
{"id": "C28", "title": "Weighted A* suboptimality bound", "statement": "Eager weighted A* with weight w >= 1, reopening and an admissible heuristic returns a plan of cost at most w times optimal.", "quantifier": "every task, weight and admissible heuristic", "why_tests_cant": "Quantifies over all plans.", "anchors": ["src/search/search_algorithms/plugin_eager_wastar.cc", "src/search/search_algorithms/search_common.cc:create_wastar_open_list_factory"]}
{"id": "C29", "title": "Heuristic and evaluation caching is transparent", "statement": "For a heuristic whose value is a function of the state, evaluating through the per-evaluation cache and the per-state cache returns the same value as computing it afresh, in any history; each evaluator is computed at most once per evaluation context; dead ends are reported as infinity with no preferred operators.", "quantifier": "every history of evaluations", "why_tests_cant": "Stale cache entries need particular histories.", "anchors": ["src/search/heuristic.cc:Heuristic::compute_result", "src/search/evaluation_context.cc:get_result"]}
{"id": "C30", "title": "Combining evaluators", "statement": "Sum, max and weighted evaluators are infinite iff (one of) their inputs are infinite, and otherwise compute the sum, maximum and product; hence max (and sum under cost partitioning) of admissible estimates is admissible.", "quantifier": "every number of sub-evaluators and values without int overflow", "why_tests_cant": "Infinity handling for all combinations.", "anchors": ["src/search/evaluators/*.cc"]}
{"id": "C31", "title": "h^max is correct and admissible", "statement": "The computed h^max value equals the least solution of the h^max equations, is infinite iff the goal is relaxed-unreachable, and never exceeds the optimal cost of the task (or of the given state).", "quantifier": "every task, every state, every cost function", "why_tests_cant": "Fixpoint and admissibility quantify over all plans.", "anchors": ["src/search/heuristics/max_heuristic.cc", "src/search/heuristics/relaxation_heuristic.cc"]}
{"id": "C32", "title": "Additive and FF heuristics: relaxed plans", "statement": "h^add is infinite iff the goal is unreachable in the delete relaxation; the operators marked by the FF heuristic form a relaxed plan and the returned value is its cost; preferred operators are applicable.", "quantifier": "every task and state", "why_tests_cant": "Backchaining through best supporters over all tasks.", "anchors": ["src/search/heuristics/additive_heuristic.cc", "src/search/heuristics/ff_heuristic.cc"]}
{"id": "C33", "title": "LM-cut is admissible", "statement": "The LM-cut value never exceeds the optimal delete-relaxation cost, every cut reported is a disjunctive action landmark, and cost is reduced by the cut's minimum each round until h^max is zero.", "quantifier": "every task, state and cost function", "why_tests_cant": "Quantifies over all relaxed plans.", "anchors": ["src/search/heuristics/lm_cut_landmarks.h", "src/search/heuristics/lm_cut_landmarks.cc"]}
{"id": "C34", "title": "PDB state ranking is a bijection", "statement": "Ranking abstract states by hash multipliers is a bijection between assignments to the pattern variables and 0..size-1, unranking inverts it, and size overflow is detected.", "quantifier": "every pattern and domain sizes", "why_tests_cant": "Mixed-radix arithmetic for all patterns.", "anchors": ["src/search/pdbs/pattern_database.cc", "src/search/pdbs/pattern_database_factory.cc"]}
{"id": "C35", "title": "Pattern databases store perfect abstract goal distances", "statement": "Every entry equals the minimal cost of reaching an abstract goal state in the projection of the task to the pattern (infinite iff unreachable); the resulting heuristic is goal-aware, consistent and admissible.", "quantifier": "every task without axioms and conditional effects (operators as written by the translator: no variable twice in the precondition or the effects, common variables in the same order; distances that fit into an int), every pattern, every operator cost function", "why_tests_cant": "Quantifies over all abstract plans.", "anchors": ["src/search/pdbs/pattern_database_factory.cc", "src/search/pdbs/abstract_operator.cc", "src/search/pdbs/match_tree.cc"]}
{"id": "C36", "title": "Canonical PDB heuristic is admissible", "statement": "The maximum over maximal additive subsets of the sum of PDB values never exceeds the optimal cost; dominance pruning does not change the value.", "quantifier": "every pattern collection", "why_tests_cant": "Quantifies over all plans and collections.", "anchors": ["src/search/pdbs/canonical_pdbs.cc", "src/search/pdbs/pattern_cliques.cc", "src/search/pdbs/dominance_pruning.cc"]}
{"id": "C37", "title": "Zero-one cost partitioning PDBs are admissible", "statement": "The sum of PDB values computed under zero-one cost partitioning never exceeds the optimal cost.", "quantifier": "every sequence of patterns", "why_tests_cant": "Quantifies over all plans.", "anchors": ["src/search/pdbs/zero_one_pdbs.cc"]}
{"id": "C38", "title": "Merge-and-shrink factors stay abstractions", "statement": "Through any sequence of merges, shrinks, label reductions and prunings, the factor remains an abstraction of the task: abstract distances never exceed real ones, so the heuristic is admissible.", "quantifier": "every task and every sequence of transformations", "why_tests_cant": "All transformation sequences.", "anchors": ["src/search/merge_and_shrink/factored_transition_system.cc", "src/search/merge_and_shrink/transition_system.cc", "src/search/merge_and_shrink/merge_and_shrink_representation.cc"]}
{"id": "C39", "title": "Merge-and-shrink distances are exact", "statement": "Init and goal distances computed for a factor are the exact shortest path costs (unit-cost and general-cost algorithms), infinite iff unreachable.", "quantifier": "every labelled transition system", "why_tests_cant": "Quantifies over all paths.", "anchors": ["src/search/merge_and_shrink/distances.cc"]}
{"id": "C40", "title": "Cartesian refinement keeps a partition and an abstraction", "statement": "After any sequence of splits the abstract states are disjoint Cartesian sets covering all states, looking up a concrete state in the refinement hierarchy returns the one abstract state containing it, and the transitions are exactly those induced by the concrete operators; goal distances are admissible.", "quantifier": "every task and every sequence of splits", "why_tests_cant": "All refinement histories.", "anchors": ["src/search/cartesian_abstractions/transition_system.cc", "src/search/cartesian_abstractions/refinement_hierarchy.cc", "src/search/cartesian_abstractions/abstraction.cc"]}
{"id": "C41", "title": "Saturated cost partitioning is admissible", "statement": "The sum of the Cartesian heuristics under saturated cost partitioning never exceeds the optimal cost.", "quantifier": "every sequence of subtasks and abstractions", "why_tests_cant": "Quantifies over all plans.", "anchors": ["src/search/cartesian_abstractions/cost_saturation.cc"]}
{"id": "C42", "title": "Landmark tracking and landmark heuristics are sound along all paths", "statement": "If the given landmarks and orderings hold for all plans, then after any sequence of reported transitions (with any of the progression options) the tracking is defined; a landmark is marked as not past in a state iff a path on which it never holds was reported to that state; a landmark reported as future has to become true on every plan from the state; and a landmark that did not become true on some reported path is reported as future. A cycle of non-reasonable orderings is found iff there is one, and then there is no plan. If the achiever sets are complete, uniform cost partitioning (with and without action landmarks, also with rounding errors up to 1/100) and optimal cost partitioning are defined and admissible in all reachable states, and optimal dominates uniform; the landmark sum only reports dead ends for states without plans; preferred operators are exactly the operators that achieve an atom of a future landmark.", "quantifier": "every task, every valid landmark graph, every sequence of reported transitions in every order, every reachable state, every plan", "why_tests_cant": "Path-dependent information accumulates over all histories.", "anchors": ["src/search/landmarks/landmark_status_manager.cc", "src/search/landmarks/landmark_cost_partitioning_algorithms.cc", "src/search/landmarks/landmark_cost_partitioning_heuristic.cc", "src/search/landmarks/landmark_sum_heuristic.cc", "src/search/landmarks/landmark_heuristic.cc"]}
{"id": "C43", "title": "Stubborn-set pruning preserves optimal plans", "statement": "In every non-goal state, each pruning method (simple, EC and atom-centric stubborn sets with all options, limited pruning, no pruning) is defined, keeps only operators it was given, and for every plan from the state keeps the first operator of some reordering of that plan which is again a plan; hence A* with an admissible heuristic and any of them stays complete and optimal. Limited pruning switches off for good, depending only on the pruning ratio of the first calls.", "quantifier": "every task without axioms and conditional effects whose operators have one precondition and effect per variable, every state, every plan", "why_tests_cant": "Quantifies over all plans and permutations.", "anchors": ["src/search/pruning/stubborn_sets.cc", "src/search/pruning/stubborn_sets_action_centric.cc", "src/search/pruning/stubborn_sets_simple.cc", "src/search/pruning/stubborn_sets_ec.cc", "src/search/pruning/stubborn_sets_atom_centric.cc", "src/search/pruning/limited_pruning.cc", "src/search/pruning_method.cc"]}
{"id": "C44", "title": "Operator cost adaptation", "statement": "normal/one/plusone cost types give cost, 1, and cost+1 (or 1 for unit-cost tasks); a cost-adapted task has the same plans as the original one.", "quantifier": "every task and cost type", "why_tests_cant": "All tasks.", "anchors": ["src/search/operator_cost.cc", "src/search/tasks/cost_adapted_task.cc"]}
{"id": "C45", "title": "Domain abstraction preserves plans", "statement": "Every plan of the parent task, with the same operator indices, is a plan of the domain-abstracted task from the converted state.", "quantifier": "every task and every grouping of values", "why_tests_cant": "All tasks and plans.", "anchors": ["src/search/tasks/domain_abstracted_task.cc", "src/search/tasks/domain_abstracted_task_factory.cc"]}
{"id": "C46", "title": "Command line lexing and parsing", "statement": "The lexer either splits the whole input into tokens whose concatenation (with whitespace) is the input or reports an error at the first unrecognisable position; the parser terminates on every token sequence and accepts exactly the documented grammar.", "quantifier": "every input string", "why_tests_cant": "All inputs.", "anchors": ["src/search/parser/lexical_analyzer.cc", "src/search/parser/syntax_analyzer.cc"]}
{"id": "C47", "title": "Plan output", "statement": "The plan file consists of one line per operator in order followed by the cost comment with the exact sum of operator costs; the driver reads back this cost, and never takes a file that is not written to its end for a plan; numbered file names are never reused within a run.", "quantifier": "every plan and history of saves", "why_tests_cant": "All histories.", "anchors": ["src/search/plan_manager.cc"]}
{"id": "C48", "title": "h^m is admissible and generalises h^max", "statement": "For supported tasks the h^m heuristic returns exactly the critical-path value defined by regression over sets of at most m facts; it never exceeds the cost of a plan, is consistent, does not decrease with m, equals h^max for m = 1, and reports only unsolvable states as dead ends.", "quantifier": "every task, state and m", "why_tests_cant": "Quantifies over all plans.", "anchors": ["src/search/heuristics/hm_heuristic.cc"]}
{"id": "C49", "title": "Random walks sample reachable states, and all of them", "statement": "Whatever random numbers are drawn, choosing returns an element of the vector, and sampling a state never fails and returns a state at the end of a path from the initial state which visits no state recognised as dead end and has at most as many steps as trials (10 if the estimate is 0, else four times the estimate divided by the average operator cost, rounded); every such state can be sampled. As documented, a walk restarts from the initial state if a state has no successors.", "quantifier": "every task, estimate, dead-end detector and random stream", "why_tests_cant": "Quantifies over all random streams and tasks.", "anchors": ["src/search/utils/rng.h", "src/search/task_utils/sampling.cc:sample_state_with_random_walk", "src/search/task_utils/sampling.h:RandomWalkSampler"]}
{"id": "C50", "title": "Exit codes of portfolios", "statement": "The portfolio exit code computed from component exit codes reports a plan if some component found one, and never reports unsolvability or success without a component having done so.", "quantifier": "every multiset of component exit codes", "why_tests_cant": "All combinations.", "anchors": ["driver/returncodes.py:generate_portfolio_exitcode"]}
{"id": "C51", "title": "Every nesting of open lists is a bag", "statement": "For open lists nested to any depth (alternation over any mix of best-first, tie-breaking, pareto, epsilon-greedy and type-based lists, themselves possibly alternation lists), every history of insertions, removals, boosts and clears with any random numbers runs without error; every removal returns an entry which is stored; an inserted entry is stored as many times as there are leaf lists accepting it; nothing else is lost, created or duplicated; and empty() holds exactly when nothing is stored.", "quantifier": "every nesting of open lists, every history, every random stream, every evaluator outcome", "why_tests_cant": "The nesting depth and the history are unbounded; the interaction of sizes, buckets and priorities depends on both.", "anchors": ["src/search/open_lists/alternation_open_list.cc", "src/search/open_list.h:OpenList::insert", "src/search/open_lists/best_first_open_list.cc", "src/search/open_lists/tiebreaking_open_list.cc", "src/search/open_lists/pareto_open_list.cc", "src/search/open_lists/epsilon_greedy_open_list.cc", "src/search/open_lists/type_based_open_list.cc"]}
{"id": "C52", "title": "Enforced hill climbing with rank_preferred_first ranks, it does not prune", "statement": "As documented, with preferred_usage=rank_preferred_first enforced hill climbing inserts preferred successors first, then the non-preferred ones: in the breadth-first search of a phase every applicable operator of an expanded state within the bound is considered.", "quantifier": "every task, heuristic, preferred operators and state expanded", "why_tests_cant": "The effect depends on the interaction of an option value with the acceptance rule of an open list created by another component; it only shows on tasks in which the preferred operators are not enough to find a better state.", "anchors": ["src/search/search_algorithms/enforced_hill_climbing_search.cc", "src/search/open_lists/tiebreaking_open_list.cc", "src/search/open_list.h:OpenList::insert"]}
{"id": "C53", "title": "Given patterns are validated and normalised", "statement": "A pattern given by the user or a generator is rejected exactly if it names a variable which does not exist; otherwise the pattern used is sorted, has no duplicates and contains exactly the given variables.", "quantifier": "every list of integers and number of variables", "why_tests_cant": "All lists of integers.", "anchors": ["src/search/pdbs/validation.cc:validate_and_normalize_pattern"]}
{"id": "C57", "title": "Merge-and-shrink respects its size limits", "statement": "The size options are accepted exactly if each is unset or positive, and are then normalised so that neither the limit before merging nor the threshold exceeds the limit on the number of states. For non-empty factors the shrink targets are positive, do not exceed the sizes and the limit before merging, their product respects the limit, and nothing is shrunk below its size if the limits already hold. If the shrink strategy meets its targets, every factor built by merging has at most max_states states.", "quantifier": "all options, sizes, merge and shrink strategies, label reductions and numbers of iterations", "why_tests_cant": "The sizes depend on the history of merges; the arithmetic with products and square roots has corner cases for every combination of sizes and limits.", "anchors": ["src/search/merge_and_shrink/utils.cc:compute_shrink_sizes", "src/search/merge_and_shrink/utils.cc:shrink_before_merge_step", "src/search/merge_and_shrink/merge_and_shrink_algorithm.cc:handle_shrink_limit_defaults", "src/search/merge_and_shrink/merge_and_shrink_algorithm.cc:main_loop"]}
{"id": "C58", "title": "Tests on products are safe against overflow", "statement": "is_product_within_limit and is_product_within_limits never overflow or divide by zero for arguments that satisfy their documented requirements, and answer exactly whether the mathematical product respects the limits.", "quantifier": "all ints and limits that satisfy the documented requirements", "why_tests_cant": "The domain has more than 2^64 elements, and the interesting cases are at its borders.", "anchors": ["src/search/utils/math.cc:is_product_within_limit", "src/search/utils/math.cc:is_product_within_limits"]}
{"id": "C59", "title": "Anytime portfolios survive kills at any point", "statement": "If the planner runs of an anytime portfolio are killed at any point, even in the middle of writing a plan file, the driver never fails: it keeps exactly the plans whose files were written completely, with strictly decreasing costs below the bound of the user, deletes the incomplete file, numbers the plans consecutively and gives the cost of the best plan as bound to the next run.", "quantifier": "every number of runs, every plan found by each run, every point at which it is killed", "why_tests_cant": "Crash points can be anywhere in the output, and the state depends on the history of runs.", "anchors": ["driver/plan_manager.py:PlanManager.process_new_plans", "driver/plan_manager.py:_parse_plan", "driver/plan_manager.py:PlanManager.compute_next_portfolio_cost_bound", "src/search/plan_manager.cc:PlanManager::save_plan"]}
{"id": "C60", "title": "Counterexample-guided refinement of Cartesian abstractions", "statement": "The refinement never fails, whatever the limits and the selection of splits: if it stops with a plan, the plan is optimal; if it stops because the abstraction has no solution, there is no plan; without limits it stops with one of the two, and the heuristic value of the initial state is the cost of an optimal plan (or infinite).", "quantifier": "every task, every cost function, every limit, every sequence of selected splits", "why_tests_cant": "Quantifies over all plans and over all sequences of refinements.", "anchors": ["src/search/cartesian_abstractions/cegar.cc:CEGAR::refinement_loop", "src/search/cartesian_abstractions/abstract_search.cc:AbstractSearch::find_solution", "src/search/cartesian_abstractions/split_selector.cc:SplitSelector::pick_split"]}
{"id": "C61", "title": "Generated landmarks are landmarks", "statement": "The relaxed exploration reaches exactly the facts reachable in the delete relaxation without the excluded facts. The landmarks of the factory of Zhu and Givan, and of exhaustive search, are exactly the facts without which some goal cannot be reached in the delete relaxation, independently of the order in which hash sets are visited; orderings are true of all plans; the achievers contain every operator which makes the landmark true (for the first time) on some plan. Hence heuristics over these landmarks are admissible.", "quantifier": "every task (with conditional effects and, for the exact characterisation, axioms), every order of hash sets, every history of the search", "why_tests_cant": "Quantifies over all plans of all tasks; the fixed point of label propagation depends on the order of hash sets.", "anchors": ["src/search/landmarks/exploration.cc:Exploration::compute_relaxed_reachability", "src/search/landmarks/landmark_factory_zhu_givan.cc", "src/search/landmarks/landmark_factory_rpg_exhaust.cc", "src/search/landmarks/landmark_factory_relaxation.cc:LandmarkFactoryRelaxation::calc_achievers", "src/search/landmarks/landmark_graph.cc"]}
{"id": "C62", "title": "Merging landmark graphs keeps them true", "statement": "Merging the landmark graphs of several factories only yields landmarks of these graphs, no two of which share an atom; every given atomic landmark is kept, and an ordering between two landmarks is there exactly if one of the graphs orders landmarks they stand for, with the strongest type. If the given graphs only contain true statements about plans, so does the merged graph, and heuristics over it are admissible.", "quantifier": "every number of landmark graphs with atomic and disjunctive landmarks, every task", "why_tests_cant": "Quantifies over all plans and all combinations of graphs.", "anchors": ["src/search/landmarks/landmark_factory_merged.cc", "src/search/landmarks/landmark_factory.cc:LandmarkFactory::add_or_replace_ordering_if_stronger", "src/search/landmarks/landmark_graph.cc:LandmarkGraph::contains_superset_disjunctive_landmark"]}
{"id": "C63", "title": "Potential heuristics are consistent and optimal for their objective", "statement": "Whatever states are optimised for, in whatever sequence, the potential function obtained is goal-aware and consistent, so the heuristic is admissible and A* with it is optimal; the optimiser finds the function with the greatest sum of potentials of the samples (or average over all states) among all consistent goal-aware potential functions, and reports no solution only if there is no maximum. Diverse potential heuristics never exceed the number of functions or samples and, unless limited, attain for every sample the best possible value.", "quantifier": "every task without axioms and conditional effects, every sequence of optimisations, every list of samples, every exact LP solver, every order of hash maps", "why_tests_cant": "Quantifies over all states, transitions and plans, over all potential functions and all solutions an LP solver may return.", "anchors": ["src/search/potentials/potential_optimizer.cc:PotentialOptimizer", "src/search/potentials/potential_function.cc:PotentialFunction::get_value", "src/search/potentials/potential_heuristic.cc", "src/search/potentials/potential_max_heuristic.cc", "src/search/potentials/diverse_potential_heuristics.cc:DiversePotentialHeuristics"]}
{"id": "C64", "title": "Operator-counting heuristics are admissible and combine their constraints", "statement": "Whatever states have been evaluated before, the value of a state is the minimal cost (rounded up, with a correction of 0.01) of operator counts that satisfy exactly the constraints of this state: state equation, landmarks found by LM-cut, post-hoc optimisation constraints. Every plan satisfies all of them, so the value never exceeds the cost of a plan, dead ends have no plans and A* is optimal; the value is at least that of every pattern database, of the landmark cost sum and of h^max; without LM-cut it is consistent and does not depend on earlier evaluations.", "quantifier": "every task without axioms and conditional effects, every non-empty list of constraint generators, every sequence of evaluated states, every LP or MIP solver with an error below 0.01", "why_tests_cant": "Quantifies over all plans, all solutions of linear programs and all histories of temporary constraints.", "anchors": ["src/search/operator_counting/operator_counting_heuristic.cc:OperatorCountingHeuristic::compute_heuristic", "src/search/operator_counting/state_equation_constraints.cc", "src/search/operator_counting/lm_cut_constraints.cc", "src/search/operator_counting/pho_constraints.cc", "src/search/lp/soplex_solver_interface.cc", "src/search/lp/cplex_solver_interface.cc"]}
{"id": "C55", "title": "The search component reads what the translator writes and accepts only well-formed tasks", "statement": "For every file, the reader either reports an input error or accepts it and yields a task in which all facts exist, the axioms are stratified and set binary derived variables to non-default values, operators have effects and only on variables that are not derived, there is a goal without repeated variables, the mutex relation is symmetric, and the initial state is the one that follows from the axioms. For every valid task of the translator, reading the written file yields the intended task with its names, costs and mutexes; if the end of the file is missing because the translator was stopped, the file is not accepted, nor is a file with more text at its end or another version.", "quantifier": "every sequence of characters as a file; every valid task of the translator (any number and size of variables, operators, axioms, mutex groups); every point at which writing the file was stopped", "why_tests_cant": "Quantifies over all files and all tasks.", "anchors": ["src/search/tasks/root_task.cc:TaskParser", "src/search/tasks/root_task.cc:RootTask", "src/search/utils/task_lexer.cc:TaskLexer", "src/translate/sas_tasks.py:SASTask.output"]}
{"id": "C65", "title": "Blind and goal-count heuristics and modified costs are what they are documented to be", "statement": "The blind heuristic is 0 for goal states and the cost of a cheapest operator for all other states; if operators cost less than 2^30 it is admissible and consistent, and A* with it finds plans of minimal cost for tasks with axioms and conditional effects. The goal-count heuristic is the number of goals that do not hold, 0 for goal states only; it is admissible if no operator costs less than it has effects, but not in general. An evaluator for a task with modified costs is admissible for the original task if it is admissible for the modified one and no operator becomes more expensive.", "quantifier": "every task (with axioms and conditional effects), every state, every plan, every cost type", "why_tests_cant": "Quantifies over all states and plans of all tasks.", "anchors": ["src/search/heuristics/blind_search_heuristic.cc:BlindSearchHeuristic::compute_heuristic", "src/search/heuristics/goal_count_heuristic.cc:GoalCountHeuristic::compute_heuristic", "src/search/task_utils/task_properties.cc:get_min_operator_cost", "src/search/evaluators/modify_costs_evaluator.cc"]}
{"id": "C54", "title": "Axioms for default values make relaxation heuristics safe for tasks with axioms", "statement": "For every task with axioms the transformed task is defined, and differs only in additional axioms. They give a derived variable its default value, for exactly those variables whose default value is needed (in the goal, preconditions, effect conditions, or indirectly in axioms); the condition is empty for variables on cycles (or all, as the option says), and otherwise the conditions are in every state equivalent to no axiom of the variable being triggered. If no axiom uses the variable it sets, or all variables are approximated, then every plan of the original task is a relaxed plan of the transformed one: h^max is admissible, h^max, h^add and FF (operator costs up to 10^8) report dead ends only for states without a plan, and A* with h^max finds plans of minimal cost for tasks with axioms. Tasks without axioms stay the same.", "quantifier": "every well-formed task with binary derived variables and stratified axioms, both options, every order in which hash sets are visited, every state, every plan", "why_tests_cant": "Quantifies over all tasks with axioms, states and plans, and over the order of hash tables.", "anchors": ["src/search/tasks/default_value_axioms_task.cc:DefaultValueAxiomsTask", "src/search/tasks/default_value_axioms_task.cc:collect_non_dominated_hitting_sets_recursively", "src/search/tasks/default_value_axioms_task.cc:get_default_value_axioms_task_if_needed", "src/search/heuristics/max_heuristic.cc", "src/search/heuristics/additive_heuristic.cc", "src/search/heuristics/ff_heuristic.cc"]}
{"id": "C66", "title": "Shrinking by bisimulation preserves distances and makes merge-and-shrink perfect", "statement": "Bisimulation shrinking always ends with a partition of the states that respects the bound on its size unless more combinations of goal status and goal distance occur; states of one class agree in both, so goal distances are never changed, whatever the bound, the option greedy and the option at_limit. If the bound is not smaller than the number of states the result is a bisimulation (with greedy, for the transitions on cheapest paths). If the bounds are not smaller than the number of states of a task without conditional effects and the construction is not stopped by the time limit, the merge-and-shrink heuristic with bisimulation is the cost of a cheapest plan of every state (of every reachable one if unreachable states are pruned), and every state without a plan is reported as a dead end, for all merge strategies, label reductions, prunings and thresholds. Goal distances must not be INT_MAX - 1, and with greedy no sum of a goal distance and an operator cost may exceed INT_MAX.", "quantifier": "every transition system, every bound, both options; every task without axioms and conditional effects, every merge strategy and configuration, every state", "why_tests_cant": "Quantifies over all transition systems, all tasks and all states and plans.", "anchors": ["src/search/merge_and_shrink/shrink_bisimulation.cc:ShrinkBisimulation::compute_equivalence_relation", "src/search/merge_and_shrink/shrink_bisimulation.cc:ShrinkBisimulation::compute_signatures", "src/search/merge_and_shrink/merge_and_shrink_algorithm.cc", "src/search/merge_and_shrink/merge_and_shrink_heuristic.cc"]}
{"id": "C67", "title": "Removing unreachable facts and constant variables keeps the plans of a task", "statement": "For every valid task of the translator in which no effect that keeps a value overrides another effect, the simplification at the end of the translation ends without an error. It reports an unsolvable task only if there is no plan, and a trivially solvable one only if the empty plan is a plan. Otherwise the new task is a valid task again; its variables are those with at least two values that can be reached by single effects and axioms, with exactly these values, in the old order and with their names and layers; the initial state, the goal and the mutexes say the same about them as before. Every plan of the new task is, with its names and costs, a plan of the given task, and every plan of the given task becomes one of the new task if operators without effects are left out (none has to be left out with --keep-no-ops).", "quantifier": "every task of the translator (any number and size of variables, operators with conditional effects, axioms, mutex groups), with and without --keep-no-ops, every plan", "why_tests_cant": "Quantifies over all tasks and plans.", "anchors": ["src/translate/simplify.py:filter_unreachable_propositions", "src/translate/simplify.py:VarValueRenaming", "src/translate/simplify.py:build_dtgs", "src/translate/sas_tasks.py:SASOperator"]}
{"id": "C68", "title": "Reordering variables and removing irrelevant ones keeps the plans of a task", "statement": "For every valid task of the translator, the choice of a variable order at the end of the translation ends without an error. The variables of the new task are variables of the given one, each at most once, with their values, names, layers and initial values: all of them, or, if irrelevant ones are removed, exactly those from which a goal variable can be reached in the causal graph. If variables are reordered, a variable comes before another one that has influence on it only if they are on a common cycle of the causal graph; otherwise the old order is kept. Goal and mutexes say the same about the facts of the new task as before. The new task is valid again. Every plan of the given task becomes a plan of the new one if operators that affect removed variables only are left out, and every plan of the new task is, with its names and costs, a plan of the given one (with --keep-no-ops, after operators without effects have been left out).", "quantifier": "every task of the translator (any number of variables, operators with conditional effects, axioms, mutex groups), all combinations of the three options, every plan", "why_tests_cant": "Quantifies over all tasks and plans.", "anchors": ["src/translate/variable_order.py:find_and_apply_variable_order", "src/translate/variable_order.py:CausalGraph", "src/translate/variable_order.py:MaxDAG", "src/translate/variable_order.py:VariableOrder", "src/translate/sccs.py"]}
{"id": "C69", "title": "f-preserving and random shrinking meet their target and shrink in the documented order", "statement": "The f-preserving and the random shrink strategy always end with a partition of the states, whatever the random number generator returns; the number of classes is exactly the target size, or the number of states if that is smaller. If the target size is not less than the number of pairs of f and h values that occur, f-preserving shrinking only combines states with equal f and h. It respects the options: if a state shares its class with another one, then all states of equal f and h that are preferred for shrinking share one class. The way in which buckets are stored does not matter for this. So merge-and-shrink with these strategies is admissible and never builds a factor with more than max_states states. (The sum of two finite distances must be an int.)", "quantifier": "every transition system and its distances, every target size, all options, every random number generator; every task and configuration of merge-and-shrink", "why_tests_cant": "Quantifies over all transition systems, target sizes and random choices.", "anchors": ["src/search/merge_and_shrink/shrink_bucket_based.cc:ShrinkBucketBased::compute_abstraction", "src/search/merge_and_shrink/shrink_fh.cc:ShrinkFH::partition_into_buckets", "src/search/merge_and_shrink/shrink_random.cc:ShrinkRandom::partition_into_buckets"]}
{"id": "C70", "title": "Causal graph, variable orders and the greedy pattern follow their definitions", "statement": "For every task, the causal graph of the search component consists of exactly these arcs: from a variable in a precondition or effect condition of an operator or axiom to another variable it affects, and between different variables affected by the same operator or axiom; every list of neighbours is sorted and has no duplicates. The variable orders by level and the random one contain every variable once. The orders along the causal graph also do, and every variable is the first one left that some variable chosen before depends on, or of the goal, in the priority the type says; if some variable is not relevant for the goal the planner exits with an input error instead. The pattern of the greedy generator is the longest beginning of such an order whose projection has at most max_states states.", "quantifier": "every task whose operators, axioms and goal mention existing variables only, every order type, every way of shuffling, every bound", "why_tests_cant": "Quantifies over all tasks and bounds.", "anchors": ["src/search/task_utils/causal_graph.cc:CausalGraph::CausalGraph", "src/search/task_utils/variable_order_finder.cc:VariableOrderFinder::next", "src/search/pdbs/pattern_generator_greedy.cc:PatternGeneratorGreedy::compute_pattern"]}
{"id": "C71", "title": "Merge strategies always return two active factors and follow their documented order", "statement": "However often a merge strategy is asked while at least two factors are left, it returns two different active factors: precomputed merge trees (each variable being a leaf once), linear strategies (if the variable order does not end in an input error), and the stateless strategy and the one along strongly connected components with score-based filtering that contains a tie-breaking function (single random, or the total order for at most 32768 variables). After k merges the variables are partitioned among the remaining factors. A linear strategy combines the variables in the given order. Score-based filtering returns the candidate with the lexicographically least scores and exits with a critical error only if two candidates have the same least scores. The scores of goal relevance, DFP and the total order are as documented. The strategy along strongly connected components merges the components of the causal graph one after the other in the order the option says, each completely before the next one, and combines different components only afterwards.", "quantifier": "every task, every sequence of factored transition systems with the right active factors, every sequence of calls, all options, every random choice", "why_tests_cant": "Quantifies over all histories of calls, transition systems and random choices.", "anchors": ["src/search/merge_and_shrink/merge_strategy_precomputed.cc:MergeStrategyPrecomputed::get_next", "src/search/merge_and_shrink/merge_tree_factory_linear.cc", "src/search/merge_and_shrink/merge_selector_score_based_filtering.cc:select_merge_from_candidates", "src/search/merge_and_shrink/merge_strategy_sccs.cc:MergeStrategySCCs::get_next", "src/search/merge_and_shrink/merge_scoring_function_dfp.cc:MergeScoringFunctionDFP::compute_scores", "src/search/merge_and_shrink/merge_scoring_function_total_order.cc"]}
{"id": "C73", "title": "Translating a grounded task to finite-domain variables keeps its plans", "statement": "Given a grounded task (sets of atoms, actions with conditional effects, axioms in layers) and groups of atoms of which at most one is true in every reachable state, which cover the task and in which derived atoms and negative goals are alone, the translator always produces a task with finite-domain variables, for all options. Every plan of the new task is, with names and costs, a plan of the grounded task; from every plan of the grounded task a plan of the new one results by leaving out actions that change nothing (with --keep-no-ops none is left out unless the goal is empty). Facts in a common mutex group of the new task are never true together in its reachable states. The new task is valid for the search component, and in the canonical form described in sas_tasks.py unless --add-implied-preconditions is used. Together with C67 and C68 the same holds for the final output of the translator.", "quantifier": "every grounded task (any number of atoms, actions, conditional effects, axioms), all suitable groups of atoms, all options, every plan", "why_tests_cant": "Quantifies over all tasks, groups and plans.", "anchors": ["src/translate/main.py:translate_task", "src/translate/main.py:translate_strips_operator", "src/translate/main.py:build_sas_operator", "src/translate/main.py:translate_strips_conditions_aux", "src/translate/main.py:negate_and_translate_condition", "src/translate/main.py:translate_strips_axiom"]}
{"id": "C72", "title": "Groups of atoms for finite-domain variables are chosen greedily from invariants and cover all atoms", "statement": "Given the invariants found for a task, the computation of groups ends without an error. Every group is a single reachable atom or consists of at least two reachable instances of one invariant; together the groups have exactly the reachable atoms, in the standard encoding each atom is in one group only, and in the full encoding each invariant with two instances gives a group. The groups are chosen one after another, always one with the most atoms that are not covered yet. Atoms that have to be false in the goal are alone in their groups. The mutex groups are the reachable instances of the invariants and single atoms that are no instances. The names of values are the atoms in order, followed by one more name. Nothing depends on the order in which Python iterates over sets, except for the order of mutex groups. If at most one instance of each invariant is true in every reachable state, the groups are suitable for the translation to finite-domain variables of C73, so that this translation keeps the plans.", "quantifier": "every set of invariants, objects, reachable atoms and negative goals, both encodings, every order of the sets; every grounded task", "why_tests_cant": "Quantifies over all tasks, invariants and iteration orders.", "anchors": ["src/translate/fact_groups.py:compute_groups", "src/translate/fact_groups.py:GroupCoverQueue", "src/translate/fact_groups.py:choose_groups", "src/translate/fact_groups.py:expand_group", "src/translate/fact_groups.py:build_translation_key", "src/translate/fact_groups.py:collect_all_mutex_groups"]}
{"id": "C74", "title": "Removing and simplifying axioms and computing axiom layers keeps the plans", "statement": "The treatment of axioms of a grounded task always ends: with an error message if the axioms of the derived atoms that matter for the goal or an action cannot be stratified, otherwise with axioms and layers. The derived atoms of the result are exactly those that matter, each with one layer; no atom is below one it depends on, and it is above those it depends on by negation. With the strategy \"min\" each layer is the lowest possible one, with \"max\" atoms share a layer only if they depend on each other. Axioms of the result are axioms of the input without duplicates in their bodies; none needs its own head and none is weaker than another one for the same atom, and an axiom is left out only for one of these reasons. If the axioms of the input are stratifiable, the result has the same plans and, up to derived atoms that do not matter, the same reachable states. Together with C72 and C73 this covers the way from the grounded task to finite-domain variables.", "quantifier": "every grounded task, both layer strategies, every plan", "why_tests_cant": "Quantifies over all tasks, axioms, dependencies and plans.", "anchors": ["src/translate/axiom_rules.py:handle_axioms", "src/translate/axiom_rules.py:compute_necessary_atoms", "src/translate/axiom_rules.py:get_strongly_connected_components", "src/translate/axiom_rules.py:compute_simplified_axioms", "src/translate/axiom_rules.py:compute_clusters", "src/translate/axiom_rules.py:compute_axiom_layers"]}
{"id": "C75", "title": "The exploration finds every atom that follows from the facts and rules", "statement": "For every Datalog program in normal form (each predicate with one arity; variables of an effect occur in the conditions; no variable occurs twice in an atom; rules are joins, products or projections with the shape that their assertions demand) the exploration ends without an error, and no assertion fails. Its result starts with the facts, contains no other atom twice, and contains every atom that follows from the facts by the rules. If variables that two conditions of a rule have in common also occur in its effect, then the result contains exactly the atoms that follow. Without this condition it contains exactly those that follow if the conditions of a rule have to agree on variables of its effect only. As a set, the result does not depend on the order of facts and rules.", "quantifier": "every program in normal form over a non-empty set of objects, any number of facts, rules, conditions and arguments", "why_tests_cant": "Quantifies over all programs; the derivations are unbounded.", "anchors": ["src/translate/build_model.py:compute_model", "src/translate/build_model.py:variables_to_numbers", "src/translate/build_model.py:JoinRule", "src/translate/build_model.py:ProductRule", "src/translate/build_model.py:ProjectRule", "src/translate/build_model.py:Unifier", "src/translate/build_model.py:Queue"]}
{"id": "C76", "title": "The normalised Datalog program means the same as the original rules", "statement": "For every Datalog program whose facts contain the equality of all its objects and whose predicates have one arity each, the normalisation (free variables of effects, variables that occur twice in an atom, rules without conditions) and the splitting of rules (connected parts, greedy binary joins with projections) end without a failed assertion. All resulting rules have the form that the exploration demands. Exactly the same atoms of the original predicates follow from the new program as from the original one, where a variable that occurs in the effect of a rule only stands for any object. Hence the exploration of the new program finds every atom that can be derived from the original program; it finds exactly these if every variable of a rule occurs in its effect and no variable occurs twice in a condition.", "quantifier": "every program of this kind, any number of facts, rules, conditions and arguments, any sorting orders", "why_tests_cant": "Quantifies over all programs; the greedy join has a different shape for each of them.", "anchors": ["src/translate/pddl_to_prolog.py:normalize", "src/translate/pddl_to_prolog.py:remove_free_effect_variables", "src/translate/pddl_to_prolog.py:split_duplicate_arguments", "src/translate/pddl_to_prolog.py:convert_trivial_rules", "src/translate/split_rules.py:split_rule", "src/translate/greedy_join.py:greedy_join", "src/translate/graph.py:connected_components"]}
{"id": "C77", "title": "Instantiation keeps the plans of a normalised task", "statement": "For every normalised PDDL task with typed objects, action and axiom schemas, conditional and universal effects, negative conditions and action costs, the relaxed exploration and the instantiation end without a failed assertion (if no variable occurs twice in the cost of an action). If they report that the goal is not relaxed reachable or impossible, the task has no plan. Otherwise every plan of the grounded task is a plan of the given task with the same names and costs, and every plan of the given task is a plan of the grounded one, up to actions without effects, which are kept on request. Both have the same reachable states, in which atoms that are not listed as fluent never change. Together with the later steps, the plans of the finite-domain task are those of the given task.", "quantifier": "every normalised task, any number of objects, schemas, parameters and effects, any states and plans, any names", "why_tests_cant": "Quantifies over all tasks, all instances of schemas and all plans.", "anchors": ["src/translate/instantiate.py:explore", "src/translate/instantiate.py:instantiate", "src/translate/instantiate.py:get_fluent_facts", "src/translate/normalize.py:build_exploration_rules", "src/translate/normalize.py:condition_to_rule_body", "src/translate/pddl/actions.py:instantiate", "src/translate/pddl/effects.py:instantiate", "src/translate/pddl/conditions.py:instantiate", "src/translate/pddl/axioms.py:instantiate"]}
{"id": "C78", "title": "Normalisation of a PDDL task keeps its plans", "statement": "For every PDDL task with arbitrary conditions (conjunctions, disjunctions, quantifiers, negation, in negation normal form), derived predicates, conditional and universal effects and action costs, the normalisation (universal conditions become new derived predicates, a complicated goal becomes a derived predicate, conditions are brought to disjunctive normal form and split, existential variables become parameters) ends without a failed assertion. It reports an error exactly if a derived predicate is true initially or changed by an action. Otherwise the result has the form that exploration and instantiation need, and it has exactly the same plans with the same names and costs, if the axioms are stratifiable where atoms below a universal quantifier count like negated ones and if quantifiers over types without objects are not trivial. Together with the later steps, the plans of the finite-domain task are those of the PDDL task.", "quantifier": "every task of this kind, any nesting of conditions, any number of objects, schemas and parameters, any states and plans", "why_tests_cant": "Quantifies over all formulas, tasks and plans.", "anchors": ["src/translate/normalize.py:normalize", "src/translate/normalize.py:remove_universal_quantifiers", "src/translate/normalize.py:substitute_complicated_goal", "src/translate/normalize.py:build_DNF", "src/translate/normalize.py:split_disjunctions", "src/translate/normalize.py:move_existential_quantifiers", "src/translate/normalize.py:eliminate_existential_quantifiers_from_axioms", "src/translate/normalize.py:eliminate_existential_quantifiers_from_preconditions", "src/translate/normalize.py:eliminate_existential_quantifiers_from_conditional_effects", "src/translate/normalize.py:verify_axiom_predicates", "src/translate/pddl/conditions.py:simplified", "src/translate/pddl/conditions.py:negate"]}
{"id": "C79", "title": "Parsed conditions and renamed variables mean the same as the PDDL formulas", "statement": "For every PDDL formula (and, or, not, imply, forall, exists, any nesting) the parser returns a condition in negation normal form that is true in exactly the states and for exactly the values of free variables in which the formula is, and whose quantified variables have pairwise different names, if the parameters of each quantifier are different and have objects of their types and no free variable is called like a quantified variable followed by a number. For every task whose actions, axioms, effects and quantifiers each have different parameters, but may use names again elsewhere, renaming of variables always finds new names, gives a task in which the variables of each action, axiom and of the goal have different names, and keeps all plans with the names and costs of actions, so that normalisation (C78) applies to the result.", "quantifier": "every formula, every task of this kind, any nesting and shadowing of variables, any states, values and plans", "why_tests_cant": "Quantifies over all formulas, tasks and plans; capture of variables needs names that tests do not contain.", "anchors": ["src/translate/pddl_parser/parsing_functions.py:parse_condition", "src/translate/pddl_parser/parsing_functions.py:parse_condition_aux", "src/translate/pddl/conditions.py:uniquify_variables", "src/translate/pddl/conditions.py:rename_variables", "src/translate/pddl/effects.py:uniquify_variables", "src/translate/pddl/actions.py:uniquify_variables", "src/translate/pddl/axioms.py:uniquify_variables", "src/translate/pddl/pddl_types.py:uniquify_name"]}
{"id": "C80", "title": "Invariants that are found are true in all reachable states", "statement": "For every normalised PDDL task the synthesis of invariants ends without an error. For each group of atoms that it returns, exactly one atom is true in the initial state and at most one atom is true in every reachable state, whatever the order in which actions are checked and wherever the limits for time and candidates stop the search. This holds if variables of delete effects range over all objects, no delete effect has a condition that is simply false, and no action adds an atom again that it deletes while it adds another atom of the same invariant; without each of these conditions there are tasks with wrong groups.", "quantifier": "every normalised task of this kind, any number of predicates, parameters, actions and effects, any order of checks, any limits, every reachable state", "why_tests_cant": "Quantifies over all tasks and all reachable states; the check solves systems of equalities and inequalities that stand for all instances of an action.", "anchors": ["src/translate/invariant_finder.py:get_groups", "src/translate/invariant_finder.py:find_invariants", "src/translate/invariant_finder.py:get_initial_invariants", "src/translate/invariant_finder.py:useful_groups", "src/translate/invariant_finder.py:BalanceChecker", "src/translate/invariants.py:check_balance", "src/translate/invariants.py:_operator_too_heavy", "src/translate/invariants.py:_operator_unbalanced", "src/translate/invariants.py:_refine_candidate", "src/translate/invariants.py:possible_mappings", "src/translate/constraints.py:ConstraintSystem", "src/translate/constraints.py:EqualityConjunction"]}
{"id": "C81", "title": "The translation of PDDL tasks to finite-domain tasks keeps their plans", "statement": "For every PDDL task that meets the conditions of the single steps (C78, C79, C80), all steps from renaming of variables over normalisation, exploration, instantiation, synthesis of invariants, treatment of axioms and choice of groups to the finite-domain task end without an error. If the goal turns out to be unreachable, the PDDL task has no plan. Otherwise every plan of the finite-domain task is a plan of the PDDL task with the same names and costs of actions, and every plan of the PDDL task is one of the finite-domain task after leaving out actions that can be left out; with the option to keep actions without effects, it is the same plan.", "quantifier": "all PDDL tasks, options, orders of actions in the checks of invariants, limits of candidates and time, orders of sets", "why_tests_cant": "Quantifies over all tasks and all plans; tests compare single tasks.", "anchors": ["src/translate/main.py:pddl_to_sas", "src/translate/normalize.py:normalize", "src/translate/instantiate.py:explore", "src/translate/fact_groups.py:compute_groups", "src/translate/invariant_finder.py:get_groups", "src/translate/axiom_rules.py:handle_axioms"]}
{"id": "C82", "title": "The search component solves the PDDL task that was given to the translator", "statement": "For every PDDL task that meets the conditions of C81, with names that can be written in lines and numbers that fit into the types of the search component: the translator writes a file that the search component reads without an error. Every plan of the task that is read is a plan of the PDDL task with the same names and costs of actions, and every plan of the PDDL task is one of the task that is read after leaving out actions that can be left out. If the translator finds that the task cannot be solved or is solved by the empty plan, this is the case.", "quantifier": "all PDDL tasks, options (without added implied preconditions and without keeping actions that have no effects), orders of actions in the checks of invariants, limits of candidates and time, orders of sets", "why_tests_cant": "Quantifies over all tasks and all plans, through two programs and a file; tests compare single tasks.", "anchors": ["src/translate/main.py:main", "src/translate/sas_tasks.py:SASTask.output", "src/translate/simplify.py:filter_unreachable_propositions", "src/translate/variable_order.py:find_and_apply_variable_order", "src/search/tasks/root_task.cc:read_root_task"]}
{"id": "C83", "title": "The operator-counting heuristic with delete-relaxation constraints is admissible and can compute h^+", "statement": "For every task without axioms in which no operator has two effects with the same fact, the operator-counting heuristic with the delete-relaxation constraints by Imai and Fukunaga, whatever has been evaluated before and whatever the options are, returns the minimal cost of operator counts that satisfy the constraints for this state, rounded up, and DEAD_END only if there are none. The value is never negative, 0 for goal states, at most h^+, and so at most the cost of every plan. With variables for time steps and integer auxiliary variables, on tasks without conditional effects, it is exactly h^+, it is DEAD_END exactly if there is no relaxed plan, and it is consistent. Without variables for time steps it is consistent up to the rounding of the errors of the solver. A* with it finds optimal plans.", "quantifier": "every supported task, all options, every sequence of evaluated states, every solver that meets its contract up to an error less than 0.01", "why_tests_cant": "Quantifies over all tasks, states and histories of evaluations; h^+ is NP-hard to compute, and tests compare single values.", "anchors": ["src/search/operator_counting/delete_relaxation_if_constraints.cc:create_auxiliary_variables", "src/search/operator_counting/delete_relaxation_if_constraints.cc:create_constraints", "src/search/operator_counting/delete_relaxation_if_constraints.cc:update_constraints", "src/search/operator_counting/operator_counting_heuristic.cc:compute_heuristic"]}
{"id": "C84", "title": "The operator-counting heuristic with delete-relaxation constraints based on vertex elimination is admissible and can compute h^+", "statement": "For every task without axioms in which no operator has two effects with the same fact, the operator-counting heuristic with the delete-relaxation constraints by Rankooh and Rintanen can be constructed (unless integer variables are used with SoPlex, or vertex elimination is used and an operator has an effect that is one of its preconditions; in the latter case the construction always ends with an exception). With any options the value of a state does not depend on the states that were evaluated before, is never negative, 0 for goal states, at most h^+, and so at most the cost of every plan; A* with it finds optimal plans. With vertex elimination (with any tie-breaking of the elimination order) or time labels and integer auxiliary variables, on tasks without conditional effects and without effects that are preconditions, the value is exactly h^+, it is DEAD_END exactly if there is no relaxed plan, and it is consistent. With time labels or without exclusion of cycles the value is the minimal cost of operator counts that satisfy the constraints of the paper for this state (less 0.01, rounded up); without exclusion of cycles it is consistent up to the rounding of solver errors, for all choices of integer variables.", "quantifier": "every supported task, all options, all tie-breakings of the priority queue, every sequence of evaluated states, every solver that meets its contract up to an error less than 0.01", "why_tests_cant": "Quantifies over all tasks, states and histories of evaluations; whether the eliminated graph excludes all cycles is a statement about all graphs, and tests compare single values.", "anchors": ["src/search/operator_counting/delete_relaxation_rr_constraints.cc:VEGraph", "src/search/operator_counting/delete_relaxation_rr_constraints.cc:create_auxiliary_variables", "src/search/operator_counting/delete_relaxation_rr_constraints.cc:create_constraints", "src/search/operator_counting/delete_relaxation_rr_constraints.cc:update_constraints", "src/search/operator_counting/operator_counting_heuristic.cc:compute_heuristic"]}
{"id": "C85", "title": "Per-task information belongs to the task, not to its address", "statement": "For every history of creating and destroying tasks and objects for per-task information (PerTaskInformation) and reading and writing entries, in any order and with any reuse of addresses, in which only living objects are used: no assertion fails and no destroyed object is accessed, also if tasks and information objects are destroyed in any order; the entry for a task is constructed exactly at the first access after both objects were created and afterwards is the value that was written last, never a value of an earlier task at the same address; and the entries of a task are destroyed together with the task.", "quantifier": "all histories, all addresses, all orders in which hash sets are iterated", "why_tests_cant": "Stale entries and dangling pointers only show with particular orders of destruction and reuse of addresses; the property quantifies over all of them.", "anchors": ["src/search/per_task_information.h:operator[]", "src/search/per_task_information.h:notify_service_destroyed", "src/search/algorithms/subscriber.h:Subscriber", "src/search/algorithms/subscriber.h:SubscriberService"]}
{"id": "C86", "title": "PDDL files are read as the nested lists that they contain", "statement": "For every file: the reader of the translator for PDDL files returns a nested list exactly if the file (in ASCII up to comments, which start with a semicolon and may contain any character) consists of the words and parentheses of this list, with words in lower case, separated by white space, parentheses or the question marks of variables; there is at most one such list. Every nested list of words in lower case that is written to a file is read again, with any comments. All other files are reported as parse errors, except for files without any word or parenthesis: for them an exception is raised that is not caught.", "quantifier": "all files, all nested lists, any depth", "why_tests_cant": "There are infinitely many files; unit tests look at a few of them and at few errors.", "anchors": ["src/translate/pddl_parser/lisp_parser.py:parse_nested_list", "src/translate/pddl_parser/lisp_parser.py:tokenize", "src/translate/pddl_parser/lisp_parser.py:parse_list_aux"]}
{"id": "C87", "title": "The supertypes of a PDDL type are exactly its ancestors", "statement": "For every list of types with or without base types, in any order and also with cycles, the translator stores as supertypes of a type exactly the types that are reached by one or more steps to the base type, each of them once; the computation of the transitive closure terminates for every relation and returns exactly the pairs that are connected by a path of at least one edge, sorted and without repetitions.", "quantifier": "all lists of types, all finite relations", "why_tests_cant": "Quantifies over all relations, including cyclic ones and those in which descendants are declared first.", "anchors": ["src/translate/graph.py:transitive_closure", "src/translate/pddl_parser/parsing_functions.py:set_supertypes"]}
{"id": "C88", "title": "The parsed effects of an action mean the same as its nested PDDL effect", "statement": "For every nested effect of an action (conjunctions, universal and conditional effects at any depth, add, delete and cost effects) that the translator accepts and in which no variable of a condition is bound again within the effect of this condition, provided that simplifying the conditions keeps their meaning (C78): the list of parsed effects has the same meaning, that is, in every state and for all values of the parameters of the action, the same atoms are true afterwards, also if an effect occurs both as an add and as a delete effect. All effects in which no condition is above both a quantifier and a conjunction, and with effects on the costs only in the outer conjunctions, are accepted. The condition on variables is needed, and some valid effects are not accepted: an assertion fails for a universal effect in a conjunction below a condition and for an action whose only effect is on the costs.", "quantifier": "all nested effects of any depth, all states, all values of parameters", "why_tests_cant": "Quantifies over all nested effects and all states; tests look at single effects.", "anchors": ["src/translate/pddl/effects.py:normalize", "src/translate/pddl/effects.py:extract_cost", "src/translate/pddl_parser/parsing_functions.py:add_effect", "src/translate/pddl_parser/parsing_functions.py:parse_effects"]}
{"id": "C89", "title": "Typed lists of PDDL files are read as the groups of names and types that they contain", "statement": "For every nested list that is read as a typed list (of types, objects, constants, parameters, arguments of predicates): the translator returns names with types exactly if the list consists of groups of names, a separator and a type, and a last group that may have no type, where names are words (starting with a question mark if only variables are allowed) and types are words or, where allowed, lists that start with the word either; the result contains every name once for each occurrence, in the order of the list, with the type of its group or the default type. There is at most one such result. All other lists are reported as errors, except that a list in the place of a variable can lead to an exception that is not caught.", "quantifier": "all nested lists, all options, all default types", "why_tests_cant": "Quantifies over all lists; tests look at few of them and at few errors.", "anchors": ["src/translate/pddl_parser/parsing_functions.py:parse_typed_list", "src/translate/pddl_parser/parsing_functions.py:construct_typed_object", "src/translate/pddl_parser/parsing_functions.py:construct_type"]}
