#!/usr/bin/env python3
"""Regenerates properties.jsonl from the table below (kept readable here)."""
import json
P = []
def p(id, title, statement, quantifier, why, anchors):
    P.append(dict(id=id, title=title, statement=statement, quantifier=quantifier, why_tests_cant=why, anchors=anchors))
S = "src/search/"
p("C01", "Packed integers: reading back what was written, without interference",
  "For an integer packer built from any list of variable ranges (each at least 1 and representable as a non-negative int), setting a variable of a packed buffer to a legal value and then getting it returns that value, and getting any other variable returns what it returned before the set. No access is outside the buffer of the advertised number of bins.",
  "every list of ranges, every buffer content, every pair of variables, every legal value",
  "The bin-packing layout depends on the whole multiset of ranges; tests only sample a few layouts and overlap of two bit fields shows only for particular combinations.",
  [S+"algorithms/int_packer.cc:IntPacker::pack_bins,pack_one_bin,get,set"])
p("C02", "Packed states are canonical",
  "Two packed buffers that were filled from an all-zero buffer by setting every variable (in any order, any number of times) are bitwise equal if and only if all variables have equal values; hence comparing and hashing raw bins decides state equality.",
  "every list of ranges, all pairs of variable assignments, every order of set operations",
  "Garbage in unused bits would break duplicate detection only for particular layouts.",
  [S+"algorithms/int_packer.cc", S+"state_registry.h:StateIDSemanticEqual", S+"state_registry.cc:StateRegistry::get_initial_state"])
p("C03", "The integer hash set is a set",
  "After any sequence of insertions, inserting key k returns (k', false) where k' is the already stored key equal to k if there is one, and otherwise (k, true) and k is stored from then on; the reported size is the number of distinct classes inserted. This holds for every hash function compatible with equality, through any number of displacements and resizes.",
  "every insertion sequence, every hash function and every equivalence compatible with it",
  "Hopscotch displacement chains and nested resizes are triggered only by rare collision patterns.",
  [S+"algorithms/int_hash_set.h:IntHashSet::insert,rehash,enlarge,find_equal_key"])
p("C04", "Segmented vectors behave like vectors and never move elements",
  "For any sequence of push_back, pop_back, resize and writes, indexing a segmented (array) vector gives exactly what a plain vector would give, no access leaves allocated memory, and the address of a live element never changes while it is live.",
  "every operation history, every element size and array length (at least 1)",
  "Segment boundaries depend on element sizes; address stability is a property of all future operations.",
  [S+"algorithms/segmented_vector.h"])
p("C05", "State registry: IDs and states are in bijection for ever",
  "After any history of initial-state and successor requests on a registry, distinct IDs denote distinct states, requesting a state already registered returns its old ID, a new state gets the next consecutive ID, the size is the number of distinct states requested, and looking up an ID always returns the values it was registered with.",
  "every task, every history of successor requests",
  "Interaction of packing, in-place modification of the newest pool entry, duplicate removal and hash-set resizing over unbounded histories.",
  [S+"state_registry.cc:insert_id_or_pop_state,get_initial_state,get_successor_state,lookup_state"])
p("C06", "Successor states follow the planning semantics",
  "The state returned for a predecessor and an operator gives every variable the value of the (last) effect on it whose conditions hold in the predecessor, every other variable its old value, and every derived variable the value given by the axioms; effect conditions are evaluated in the predecessor, never in the partially updated state. The registered and the unregistered successor functions agree.",
  "every task with conditional effects and axioms, every state, every operator",
  "The packed implementation updates a copy in place; order dependencies would only show on particular conditional effects.",
  [S+"state_registry.cc:get_successor_state", S+"task_proxy.cc:State::get_unregistered_successor", S+"task_proxy.h:does_fire"])
p("C07", "Per-state information is a default map keyed by (registry, state)",
  "For any interleaving of reads, writes, growth of registries and destruction of registries, a per-state information object returns for a state the last value written for that state in that registry, and the default value if none was written; data of a destroyed registry never becomes visible again, and no dangling cached pointer is used.",
  "every interleaving of accesses, registry growth, registry creation (also at a reused address) and destruction",
  "The one-entry cache and lazy resizing give the wrong answer only for particular interleavings.",
  [S+"per_state_information.h", S+"per_state_array.h", S+"algorithms/subscriber.h"])
p("C08", "Bitsets are finite sets of positions",
  "For any history of set/reset/set-all/reset-all/intersect operations, testing a position returns whether it is in the mathematical set, count is its cardinality, and subset and intersection tests agree with set theory, for every number of bits, including sizes that are not a multiple of the block size.",
  "every number of bits, every operation history",
  "Unused bits of the last block matter only for certain sizes and operation orders.",
  [S+"algorithms/dynamic_bitset.h", S+"per_state_bitset.cc"])
p("C09", "Axiom evaluation computes the stratified semantics",
  "For every task whose axioms are stratified by layers, evaluating the axioms on a state leaves non-derived variables unchanged and gives every derived variable its value in the layer-by-layer least fixpoint with negation by failure; the result does not depend on the previous values of the derived variables, and evaluation is idempotent and terminates.",
  "every stratified axiom set, every state, including axioms with no or repeated conditions",
  "Counter-based propagation with a work queue is correct only through an invariant over the whole run.",
  [S+"axioms.cc:AxiomEvaluator::evaluate"])
p("C10", "The successor generator returns exactly the applicable operators",
  "For every task and state, the generated list contains each operator whose preconditions all hold exactly once and nothing else.",
  "every operator set, every state",
  "The decision tree's shape depends on the sort order of all preconditions.",
  [S+"task_utils/successor_generator_factory.cc", S+"task_utils/successor_generator_internals.cc"])
p("C11", "Equivalence relation refinement",
  "For a nonempty set of elements and refining lists without duplicates, after any sequence of refinements two elements are in the same block iff they were never separated by a refining set; blocks are nonempty, disjoint and cover all elements.",
  "every nonempty element set and every sequence of duplicate-free refining lists",
  "Iterator bookkeeping across histories.",
  [S+"algorithms/equivalence_relation.cc"])
p("C12", "Maximal cliques are exactly enumerated",
  "For every undirected loop-free graph with sorted adjacency lists, the computed list contains exactly the maximal cliques, each exactly once.",
  "every graph", "The pivoting rule may skip a clique only for particular graphs.",
  [S+"algorithms/max_cliques.cc"])
p("C13", "Strongly connected components",
  "For every directed graph the result is a partition of the vertices into the maximal strongly connected components, listed so that there is no edge from a later component to an earlier one. This holds for the implementation of the search component and for the one of the translator, which gives the same result.",
  "every directed graph", "Low-link bookkeeping errors need particular graphs.",
  [S+"algorithms/sccs.cc", "src/translate/sccs.py:get_sccs_adjacency_list"])
p("C14", "Adaptive priority queue",
  "For any sequence of pushes and pops with non-negative keys, every pop returns an entry with minimal key among those present, no entry is lost or duplicated, and switching the representation from buckets to a heap is unobservable except for the order among equal keys.",
  "every push/pop/clear history", "The switch happens at a history-dependent point.",
  [S+"algorithms/priority_queues.h"])
p("C15", "Ordered set",
  "An ordered set contains each inserted item once, in order of first insertion, and membership agrees with the sequence, for any history of inserts, clears and pops.",
  "every history", "Two synchronised containers over all histories.",
  [S+"algorithms/ordered_set.h"])
p("C16", "Best-first and tie-breaking open lists",
  "remove_min returns an entry whose key (the evaluator value, or the lexicographic vector of evaluator values) is minimal among all entries present and which was inserted first among those with this key; nothing inserted is lost or duplicated; empty() is true iff nothing is stored.",
  "every history of insertions, removals and clears", "Order properties over unbounded histories.",
  [S+"open_lists/best_first_open_list.cc", S+"open_lists/tiebreaking_open_list.cc"])
p("C17", "Alternation open list: fairness",
  "The alternation open list removes from a non-empty sublist with the smallest usage priority; without boosts, while all sublists stay non-empty, the numbers of removals from any two sublists differ by at most one.",
  "every number of sublists and every history", "Fairness is a property of all histories.",
  [S+"open_lists/alternation_open_list.cc"])
p("C18", "Pareto open list",
  "The pareto open list returns, for every random choice, the oldest entry of a bucket whose key is not dominated by any stored key; it is empty iff nothing is stored; and (as documented) with state_uniform_selection=true a bucket is selected with weight equal to its number of entries.",
  "every history and random choice", "Incremental maintenance of the Pareto front.",
  [S+"open_lists/pareto_open_list.cc"])
p("C19", "Randomised open lists lose nothing",
  "For every sequence of random numbers, the epsilon-greedy and type-based open lists return each inserted entry exactly once over time and report empty exactly when everything was returned; with epsilon 0 the epsilon-greedy list returns a minimal entry, oldest first.",
  "every history and every random stream", "Random streams cannot be enumerated.",
  [S+"open_lists/epsilon_greedy_open_list.cc", S+"open_lists/type_based_open_list.cc"])
p("C20", "Dead-end decisions of open lists",
  "If an open list built from evaluators whose dead ends are all reliable declares a dead end, then some evaluator is infinite, hence the state is unsolvable; is_reliable_dead_end never trusts an unreliable evaluator; an entry which is not a dead end (and preferred if required) is always inserted.",
  "every nesting of open lists and every evaluator outcome", "Compositional property over all nestings.",
  [S+"open_list.h:OpenList::insert", S+"open_lists/*"])
p("C21", "Plans found by eager search are valid",
  "Whatever the evaluators, open list, pruning method, bound and cost type, if eager search reports a solution then the reported operator sequence is applicable in the initial state and leads to a goal state.",
  "every task, every evaluator, every open list policy, every pruning method, with and without reopening",
  "Parent pointers are rewritten during search; a wrong or cyclic chain needs a particular history.",
  [S+"search_algorithms/eager_search.cc", S+"search_space.cc:SearchSpace::trace_path"])
p("C22", "Eager search is complete",
  "If eager search without bound and pruning, with evaluators whose dead ends are real, reports failure, then no plan exists; and without a lazy evaluator (whose estimates may change forever) it always terminates with solved or failed.",
  "every task, every evaluator and open list policy", "Quantifies over all expansion orders.",
  [S+"search_algorithms/eager_search.cc"])
p("C23", "A* returns optimal plans",
  "Eager search with the f = g + h tie-breaking open list, reopening and an admissible (possibly inconsistent) heuristic returns a plan of minimal cost.",
  "every task (non-negative costs, zero allowed), every admissible heuristic",
  "Optimality quantifies over all plans.", [S+"search_algorithms/eager_search.cc", S+"search_algorithms/search_common.cc:create_astar_open_list_factory_and_f_eval"])
p("C24", "Cost bounds are respected",
  "Every plan reported by a search with bound b has real cost below b.",
  "every task, bound, cost type and search option", "Bound checks use stored g-values that may become stale.",
  [S+"search_algorithms/eager_search.cc", S+"search_algorithms/lazy_search.cc", S+"search_algorithms/enforced_hill_climbing_search.cc"])
p("C25", "Lazy search: soundness and completeness",
  "Plans reported by lazy search are valid; if it reports failure without bound and with safe dead-end detection, no plan exists.",
  "every task, evaluator, open list policy, successor ordering", "All expansion orders.",
  [S+"search_algorithms/lazy_search.cc"])
p("C26", "Enforced hill climbing: soundness",
  "Plans reported by enforced hill climbing are valid plans.",
  "every task, evaluator and preferred-operator usage", "All histories of phases.",
  [S+"search_algorithms/enforced_hill_climbing_search.cc"])
p("C27", "Iterated search improves monotonically",
  "The plans saved by iterated search have strictly decreasing cost, all below the initial bound, and the final plan is the cheapest one found; with pass_bound every phase is run with a bound not above the best cost so far.",
  "every sequence of component searches and outcomes, all option combinations", "All phase histories.",
  [S+"search_algorithms/iterated_search.cc"])
p("C28", "Weighted A* suboptimality bound",
  "Eager weighted A* with weight w >= 1, reopening and an admissible heuristic returns a plan of cost at most w times optimal.",
  "every task, weight and admissible heuristic", "Quantifies over all plans.",
  [S+"search_algorithms/plugin_eager_wastar.cc", S+"search_algorithms/search_common.cc:create_wastar_open_list_factory"])
p("C29", "Heuristic and evaluation caching is transparent",
  "For a heuristic whose value is a function of the state, evaluating through the per-evaluation cache and the per-state cache returns the same value as computing it afresh, in any history; each evaluator is computed at most once per evaluation context; dead ends are reported as infinity with no preferred operators.",
  "every history of evaluations", "Stale cache entries need particular histories.",
  [S+"heuristic.cc:Heuristic::compute_result", S+"evaluation_context.cc:get_result"])
p("C30", "Combining evaluators",
  "Sum, max and weighted evaluators are infinite iff (one of) their inputs are infinite, and otherwise compute the sum, maximum and product; hence max (and sum under cost partitioning) of admissible estimates is admissible.",
  "every number of sub-evaluators and values without int overflow", "Infinity handling for all combinations.",
  [S+"evaluators/*.cc"])
p("C31", "h^max is correct and admissible",
  "The computed h^max value equals the least solution of the h^max equations, is infinite iff the goal is relaxed-unreachable, and never exceeds the optimal cost of the task (or of the given state).",
  "every task, every state, every cost function", "Fixpoint and admissibility quantify over all plans.",
  [S+"heuristics/max_heuristic.cc", S+"heuristics/relaxation_heuristic.cc"])
p("C32", "Additive and FF heuristics: relaxed plans",
  "h^add is infinite iff the goal is unreachable in the delete relaxation; the operators marked by the FF heuristic form a relaxed plan and the returned value is its cost; preferred operators are applicable.",
  "every task and state", "Backchaining through best supporters over all tasks.",
  [S+"heuristics/additive_heuristic.cc", S+"heuristics/ff_heuristic.cc"])
p("C33", "LM-cut is admissible",
  "The LM-cut value never exceeds the optimal delete-relaxation cost, every cut reported is a disjunctive action landmark, and cost is reduced by the cut's minimum each round until h^max is zero.",
  "every task, state and cost function", "Quantifies over all relaxed plans.",
  [S+"heuristics/lm_cut_landmarks.h", S+"heuristics/lm_cut_landmarks.cc"])
p("C34", "PDB state ranking is a bijection",
  "Ranking abstract states by hash multipliers is a bijection between assignments to the pattern variables and 0..size-1, unranking inverts it, and size overflow is detected.",
  "every pattern and domain sizes", "Mixed-radix arithmetic for all patterns.",
  [S+"pdbs/pattern_database.cc", S+"pdbs/pattern_database_factory.cc"])
p("C35", "Pattern databases store perfect abstract goal distances",
  "Every entry equals the minimal cost of reaching an abstract goal state in the projection of the task to the pattern (infinite iff unreachable); the resulting heuristic is goal-aware, consistent and admissible.",
  "every task without axioms and conditional effects (operators as written by the translator: no variable twice in the precondition or the effects, common variables in the same order; distances that fit into an int), every pattern, every operator cost function", "Quantifies over all abstract plans.",
  [S+"pdbs/pattern_database_factory.cc", S+"pdbs/abstract_operator.cc", S+"pdbs/match_tree.cc"])
p("C36", "Canonical PDB heuristic is admissible",
  "The maximum over maximal additive subsets of the sum of PDB values never exceeds the optimal cost; dominance pruning does not change the value.",
  "every pattern collection", "Quantifies over all plans and collections.",
  [S+"pdbs/canonical_pdbs.cc", S+"pdbs/pattern_cliques.cc", S+"pdbs/dominance_pruning.cc"])
p("C37", "Zero-one cost partitioning PDBs are admissible",
  "The sum of PDB values computed under zero-one cost partitioning never exceeds the optimal cost.",
  "every sequence of patterns", "Quantifies over all plans.",
  [S+"pdbs/zero_one_pdbs.cc"])
p("C38", "Merge-and-shrink factors stay abstractions",
  "Through any sequence of merges, shrinks, label reductions and prunings, the factor remains an abstraction of the task: abstract distances never exceed real ones, so the heuristic is admissible.",
  "every task and every sequence of transformations", "All transformation sequences.",
  [S+"merge_and_shrink/factored_transition_system.cc", S+"merge_and_shrink/transition_system.cc", S+"merge_and_shrink/merge_and_shrink_representation.cc"])
p("C39", "Merge-and-shrink distances are exact",
  "Init and goal distances computed for a factor are the exact shortest path costs (unit-cost and general-cost algorithms), infinite iff unreachable.",
  "every labelled transition system", "Quantifies over all paths.",
  [S+"merge_and_shrink/distances.cc"])
p("C40", "Cartesian refinement keeps a partition and an abstraction",
  "After any sequence of splits the abstract states are disjoint Cartesian sets covering all states, looking up a concrete state in the refinement hierarchy returns the one abstract state containing it, and the transitions are exactly those induced by the concrete operators; goal distances are admissible.",
  "every task and every sequence of splits", "All refinement histories.",
  [S+"cartesian_abstractions/transition_system.cc", S+"cartesian_abstractions/refinement_hierarchy.cc", S+"cartesian_abstractions/abstraction.cc"])
p("C41", "Saturated cost partitioning is admissible",
  "The sum of the Cartesian heuristics under saturated cost partitioning never exceeds the optimal cost.",
  "every sequence of subtasks and abstractions", "Quantifies over all plans.",
  [S+"cartesian_abstractions/cost_saturation.cc"])
p("C42", "Landmark tracking and landmark heuristics are sound along all paths",
  "If the given landmarks and orderings hold for all plans, then after any sequence of reported transitions (with any of the progression options) the tracking is defined; a landmark is marked as not past in a state iff a path on which it never holds was reported to that state; a landmark reported as future has to become true on every plan from the state; and a landmark that did not become true on some reported path is reported as future. A cycle of non-reasonable orderings is found iff there is one, and then there is no plan. If the achiever sets are complete, uniform cost partitioning (with and without action landmarks, also with rounding errors up to 1/100) and optimal cost partitioning are defined and admissible in all reachable states, and optimal dominates uniform; the landmark sum only reports dead ends for states without plans; preferred operators are exactly the operators that achieve an atom of a future landmark.",
  "every task, every valid landmark graph, every sequence of reported transitions in every order, every reachable state, every plan", "Path-dependent information accumulates over all histories.",
  [S+"landmarks/landmark_status_manager.cc", S+"landmarks/landmark_cost_partitioning_algorithms.cc", S+"landmarks/landmark_cost_partitioning_heuristic.cc", S+"landmarks/landmark_sum_heuristic.cc", S+"landmarks/landmark_heuristic.cc"])
p("C43", "Stubborn-set pruning preserves optimal plans",
  "In every non-goal state, each pruning method (simple, EC and atom-centric stubborn sets with all options, limited pruning, no pruning) is defined, keeps only operators it was given, and for every plan from the state keeps the first operator of some reordering of that plan which is again a plan; hence A* with an admissible heuristic and any of them stays complete and optimal. Limited pruning switches off for good, depending only on the pruning ratio of the first calls.",
  "every task without axioms and conditional effects whose operators have one precondition and effect per variable, every state, every plan",
  "Quantifies over all plans and permutations.",
  [S + "pruning/stubborn_sets.cc", S + "pruning/stubborn_sets_action_centric.cc", S + "pruning/stubborn_sets_simple.cc", S + "pruning/stubborn_sets_ec.cc", S + "pruning/stubborn_sets_atom_centric.cc", S + "pruning/limited_pruning.cc", S + "pruning_method.cc"])
p("C44", "Operator cost adaptation",
  "normal/one/plusone cost types give cost, 1, and cost+1 (or 1 for unit-cost tasks); a cost-adapted task has the same plans as the original one.",
  "every task and cost type", "All tasks.", [S+"operator_cost.cc", S+"tasks/cost_adapted_task.cc"])
p("C45", "Domain abstraction preserves plans",
  "Every plan of the parent task, with the same operator indices, is a plan of the domain-abstracted task from the converted state.",
  "every task and every grouping of values", "All tasks and plans.", [S+"tasks/domain_abstracted_task.cc", S+"tasks/domain_abstracted_task_factory.cc"])
p("C46", "Command line lexing and parsing",
  "The lexer either splits the whole input into tokens whose concatenation (with whitespace) is the input or reports an error at the first unrecognisable position; the parser terminates on every token sequence and accepts exactly the documented grammar.",
  "every input string", "All inputs.", [S+"parser/lexical_analyzer.cc", S+"parser/syntax_analyzer.cc"])
p("C47", "Plan output",
  "The plan file consists of one line per operator in order followed by the cost comment with the exact sum of operator costs; the driver reads back this cost, and never takes a file that is not written to its end for a plan; numbered file names are never reused within a run.",
  "every plan and history of saves", "All histories.", [S+"plan_manager.cc"])
p("C48", "h^m is admissible and generalises h^max",
  "For supported tasks the h^m heuristic returns exactly the critical-path value defined by regression over sets of at most m facts; it never exceeds the cost of a plan, is consistent, does not decrease with m, equals h^max for m = 1, and reports only unsolvable states as dead ends.",
  "every task, state and m", "Quantifies over all plans.", [S+"heuristics/hm_heuristic.cc"])
p("C49", "Random walks sample reachable states, and all of them",
  "Whatever random numbers are drawn, choosing returns an element of the vector, and sampling a state never fails and returns a state at the end of a path from the initial state which visits no state recognised as dead end and has at most as many steps as trials (10 if the estimate is 0, else four times the estimate divided by the average operator cost, rounded); every such state can be sampled. As documented, a walk restarts from the initial state if a state has no successors.",
  "every task, estimate, dead-end detector and random stream", "Quantifies over all random streams and tasks.", [S+"utils/rng.h", S+"task_utils/sampling.cc:sample_state_with_random_walk", S+"task_utils/sampling.h:RandomWalkSampler"])
p("C50", "Exit codes of portfolios",
  "The portfolio exit code computed from component exit codes reports a plan if some component found one, and never reports unsolvability or success without a component having done so.",
  "every multiset of component exit codes", "All combinations.", ["driver/returncodes.py:generate_portfolio_exitcode"])
exec(open(__file__.replace('props.py','props_more.py')).read()) if __import__('os').path.exists(__file__.replace('props.py','props_more.py')) else None
with open('/verif/properties.jsonl','w') as f:
    for x in P: f.write(json.dumps(x)+"\n")
