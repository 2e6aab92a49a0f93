# Formal model of Fast Downward (aibasel/downward) in Lean 4

## Layout

* `lean/Verif/Spec/*`   – small specifications, independent of the models: planning tasks, plans, costs, relaxations, linear programs, ...
* `lean/Verif/Model/*`  – executable models, function by function; each definition cites the file and the lines in `/repo` it models.
* `lean/Verif/Lemmas/*` – auxiliary proofs.
* `lean/Verif/Props/*`  – the property theorems (named in MANIFEST.json) with non-vacuity `example`s next to them.
* `properties.jsonl` (generated by `tools/props.py`, `tools/props_more.py`), `MANIFEST.json` and `lean/Verif.lean` (generated by
  `tools/manifest.py` from `tools/claims.py`).
* `seeded/LOG.jsonl`, `seeded/batches/*` – record of the experiments with wrong programs (`tools/seed.py` runs them in a scratch copy).

A property is called *proved* in the manifest if its statement in `properties.jsonl` is proved, with the restrictions the statement itself
names.  It is called *partial* if the statement is false of the code for some inputs, or if a part is missing; the counterexample is then a theorem
too (suffix `_fails`), and the restricted theorem has the suffix `_partial`.

## Trusted base

* Lean 4.33.0's kernel, and the axioms `propext`, `Classical.choice`, `Quot.sound`.  The list at the end of this file says which theorem depends on which
  of them.  No other axioms, no `sorry`, no `native_decide`, no `bv_decide`.  `decide` and `decide +kernel` are only used for concrete
  witnesses (non-vacuity examples, counterexamples).
* The reading of the C++ and Python sources: the models are written by hand.  Nothing is extracted from the code.
* C++ `int` is modelled by unbounded `Nat`/`Int` with explicit checks where the code relies on a bound (a value that does not fit is an
  outcome of its own), and by bit vectors where the property is about bits (C01, C02, C08).
* Undefined behaviour, aborts and failed assertions are a separate outcome (`none`, `.ub`, `.abort`); theorems on definedness say when
  it cannot happen.  An `assert` is not assumed to be checked in release builds.
* Containers and algorithms of the C++ standard library are modelled by their specification in the standard: `vector`, `set`, `map`, `deque`,
  `sort`, `unique`, `push_heap`/`pop_heap` (any heap function that satisfies the contract, a parameter `StdHeap`), `shuffle`; the iteration order of
  `unordered_map`/`unordered_set` is a parameter.  `std::regex` (C46) is ordered backtracking over the expressions in the code.
* `double` is modelled by rational numbers.  Where this matters, there is a theorem on errors (C42, C63, C64) or a counterexample (C63).
* LP solvers are parameters with a contract (the result is the minimum/maximum, infeasible, or unbounded); that the contract can be met is proved
  (`exists_maxSolver`, `exists_minSolver`).
* Random numbers are arbitrary streams of the values the C++ standard allows; clocks and time limits are arbitrary streams of answers.
* Not modelled: running time, memory limits (except the capacity limits of C03), signals, the operating system, output to the log, the build.

## Modelled parts of the code and how the properties are proved

| id | what is modelled | how it is proved |
|---|---|---|
| C01, C02 | algorithms/int_packer: layout loop, masks, get, set, on 32-bit bins | invariant: assigned bit ranges are disjoint and inside bins; bit-level extensionality |
| C03 | algorithms/int_hash_set.h: hop-scotch-like insertion, resizing, capacity limit; arbitrary hash and equality | representation invariant over all insert sequences, refinement to a set |
| C04 | algorithms/segmented_vector.h, segments as separate memory blocks | refinement to `List`, stability of addresses |
| C05, C06 | state_registry, task_proxy, with C01–C04, C09 | refinement to a list of distinct states; successors are those of the planning semantics |
| C07 | per_state_information.h, per_state_array.h, algorithms/subscriber.h | refinement to a map keyed by registry incarnations; a heap of entry vectors is explicit |
| C08 | algorithms/dynamic_bitset.h, per_state_bitset | refinement to sets of positions |
| C09 | axioms.cc: counters, stack, layers, negation by failure | invariant of the work loop; equals the unique stable model (inductive specification) |
| C10 | task_utils/successor_generator*: factory, all node kinds | structural induction: permutation of the applicable operators |
| C11 | algorithms/equivalence_relation | refinement to a partition |
| C12, C13 | algorithms/max_cliques, algorithms/sccs, src/translate/sccs.py | correctness of Bron–Kerbosch with pivoting, and of Tarjan's algorithm |
| C14, C15 | algorithms/priority_queues.h, ordered_set.h | refinement to multisets with keys, to lists without duplicates |
| C16–C20, C51 | open_list.h, open_lists/* | refinement to bags with keys; induction over histories and nesting of open lists |
| C21–C24, C28 | search_algorithm, search_space, eager_search, for every open list, evaluator and pruning method | invariants over node tables; the classical A* argument for inconsistent, path-dependent heuristics |
| C25, C24 | lazy_search | invariants over node tables |
| C26, C52 | enforced_hill_climbing_search | invariants of the phases, measure for termination |
| C27 | iterated_search, plan_manager | invariants over sequences of component results |
| C29, C30 | evaluation_context, evaluation_result, evaluator_cache, heuristic.cc, evaluators/* | history invariants for directed acyclic graphs of evaluators |
| C31, C32 | relaxation_heuristic, max_heuristic, additive_heuristic, ff_heuristic | least-fixpoint characterisation (inductive specification), induction on plans |
| C33 | lm_cut_landmarks, lm_cut_heuristic | invariant of the rounds: cuts are landmarks, remaining costs; relation to h^max of the reduced costs |
| C34, C35 | pattern_database(_factory), match_tree, pdb_heuristic | mixed-radix bijection, Dijkstra's algorithm, homomorphism into the projection |
| C36, C37 | canonical_pdbs, pattern_cliques, dominance_pruning, validation, zero_one_pdbs | additivity of costs over operators; cliques by C12 |
| C53 | validation.cc: normalisation of patterns | direct |
| C38, C57 | merge_and_shrink/*: fts_factory, transition_system, labels, label_reduction, factored_transition_system, representation, algorithm, heuristic; shrink and merge strategies are parameters | each transformation preserves an abstraction of the state space; size limits by arithmetic |
| C39 | merge_and_shrink/distances | correctness of breadth-first search and Dijkstra's algorithm |
| C40, C60 | cartesian_abstractions: abstraction, transition_system, refinement_hierarchy, cegar, abstract_search, split_selector | invariant: transitions are exactly the induced ones, for every sequence of splits; measure for termination |
| C41 | cost_saturation, subtask_generators, additive_cartesian_heuristic | remaining costs partition the costs |
| C42 | landmark_status_manager, landmark_heuristic, landmark_sum_heuristic, landmark cost partitioning | invariants over observed transitions; weak duality for the optimal cost partitioning |
| C61 | exploration, landmark_factory, landmark_factory_relaxation, _zhu_givan, _rpg_exhaust | fixpoint characterisation of relaxed reachability without a set of facts |
| C62 | landmark_factory_merged, landmark_graph | simulation of the merging loops |
| C43 | pruning/*: stubborn sets (simple, atom-centric, EC), limited pruning | permutation argument on optimal plans; A* with pruning |
| C44 | operator_cost, cost_adapted_task | plans are the same, costs by cases |
| C45 | domain_abstracted_task(_factory) | homomorphism |
| C46 | parser/lexical_analyzer, token_stream, syntax_analyzer | relational grammar; unambiguity; round trip with a printer |
| C47, C59 | plan_manager.cc, driver/plan_manager.py, driver/portfolio_runner.py (anytime portfolios) | round trip on characters; invariant over runs |
| C48 | hm_heuristic | fixpoint characterisation; induction on plans |
| C49 | utils/rng.h, task_utils/sampling | every stream of random numbers |
| C50 | driver/returncodes.py | decision logic stated outright |
| C55 | tasks/root_task.cc (TaskParser, construction), utils/task_lexer.cc, output functions of translate/sas_tasks.py | triples for a reader monad; round trip by induction over the written lists |
| C58 | utils/math.cc | direct, 32-bit int |
| C63 | potentials/*: optimizer, function, max heuristic, diverse heuristics | the constraints of the program are exactly consistency and goal-awareness; linear programs attain their optimum |
| C64 | operator_counting/*: state equation, LM-cut, post-hoc optimisation; rows in the interfaces to CPLEX and SoPlex | every plan satisfies the constraints; history invariant of the rows |
| C65 | heuristics/blind_search_heuristic.cc, goal_count_heuristic.cc, get_min_operator_cost; evaluators/modify_costs_evaluator.cc | value stated outright; induction on plans; A* from C23 |
| C54 | tasks/default_value_axioms_task.cc | hitting sets of clauses (exact), dependencies and their components by C13, fixed point of needed variables; induction on plans: every fact needed and true after the plan is relaxed reachable; values by C31, C32; A* from C23 |
| C66 | merge_and_shrink/shrink_bisimulation.cc; all of the merge-and-shrink model of C38, C57 | invariant of the partition in each pass; at the end a stable partition is a bisimulation; invariant of the construction: factors are jointly faithful to the task (paths of tuples lift to plans) and each factor has its true goal distances |
| C67 | src/translate/simplify.py; SASOperator of src/translate/sas_tasks.py | reachability in domain transition graphs is exact; the renaming embeds the new task in the old one (Lemmas/TaskEmbedding: stable models, transitions and goals correspond); induction on plans in both directions |
| C68 | src/translate/variable_order.py; src/translate/sccs.py (C13) | edges of the model's causal graph are the influences; components by C13, simulated by the model of the search component; the buckets of MaxDAG return a permutation of each component (potential: entries left); depth-first search finds exactly the ancestors of goals; the order is an embedding of tasks as for C67 |
| C69 | merge_and_shrink/{shrink_bucket_based,shrink_fh,shrink_random}.cc; the random number generator is a parameter | map and vector both produce the list of buckets that is determined by the values; the loop over buckets has three phases (undivided buckets, at most one divided bucket, single states), budget counted by induction |
| C70 | task_utils/causal_graph.cc, variable_order_finder.cc, pdbs/pattern_generator_greedy.cc; shuffling is a parameter | relations collected by folds are characterised by membership; the invariant of the order finder says which variables are marked; induction over the variables chosen |
| C71 | merge_and_shrink/merge_{tree,tree_factory_linear,strategy_precomputed,selector,selector_score_based_filtering,strategy_stateless,strategy_sccs,strategy_factory_sccs}.cc, merge_scoring_function_{dfp,goal_relevance,single_random,total_order}.cc; doubles are rationals, random choices are parameters | a view (indices and variables of the active factors) evolves with the calls; one invariant per strategy, over histories with arbitrary transition systems that have these active factors |
| C72 | src/translate/fact_groups.py (all), main.py:544-548 | invariant of the queue (every set is in a list for at least its size, shared sets are what is not covered yet), so the loop refines the greedy process of Spec/FactGroups.lean; coverage, partition and the rest are proved about that process; Python sets are lists in any order |
| C73 | src/translate/main.py:41-504, 569-668 (strips_to_sas_dictionary, conditions, operators, axioms, translate_task, implied facts, mutex key); SASTask.__init__ of src/translate/sas_tasks.py | translated conditions hold in the encoding of a state iff the literals do (invariants for domains of values); effects do to a variable what the action does to its group, through the loop that shares and changes conditions; stable models correspond and are unique; induction on plans in both directions |
| C74 | src/translate/axiom_rules.py (all) | closure invariant: needed atoms are the least set of Spec/AxiomRules.lean; components by C13; dominance loop keeps a minimal covering subset of the axioms; layers by induction on the clusters; stable models before and after agree on all atoms but pruned ones, so plans correspond in both directions |
| C75 | src/translate/build_model.py (all) | least model as an inductive predicate (Spec/Datalog.lean); one firing of a rule emits exactly the effects that atoms seen so far support; the match tree returns exactly the conditions that unify; loop invariant: closed under rules for entered atoms; termination by the finite set of atoms over the program's objects |
| C76 | src/translate/pddl_to_prolog.py (normalize, split_rules), split_rules.py, greedy_join.py, graph.py | what follows from rules with free effect variables as an inductive predicate (Spec/Program.lean); "rules implement a rule" is closed under replacing some conditions by a new atom; the pair that the greedy join chooses has a common variable, because conditions stay connected; components by an invariant of the search |
| C77 | src/translate/instantiate.py, build_exploration_rules of normalize.py, translate_facts of pddl_to_prolog.py, instantiate of src/translate/pddl/*.py | schemas with their semantics (Spec/Lifted.lean); the atoms that are found are closed under relaxed application of instances and contain well-typed instances only (from C76_bounds); states have found atoms only and keep atoms that are not fluent, by induction over runs; grounded and lifted derivations, completions, steps and runs correspond |
| C78 | src/translate/normalize.py (all but the exploration rules), the methods of src/translate/pddl/conditions.py that it uses | formulas with their semantics (Spec/Pddl.lean); each step is a function on formulas with an equivalence and a shape proved by induction; new axioms for universal conditions are stored in a list whose prefix property is an invariant of the recursion; states before and after differ in the new atoms only, which have the value of the negated condition (by the layers of the axioms); plans by induction over runs; layers of the new atoms are the least bound of the atoms they depend on |
| C79 | `parse_condition`, `parse_condition_aux` (src/translate/pddl_parser/parsing_functions.py) on formulas, `uniquify_variables`, `rename_variables`, `uniquify_name` (src/translate/pddl) | formulas with their own semantics (Spec/Formula.lean); negation normal form by induction over formulas; renaming by induction over conditions with an invariant about the map of types and the renamings: values of new variables are values of the old ones, captured variables are excluded because the new names are not in the map; tasks before and after have related actions and axioms, so that states, runs and plans are the same |
| C80 | `get_groups`, `find_invariants`, `get_initial_invariants`, `useful_groups`, `BalanceChecker` (src/translate/invariant_finder.py), `Invariant`, `InvariantPart` and their helpers (src/translate/invariants.py), `ConstraintSystem`, `EqualityConjunction` (src/translate/constraints.py); random orders and the time limit are a parameter | invariants with their own semantics (Spec/Invariant.lean). Values of terms that satisfy the constraints make a system solvable, so an action that is not too heavy adds at most one new covered atom. From a solvable balance system: terms with fixed values in one class have equal values, which gives an instance of the delete effect that happens and deletes a covered true atom. Induction over reachable states; all candidates are well-formed because mappings are bijections |
| C81 | the steps of `pddl_to_sas` (src/translate/main.py) up to the finite-domain task: C72 to C80 in a row | the groups of C80 with the reachable parameters of C77 are invariants of the grounded task as C72 needs them (Props/TranslateTask.lean); then composition of the theorems. Parts of groups may be sorted in any way |
| C82 | the steps of `main` of the translator from the PDDL task to the output file (src/translate/main.py), and reading of the file by the search component (`read_root_task`): C81, C67, C68 and C55 in a row | the plans of the task that is read are those of the task that is written, with costs 1 if there is no metric (`C82_read`, Props/TranslateFile.lean); the metric is kept by all steps; names of instances and values can be written in lines; then composition |
| C83 | the delete-relaxation constraints by Imai and Fukunaga (operator_counting/delete_relaxation_if_constraints.cc) in the operator-counting heuristic: auxiliary columns, rows, resetting of bounds between states; the solver is a parameter with a contract | rows as inequalities (`feasible_iff`, `sat_iff` to a specification after the paper); every relaxed plan gives an integral solution by a longest sequence of its operators; from an integral solution with times the used operators are a relaxed plan by induction on times; invariant of the object over all evaluations |
| C84 | the delete-relaxation constraints by Rankooh and Rintanen (operator_counting/delete_relaxation_rr_constraints.cc) in the operator-counting heuristic: the graph of vertex elimination with its priority queue, all three ways to exclude cycles, auxiliary columns, rows, resetting of bounds between states; the solver is a parameter with a contract | elimination ends and its graph is closed under shortcuts (`GInv`, `veGraph_spec`); selected edges without cycles of length 2 that respect all shortcuts have no cycles, by induction over the elimination order (`acyclic_of`); every relaxed plan gives an integral solution by the first positions of facts; from an integral solution the used operators are a relaxed plan by well-founded induction over the selected edges or the time labels; without vertex elimination the rows and columns are the constraints of the paper (`Spec/RankoohRintanen.lean`, `sat_iff`) |
| C85 | per_task_information.h and algorithms/subscriber.h: objects at addresses, the sets of subscribers and services, `operator[]`, notifications, both destructors with any order of iteration; a failed assertion or an access to a destroyed object has no result | refinement of a map from pairs of living objects to entries (`Spec/PerTask.lean`), by an invariant that relates entries, subscribers and services (`Rel`), for every history |
| C86 | translate/pddl_parser/lisp_parser.py: comments, the check for ASCII, `replace`, `split` and `lower` of Python, the recursive parser; outcomes are a nested list, ParseError or StopIteration | equivalence to a grammar (`Spec/Lisp.lean`): the tokens of a line by induction over its characters (`spells_iff`), nested lists by induction over trees and over the recursion (`parse_trees`, `parse_sound`) |
| C87 | translate/graph.py (`transitive_closure`) and `set_supertypes` in parsing_functions.py: the depth-first search from every source with its sets, the final sorting | invariant of the search (`Inv`): reached nodes have a path, and nodes that are not pending have all successors reached; each step decreases the number of pending nodes plus the number of pairs minus the number of reached nodes |
| C88 | translate/pddl/effects.py (`normalize`, `extract_cost` of all classes of effects) and `parse_effects`, `add_effect` of parsing_functions.py; conditions and atoms are abstract, the reading of nested lists into effects is not modelled | relation `Fires` (an effect adds or deletes a ground atom); `normalize` keeps it by induction over the nested effect, where a condition moves below a quantifier only if it does not mention the bound variables; invariant `Sim` of the list with the treatment of contradicting effects; accepted effects: the shape of normalised effects by induction over the supported forms |
| C89 | `parse_typed_list` of parsing_functions.py with the checks of `construct_typed_object` and `construct_type`, on the nested lists of C86; not the lists of functions | grammar of groups as inductive relation (`Denotes`); equivalence by induction over the length of the list and over the derivation; exceptions by the same induction |

Not modelled: the translator (src/translate) except where listed above, the plug-in machinery and construction of
objects from the command line beyond the syntax tree (parser/abstract_syntax_tree, decorated_abstract_syntax_tree, plugins/*), heuristics cg, cea, generators of patterns other than greedy (pdbs/pattern_*generator*, cegar, random_pattern),
MIASM merge scores, landmark factories h^m, RPG/SASP and reasonable orders, timers, logging, documentation.

## Where the code disagrees with its documentation or with the property one would expect

Proved counterexamples:

* C03: at its capacity limit the hash set overflows an `int` instead of exiting (`C03_documented_limit_fails`).
* C11: `refine` with repeated elements splits too much (`C11_duplicates_over_refine`); relations without elements (`C11_no_elements`).
* C18: with `state_uniform_selection=true` buckets are weighted by the number of evaluators, not by the number of entries (`C18_state_uniform_fails`).
* C24: eager search with `cost_type` other than normal, and lazy search with reopening, can return a plan that violates the bound
  (`C24_eager_bound_fails`, `C24_lazy_bound_fails`).
* C27: iterated search can report SOLVED without having stored a plan, and can repeat forever (`C27_solved_without_plan`, `C27_repeat_diverges`).
* C29: estimates of 2^30 and more are truncated in the cache (`C29_large_estimates_fail`).
* C30: a finite sum that is INT_MAX is taken for infinity (`C30_sum_saturates`).
* C32: h^add and FF treat a solvable state as a dead end if costs exceed 100000000 (`C32_large_costs_fail`).
* C35: pattern databases for operators whose preconditions and effects are in different orders (`C35_misaligned_fails`; only an assertion checks this).
* C38: merge-and-shrink with contradictory effect conditions (`C38_duplicate_conditions_fail`).
* C43: stubborn sets for operators with two effects on one variable (`C43_two_effects_fail`).
* C46: identifiers that begin with `let`, `true`, `false`, `infinity` are split (`C46_reserved_prefix_fails`).
* C48: goals that are not sorted by variable (`C48_unsorted_goals_fail`).
* C49: a random walk in a state without successors ends; the documentation says that it restarts (`C49_documented_restart_fails`).
* C50: no components, or components killed by signals, are not handled (`C50_unhandled`).
* C52: enforced hill-climbing with `rank_preferred_first` drops all successors that are not preferred (`C52_rank_preferred_first_fails`).
* C55: an effect or axiom on a variable that does not exist is an access outside of a vector instead of an input error (`C55_unchecked_variable`).
* C61: landmark exploration with unconditional effects that are overridden (`C61_overridden_effects_fail`).
* C62: merged landmark graphs with disjunctive landmarks that are subsets of others (`C62_superset_fails`).
* C63: the tolerance of the LP solver can make potential heuristics inadmissible (`C63_tolerance_fails`).
* C64: with SoPlex and two LM-cut generators constraints of earlier states are kept (`C64_soplex_two_lmcut_fails`).
* C65: an operator that costs INT_MAX makes the blind heuristic report a state with a plan as a dead end (`C65_blind_int_max_fails`).
* C54: if an axiom uses the variable it sets, h^max reports a state with a plan as a dead end (`C54_self_support_fails`).
* C66: bisimulation confuses goal distance INT_MAX - 1 with infinity (`C66_irrelevant_collision`); with `greedy` the sum of a distance and a cost can overflow (`C66_greedy_overflow`).
* C67: an effect that keeps a value by precondition is dropped although it overrides another one; a task without a plan gets one (`C67_keeping_effects`).
* C68: with --keep-no-ops, operators on removed variables lose their preconditions, so that plans of the new task need not be plans of the given one (`C68_keep_no_ops`).
* C69: f-preserving shrinking adds two finite distances without a check; the sum may overflow (`C69_overflow`). The documentation of `shrink_fh` says that the states sorted last are combined; in the code those sorted first are (as the names of the options say).
* C70: the orders along the causal graph (and the greedy pattern generator, if all relevant variables fit) exit with SEARCH_INPUT_ERROR ("Relevance analysis has not been performed.") exactly if the task has a variable that is not relevant for the goal; so linear merge strategies and `greedy` do not work on translator output made with --keep-unimportant-variables (part of `C70_causal_orders` and `C70_greedy_pattern`).
* C73: with --add-implied-preconditions, an action with effects to both values of a binary variable can get a value before for one effect only, so the output violates `SASOperator.validate` (not called unless DEBUG is set); `C73_implied_not_canonical`.
* C74: axioms of derived atoms that do not matter for the goal or an action are removed before the check for stratifiability, so a task that PDDL forbids can be accepted; `C74_unneeded_unchecked`.
* C75: a join whose common variable is not in the effect (which greedy_join.py does create, e.g. for a conditional effect whose condition mentions an action parameter that is not in the effect) passes `JoinRule.validate`, but `variables_to_numbers` numbers variables of the effect only, so that the key ignores the common variable; the exploration then finds atoms that do not follow; `C75_projected_join_fails`. (It never misses one, `C75_complete`.)
* C76: for q(x) ← p(x, x) and the fact p(5, 6) the exploration finds q(5): the rule becomes q(x) ← p(x, x'), x = x', whose join ignores x' (see C75); `C76_duplicates_fail`. Nothing is missed, `C76_explored`.
* C77: if the cost of an action is (distance ?x ?x), the exploration can find an instance whose cost is undefined (because of C76), and the assertion "Could not find instantiation for PNE!" fails; `C77_cost_fails`.
* C78: `simplified` turns (exists (?x - t) (and)) into true and (forall (?x - t) (or)) into false even if the type t has no objects; `C78_empty_type_fails`. PDDL allows a derived predicate to depend on itself below a universal quantifier, but the normalisation then makes it depend on its own negation, so that the axioms cannot be stratified; `C78_universal_fails`.
* C79: `parse_condition` calls `uniquify_variables({})`, without the parameters of the action. In an action with a parameter ?x1 and the precondition (and (exists (?x) (p ?x)) (exists (?x) (q ?x ?x1))) the second ?x is renamed to ?x1, and the precondition becomes (exists (?x1) (q ?x1 ?x1)), which has another meaning; `C79_capture_fails`. The theorem therefore requires that no free variable is called like a quantified variable with a number.
* C80: the balance check of invariants.py is wrong in three cases, each with a task that meets all other conditions and gets a group [at(?X)] of which two atoms are true in a reachable state. (1) `C80_readding_fails`: precondition (and (at ?x) (= ?z ?x)), effects (not (at ?x)), (at ?y), (at ?z): the check for two added atoms sees that at(?z) was true and therefore not new, and the balance check takes the deleted at(?x) as gone although it is added again as at(?z). (2) `C80_types_fail`: precondition (at ?x), effects (forall (?z - t) (not (at ?z))), (at ?y): ?z is matched with ?x although ?x need not have type t. (3) `C80_falsity_fails`: a delete effect with a false condition counts as unconditional, because `get_literals` yields nothing for both.
* C83: the delete-relaxation constraints ignore axioms without an error (the documentation says that axioms are not supported): a task with a derived goal and a plan of one operator gets DEAD_END (`C83_axioms_fails`).
* C84: with vertex elimination the constraints by Rankooh and Rintanen cannot be constructed for a task in which an operator has an effect that is one of its preconditions: the edge is left out of the graph but looked up later, which throws an exception (`C84_created_fails`). With time labels the constraints for such pairs are left out, an operator can support itself, and the value with integers can be below h^+ (`C84_hplus_self_fails`).
* C86: a PDDL file without words and parentheses (for example an empty file) is not reported as a parse error: `next` raises StopIteration, which is not caught (`C86_errors`).
* C88: a condition that is moved below a universal effect can be captured if the quantified variable has the name of a parameter (`C88_capture_fails`); a universal effect in a conjunction below a condition and an action with only a cost effect fail an assertion (`C88_assertions_fail`). With two cost effects in a conjunction only the last one is used (not part of a theorem).
* C89: where only variables are allowed, a list in the place of a variable is not reported as a parse error: `startswith` is called on a list and raises AttributeError (`C89_exception`).
* C71: the total order stores positions of up to (2n-1)(n-1) pairs as scores; above 32768 variables a score can exceed the initial best score INT_MAX, and then no candidate remains (the theorem carries the bound). The documentation says that the orders of components by size use the topological order for ties, but std::sort is not stable, so the theorem only says that they are sorted by size.

Found while reading, recorded in comments or hypotheses:

* The lexer rejects input that consists of white space only; signed infinities, integers that do not fit and floats with a suffix abort.
* Bound 0 with an initial state that is a goal still returns the empty plan.
* `SearchAlgorithm::search` may report TIMEOUT although a solution has been found.
* Weighted evaluators can produce -2, which equals UNINITIALIZED; `plusone` overflows for the cost INT_MAX.
* Enforced hill-climbing tests goals only at the beginning of phases.
* Read access to a `PerStateArray` of a constant object aborts; copies of an `EvaluationContext` share the cache.
* LM-cut requires that preconditions do not repeat facts.
* Merge-and-shrink: shrinking may exceed the target (issue250); distances of exactly INT_MAX are read as infinite; `compute_shrink_sizes` divides by
  zero for empty factors.
* Limited pruning still prunes in the call in which it is switched off.
* Cartesian abstractions: distances of INT_MAX are read as infinite; `reset()` in cost_saturation.cc does not reset a counter for the log.
* Landmark sum: an operator cost of INT_MAX makes a dead end; merged graphs lose the flag `is_true_in_goal` of later graphs; necessary orderings are not
  used by the progression.
* Potential heuristics: conversion of large sums to `int` is undefined; with an unbounded program the old potentials are kept in release builds.
* Operator counting: the state equation asserts `pre != post`; SoPlex with integer variables exits with an error.
* Task reader: derived variables without any axioms are accepted; repeated preconditions are not checked; lines with white space only are skipped,
  also where a name is expected; memory is reserved for announced numbers of entries before they are read.

Assumptions on inputs that theorems make explicit and that the code does not check: well-formed tasks (`Task.WF`), sums of costs that fit into `int`,
evaluator values greater than INT_MIN for the open lists, non-empty lists of evaluators and sublists, preferred operators that are applicable.
Patterns in a clique (C36) may overlap on variables that no operator affects; empty patterns are read out of range by dominance pruning.

## Axioms of each theorem

From `#print axioms` (P = `propext`, C = `Classical.choice`, Q = `Quot.sound`).

* P: `Cart.C41_goals_legal`, `Effects.C88_assertions_fail`, `Evaluators.C30_sum_saturates`, `Iterated.C27_solved_without_plan`, `Mas.C69_overflow`
* P, C, Q: `AdaptiveQueue.C14_adaptive_queue`, `AxiomRules.C74_axioms`, `AxiomRules.C74_complete`, `AxiomRules.C74_defined`, `AxiomRules.C74_layers`, `AxiomRules.C74_max`, `AxiomRules.C74_min`, `AxiomRules.C74_pipeline`, `AxiomRules.C74_plans`, `AxiomRules.C74_plans_kept`, `AxiomRules.C74_states`, `AxiomRules.C74_stratifiable`, `AxiomRules.C74_stratification`, `AxiomRules.C74_stratified`, `AxiomRules.C74_unneeded_unchecked`, `Axioms.C09_axiom_evaluation`, `Bitset.C08_bitset_view`, `Bitset.C08_dynamic_bitset`, `BuildModel.C75_complete`, `BuildModel.C75_exact`, `BuildModel.C75_exploration`, `BuildModel.C75_order`, `Cart.C40_admissible`, `Cart.C40_distances`, `Cart.C40_exact`, `Cart.C40_split_defined`, `Cart.C41_additive`, `Cart.C41_additive_consistent`, `Cart.C41_admissible`, `Cart.C41_consistent`, `Cart.C60_complete`, `Cart.C60_outcome`, `Cart.C60_perfect`, `Counting.C64_admissible_partial`, `Counting.C64_astar`, `Counting.C64_consistent`, `Counting.C64_created`, `Counting.C64_dead_ends`, `Counting.C64_dominates`, `Counting.C64_goal`, `Counting.C64_independent`, `Counting.C64_plans`, `Counting.C64_soplex_two_lmcut_fails`, `Counting.C64_value_partial`, `CountingIF.C83_admissible`, `CountingIF.C83_astar`, `CountingIF.C83_axioms_fails`, `CountingIF.C83_below_hplus`, `CountingIF.C83_consistent`, `CountingIF.C83_created`, `CountingIF.C83_goal`, `CountingIF.C83_hplus`, `CountingIF.C83_hplus_consistent`, `CountingIF.C83_nonneg`, `CountingIF.C83_relaxed_plans`, `CountingIF.C83_step`, `CountingIF.C83_value`, `CountingRR.C84_admissible`, `CountingRR.C84_astar`, `CountingRR.C84_below_hplus`, `CountingRR.C84_consistent`, `CountingRR.C84_created`, `CountingRR.C84_created_fails`, `CountingRR.C84_goal`, `CountingRR.C84_history`, `CountingRR.C84_hplus`, `CountingRR.C84_hplus_consistent`, `CountingRR.C84_hplus_self_fails`, `CountingRR.C84_nonneg`, `CountingRR.C84_step`, `CountingRR.C84_value`, `DefaultAxioms.C54_astar_hmax`, `DefaultAxioms.C54_axioms`, `DefaultAxioms.C54_ff`, `DefaultAxioms.C54_hadd`, `DefaultAxioms.C54_hmax`, `DefaultAxioms.C54_relaxation`, `DefaultAxioms.C54_self_support_fails`, `DomAbs.C45_abstraction`, `DomAbs.C45_plans`, `Driver.C50_meaning`, `Effects.C88_accepts`, `Effects.C88_effects`, `EquivRel.C11_equivalence_relation`, `Evaluators.C29_caching_transparent`, `Evaluators.C30_max`, `Evaluators.C30_sum`, `Evaluators.C30_weighted`, `FactGroups.C72_cover`, `FactGroups.C72_deterministic`, `FactGroups.C72_full`, `FactGroups.C72_greedy`, `FactGroups.C72_groups`, `FactGroups.C72_mutexes`, `FactGroups.C72_nameOk`, `FactGroups.C72_names`, `FactGroups.C72_negative`, `FactGroups.C72_partition`, `FactGroups.C72_plans`, `FactGroups.C72_returns`, `FactGroups.C72_task`, `Hm.C48_admissible`, `Hm.C48_astar`, `Hm.C48_consistent`, `Hm.C48_dead_end`, `Hm.C48_defined`, `Hm.C48_exact`, `Hm.C48_hmax`, `Hm.C48_increasing`, `Hm.C48_unsorted_goals_fail`, `Instantiate.C77Example.C77_cost_fails`, `Instantiate.C77_defined`, `Instantiate.C77_grounded`, `Instantiate.C77_params`, `Instantiate.C77_pipeline`, `Instantiate.C77_plans`, `Instantiate.C77_states`, `Instantiate.C77_unsolvable`, `IntHashSet.C03_documented_limit_fails`, `IntHashSet.C03_hash_set`, `IntHashSet.C03_hash_set_progress`, `IntPacker.C01_int_packer`, `IntPacker.C02_packed_canonical`, `Invariants.C80Counter.C80_falsity_fails`, `Invariants.C80Counter.C80_readding_fails`, `Invariants.C80Counter.C80_types_fail`, `Invariants.C80_find`, `Invariants.C80_form`, `Invariants.C80_groups`, `Invariants.C80_invariant`, `Invariants.C80_invariants`, `Invariants.C81_pipeline`, `Invariants.C81_translate`, `Invariants.C82_file`, `Invariants.C82_translate`, `Iterated.C27_bounds`, `Iterated.C27_defined`, `Iterated.C27_failed`, `Iterated.C27_final_plan`, `Iterated.C27_order`, `Iterated.C27_repeat_diverges`, `Iterated.C27_repeat_last`, `Iterated.C27_result`, `Iterated.C27_saved_plans`, `Iterated.C27_solved`, `Iterated.C27_terminates`, `Iterated.C27_terminates_without_repeat`, `Landmarks.C42_cycles`, `Landmarks.C42_future_complete`, `Landmarks.C42_future_sound`, `Landmarks.C42_optimal_admissible`, `Landmarks.C42_optimal_dominates`, `Landmarks.C42_past`, `Landmarks.C42_preferred`, `Landmarks.C42_sum_dead_ends`, `Landmarks.C42_uniform_admissible`, `Landmarks.C42_uniform_rounding`, `Landmarks.C61_achievers`, `Landmarks.C61_achievers_exact`, `Landmarks.C61_admissible`, `Landmarks.C61_exhaust`, `Landmarks.C61_exhaust_valid`, `Landmarks.C61_exploration`, `Landmarks.C61_overridden_effects_fail`, `Landmarks.C61_same_landmarks`, `Landmarks.C61_zhu_givan`, `Landmarks.C61_zhu_givan_valid`, `Landmarks.C62_admissible`, `Landmarks.C62_merged`, `Landmarks.C62_superset_fails`, `Landmarks.C62_unsupported`, `Landmarks.C62_valid_partial`, `Lex.C46_lexer`, `Lex.C46_lexer_exact`, `Lex.C46_parser`, `Lex.C46_reserved_prefix_fails`, `Lex.C46_round_trip`, `Lex.C46_unambiguous`, `Lisp.C86_errors`, `Lisp.C86_read`, `Lisp.C86_round_trip`, `Lisp.C86_unambiguous`, `LmCut.C33_admissible`, `LmCut.C33_astar_lmcut`, `LmCut.C33_landmarks`, `LmCut.C33_plans_meet_landmarks`, `LmCut.C33_value`, `Mas.C38_admissible`, `Mas.C38_consistent`, `Mas.C38_operations`, `Mas.C38_trivial`, `Mas.C39_goal_below`, `Mas.C39_goal_exact`, `Mas.C39_init_below`, `Mas.C39_init_exact`, `Mas.C57_iteration`, `Mas.C57_limits`, `Mas.C57_max_states`, `Mas.C57_targets`, `Mas.C66_bisimulation`, `Mas.C66_classes`, `Mas.C66_greedy_overflow`, `Mas.C66_irrelevant_collision`, `Mas.C66_perfect`, `Mas.C66_preserves_distances`, `Mas.C69_fh`, `Mas.C69_merge_and_shrink`, `Mas.C69_random`, `Mas.C71_dfp`, `Mas.C71_goal_relevance`, `Mas.C71_linear`, `Mas.C71_precomputed`, `Mas.C71_sccs`, `Mas.C71_selector`, `Mas.C71_single_random`, `Mas.C71_stateless`, `Mas.C71_total_order`, `Mas.C71_views`, `MaxCliques.C12_max_cliques`, `Normalize.C78Example.C78_empty_type_fails`, `Normalize.C78Example.C78_universal_fails`, `Normalize.C78_defined`, `Normalize.C78_pipeline`, `Normalize.C78_plans`, `Normalize.C78_simplify`, `Normalize.C78_task`, `OpenList.C16_best_first`, `OpenList.C16_tiebreaking`, `OpenList.C17_alternation`, `OpenList.C18_pareto_partial`, `OpenList.C19_epsilon_greedy`, `OpenList.C19_type_based`, `OpenList.C20_dead_ends`, `OpenList.C51_open_list_bag`, `OperatorCost.C44_adapted_costs`, `OperatorCost.C44_cost_types`, `OperatorCost.C44_optimal_plans`, `OperatorCost.C44_plan_cost`, `OrderFinder.C70_causal_graph`, `OrderFinder.C70_causal_orders`, `OrderFinder.C70_greedy_pattern`, `OrderFinder.C70_level_orders`, `OrderedSet.C15_ordered_set`, `Pdb.C34_overflow`, `Pdb.C34_ranking`, `Pdb.C35_astar_pdb`, `Pdb.C35_heuristic`, `Pdb.C35_misaligned_fails`, `Pdb.C35_value`, `Pdb.C36_astar`, `Pdb.C36_heuristic`, `Pdb.C36_pruning`, `Pdb.C36_value`, `Pdb.C37_astar`, `Pdb.C37_heuristic`, `Pdb.C37_value`, `Pdb.C53_normalize`, `PerState.C07_per_state_array`, `PerState.C07_per_state_information`, `PerTask.C85_destroyed`, `PerTask.C85_per_task_information`, `PlanFiles.C47_incomplete`, `PlanFiles.C47_injective`, `PlanFiles.C47_numbers`, `PlanFiles.C47_roundtrip`, `PlanFiles.C59_portfolio`, `PlanFiles.C59_run`, `Potentials.C63_all_states`, `Potentials.C63_astar`, `Potentials.C63_characterisation`, `Potentials.C63_diverse`, `Potentials.C63_heuristic`, `Potentials.C63_linear_program`, `Potentials.C63_maximum`, `Potentials.C63_optimal`, `Potentials.C63_optimiser`, `Potentials.C63_tolerance`, `Potentials.C63_tolerance_fails`, `Products.C58_limit`, `Products.C58_limits`, `PrologProgram.C76_bounds`, `PrologProgram.C76_exact`, `PrologProgram.C76_explored`, `PrologProgram.C76_translation`, `PySccs.C13_python_sccs`, `Registry.C05_state_registry`, `Registry.C06_successor_semantics`, `Relax.C23_astar_hmax`, `Relax.C31_hmax_admissible`, `Relax.C31_hmax_consistent`, `Relax.C31_hmax_dead_end`, `Relax.C31_hmax_defined`, `Relax.C31_hmax_exact`, `Relax.C32_ff_relaxed_plan_partial`, `Relax.C32_hadd_dead_end_partial`, `Relax.C32_hadd_exact_partial`, `Relax.C32_large_costs_fail`, `Sampling.C49_choose`, `Sampling.C49_complete`, `Sampling.C49_documented_restart_fails`, `Sampling.C49_sample`, `Sampling.C49_trials`, `SasFile.C55_accepted_partial`, `SasFile.C55_rejected`, `SasFile.C55_round_trip`, `SasFile.C55_truncated`, `SasFile.C55_unchecked_variable`, `SasFile.C82_read`, `Sccs.C13_sccs`, `Search.C21_eager_sound`, `Search.C22_eager_complete`, `Search.C22_eager_complete_bound`, `Search.C22_eager_defined`, `Search.C22_eager_ends`, `Search.C22_eager_finds_plan`, `Search.C22_eager_terminates`, `Search.C23_astar_optimal`, `Search.C23_astar_optimal_cost_type`, `Search.C24_eager_bound_fails`, `Search.C24_eager_bound_partial`, `Search.C24_ehc_bound`, `Search.C24_lazy_bound_fails`, `Search.C24_lazy_bound_partial`, `Search.C25_lazy_complete`, `Search.C25_lazy_complete_bound`, `Search.C25_lazy_defined`, `Search.C25_lazy_ends`, `Search.C25_lazy_finds_plan`, `Search.C25_lazy_sound`, `Search.C25_lazy_terminates`, `Search.C26_ehc_defined`, `Search.C26_ehc_improves`, `Search.C26_ehc_sound`, `Search.C26_ehc_terminates`, `Search.C26_ehc_unsolvable`, `Search.C28_weighted_astar`, `Search.C28_weighted_astar_cost_type`, `Search.C52_non_preferred_dropped`, `Search.C52_rank_preferred_first_fails`, `SegmentedVector.C04_segmented_array_vector`, `SegmentedVector.C04_segmented_vector`, `SimpleHeuristics.C65_blind_admissible`, `SimpleHeuristics.C65_blind_astar`, `SimpleHeuristics.C65_blind_consistent`, `SimpleHeuristics.C65_blind_int_max_fails`, `SimpleHeuristics.C65_blind_value`, `SimpleHeuristics.C65_goal_count`, `SimpleHeuristics.C65_goal_count_admissible`, `SimpleHeuristics.C65_goal_count_inadmissible`, `SimpleHeuristics.C65_modify_costs`, `SimpleHeuristics.C65_modify_costs_inadmissible`, `SimpleHeuristics.C65_modify_costs_types`, `Simplify.C67_facts`, `Simplify.C67_keeping_effects`, `Simplify.C67_plans`, `Simplify.C67_valid`, `Simplify.C67_variables`, `StripsToSas.C73_implied_not_canonical`, `StripsToSas.C73_mutexes`, `StripsToSas.C73_pipeline`, `StripsToSas.C73_plans`, `StripsToSas.C73_valid`, `Stubborn.C43_astar`, `Stubborn.C43_astar_limited`, `Stubborn.C43_defined`, `Stubborn.C43_safe`, `Stubborn.C43_two_effects_fail`, `SuccGen.C10_successor_generator`, `TypedList.C89_errors`, `TypedList.C89_exception`, `TypedList.C89_typed_lists`, `TypedList.C89_unique`, `Types.C87_closure`, `Types.C87_supertypes`, `Uniquify.C79_condition`, `Uniquify.C79_nnf`, `Uniquify.C79_normalize`, `Uniquify.C79_task`, `Uniquify.number_inj`, `VarOrder.C68_keep_no_ops`, `VarOrder.C68_plans`, `VarOrder.C68_valid`, `VarOrder.C68_variables`
* P, Q: `BuildModel.C75_projected_join_fails`, `DefaultAxioms.C54_no_axioms`, `DomAbs.C45_rejected`, `Driver.C50_defined`, `Driver.C50_multiset`, `Driver.C50_unhandled`, `Effects.C88_capture_fails`, `Evaluators.C29_large_estimates_fail`, `Evaluators.C30_max_admissible`, `OpenList.C18_state_uniform_fails`, `OperatorCost.C44_axioms_free`, `OperatorCost.C44_plan_cost_types`, `OperatorCost.C44_same_plans`, `PlanFiles.C47_cost`, `PlanFiles.C47_cost_defined`, `PrologProgram.C76_duplicates_fail`, `Stubborn.C43_limited_switch`, `Uniquify.C79Example.C79_capture_fails`
* none: `EquivRel.C11_duplicates_over_refine`, `EquivRel.C11_no_elements`
