import Verif.Model.MasFts
import Verif.Model.Sccs
import Verif.Model.VariableOrderFinder
import Mathlib.Data.Rat.Defs
import Mathlib.Algebra.Order.Ring.Unbundled.Rat

/-
Model of the merge strategies in src/search/merge_and_shrink: merge_tree.cc, merge_tree_factory_linear.cc, merge_strategy_precomputed.cc, merge_selector.cc, merge_selector_score_based_filtering.cc, merge_scoring_function_{dfp,goal_relevance,single_random,total_order}.cc, merge_strategy_stateless.cc, merge_strategy_sccs.cc, merge_strategy_factory_sccs.cc.

Scores of type double are rational numbers.  Log output is left out.  MergeTree::update and the version of compute_merge_tree for a subset of the factors are not used by the planner and not modelled; merge_scoring_function_miasm.cc is covered by arbitrary scoring functions.
-/
namespace Verif.Mas

/-- the result of asking for the next merge: undefined behaviour or a failed assertion, exit with SEARCH_CRITICAL_ERROR, or a value -/
inductive Chosen (α : Type) where
  | ub
  | criticalError
  | ok (a : α)
deriving DecidableEq

/-! ### precomputed merge trees -/

/-- merge_tree.h:20-49: a node has no children or two children; only nodes without children have an index -/
inductive MergeTree where
  | leaf (index : Nat)
  | node (left right : MergeTree)
deriving DecidableEq

/-- merge_tree.cc:52-79, 147-150: get_left_most_sibling and erase_children_and_set_index; asserts that the tree is not a leaf -/
def MergeTree.nextMerge (new : Nat) : MergeTree → Option ((Nat × Nat) × MergeTree)
  | .leaf _ => none
  | .node (.leaf a) (.leaf b) => some ((a, b), .leaf new)
  | .node (.leaf a) (.node r1 r2) =>
    match MergeTree.nextMerge new (.node r1 r2) with
    | none => none
    | some (p, r) => some (p, .node (.leaf a) r)
  | .node (.node l1 l2) r =>
    match MergeTree.nextMerge new (.node l1 l2) with
    | none => none
    | some (p, l) => some (p, .node l r)

/-- merge_tree_factory_linear.cc:32-36; the first call of next() asserts that there is a variable -/
def linearTree : List Nat → Option MergeTree
  | [] => none
  | v :: vs => some (vs.foldl (fun t w => .node t (.leaf w)) (.leaf v))

/-- is_active: factored_transition_system.cc:239-242 -/
def FTS.active (F : FTS) (i : Nat) : Bool := (F.factor i).isSome

/-- merge_strategy_precomputed.cc:16-23 get_next -/
def precomputedNext (T : MergeTree) (F : FTS) : Chosen ((Nat × Nat) × MergeTree) :=
  match T.nextMerge F.factors.length with
  | none => .ub
  | some (p, T') => if F.active p.1 && F.active p.2 then .ok (p, T') else .ub

/-! ### scoring functions -/

/-- merge_scoring_function.h:25-27 compute_scores: the scores of the candidates; undefined for candidates that break an assertion.  A scoring function that uses random numbers may return anything it can return for the factored transition system, which is a different one in every call. -/
abbrev Scoring := FTS → List (Nat × Nat) → Option (List ℚ)

/-- a scoring function that computes the score of every candidate on its own -/
def perPair (g : FTS → Nat × Nat → Option ℚ) : Scoring := fun F cands => mapAll (g F) cands

/-- all pairs of elements of a list, in order: the nested loops of merge_scoring_function_total_order.cc:111-116, merge_selector.cc:20-29 and merge_strategy_sccs.cc:61-69 -/
def allPairs : List Nat → List (Nat × Nat)
  | [] => []
  | a :: l => l.map (fun b => (a, b)) ++ allPairs l

/-- merge_scoring_function_total_order.h:17-27 -/
inductive AtomicOrder where
  | reverseLevel
  | level
  | random
deriving DecidableEq

inductive ProductOrder where
  | oldToNew
  | newToOld
  | random
deriving DecidableEq

/-- the result of shuffling, which must be a permutation -/
def shuffle (perm : List Nat → List Nat) (l : List Nat) : Option (List Nat) := if (perm l).Perm l then some (perm l) else none

/-- merge_scoring_function_total_order.cc:69-79 -/
def atomicTso (n : Nat) (perm : List Nat → List Nat) : AtomicOrder → Option (List Nat)
  | .level => some (List.range n).reverse
  | .random => shuffle perm (List.range n)
  | .reverseLevel => some (List.range n)

/-- merge_scoring_function_total_order.cc:81-90: the numbers from num_variables to 2 * num_variables - 2 -/
def productTso (n : Nat) (perm : List Nat → List Nat) : ProductOrder → Option (List Nat)
  | .newToOld => some (List.range' n (n - 1)).reverse
  | .random => shuffle perm (List.range' n (n - 1))
  | .oldToNew => some (List.range' n (n - 1))

/-- merge_scoring_function_total_order.cc:92-117: merge_candidate_order -/
def candidateOrder (n : Nat) (ao : AtomicOrder) (po : ProductOrder) (atomicFirst : Bool) (perm : List Nat → List Nat) : Option (List (Nat × Nat)) :=
  match atomicTso n perm ao, productTso n perm po with
  | some a, some p => some (allPairs (if atomicFirst then a ++ p else p ++ a))
  | _, _ => none

/-- merge_scoring_function_total_order.cc:42-57: the position of the candidate or its reverse; asserts that there is one -/
def orderScore (order : List (Nat × Nat)) (c : Nat × Nat) : Option ℚ :=
  (order.findIdx? (fun o => decide ((o.1 = c.1 ∧ o.2 = c.2) ∨ (o.2 = c.1 ∧ o.1 = c.2)))).map (fun i => (i : ℚ))

/-- merge_scoring_function_total_order.cc:31-60 -/
def totalOrder (order : List (Nat × Nat)) : Scoring := perPair (fun _ => orderScore order)

/-- merge_scoring_function_single_random.cc:22-37; the random index is a parameter, random(n) returns a number less than n -/
def singleRandom (draw : FTS → List (Nat × Nat) → Nat) : Scoring := fun F cands =>
  if draw F cands < cands.length then some ((List.range cands.length).map (fun i => if i = draw F cands then 0 else (inf : ℚ))) else none

/-- merge_and_shrink/utils.cc:189-197 is_goal_relevant -/
def isGoalRelevant (T : TS) : Bool := T.goals.any (fun g => !g)

/-- merge_scoring_function_goal_relevance.cc:21-27: goal_relevant; undefined for an index out of range -/
def goalRelevantAt (F : FTS) (i : Nat) : Option Bool :=
  match F.factors[i]? with
  | none => none
  | some none => some false
  | some (some f) => some (isGoalRelevant f.ts)

/-- merge_scoring_function_goal_relevance.cc:31-39 -/
def goalScore (F : FTS) (c : Nat × Nat) : Option ℚ :=
  match goalRelevantAt F c.1, goalRelevantAt F c.2 with
  | some a, some b => some (if a || b then 0 else (inf : ℚ))
  | _, _ => none

/-- merge_scoring_function_goal_relevance.cc:17-41 -/
def goalRelevance : Scoring := perPair goalScore

/-- merge_scoring_function_dfp.cc:31-45: group_relevant -/
def groupRelevant (T : TS) (i : LocalLabel) : Bool :=
  if i.transitions.length = T.size then i.transitions.any (fun tr => tr.2 != tr.1) else true

/-- merge_scoring_function_dfp.cc:49-52 -/
def minTarget (h : List Nat) : List (Nat × Nat) → Nat → Option Nat
  | [], r => some r
  | tr :: trs, r =>
    match h[tr.2]? with
    | none => none
    | some d => minTarget h trs (min r d)

/-- merge_scoring_function_dfp.cc:29-53: label_rank; `some none` is -1 -/
def groupRank (T : TS) (h : List Nat) (i : LocalLabel) : Option (Option Nat) :=
  if groupRelevant T i then (minTarget h i.transitions inf).map some else some none

/-- merge_scoring_function_dfp.cc:54-56 -/
def setRanks (r : Option Nat) : List Nat → List (Option Nat) → Option (List (Option Nat))
  | [], ranks => some ranks
  | l :: ls, ranks => if l < ranks.length then setRanks r ls (ranks.set l r) else none

/-- merge_scoring_function_dfp.cc:25-57 -/
def rankLoop (T : TS) (h : List Nat) : List LocalLabel → List (Option Nat) → Option (List (Option Nat))
  | [], ranks => some ranks
  | i :: is, ranks =>
    match groupRank T h i with
    | none => none
    | some r =>
      match setRanks r i.labels ranks with
      | none => none
      | some ranks => rankLoop T h is ranks

/-- merge_scoring_function_dfp.cc:16-60 compute_label_ranks; asserts that the goal distances have been computed -/
def labelRanks (F : FTS) (i : Nat) : Option (List (Option Nat)) :=
  match F.factor i with
  | none => none
  | some f =>
    match f.dist.goal with
    | none => none
    | some h => rankLoop f.ts h f.ts.infos (List.replicate F.labels.costs.length none)

/-- merge_scoring_function_dfp.cc:91-99: pair_weight -/
def pairWeight : List (Option Nat) → List (Option Nat) → Nat → Nat
  | some a :: as, some b :: bs, w => pairWeight as bs (min w (max a b))
  | _ :: as, _ :: bs, w => pairWeight as bs w
  | _, _, w => w

/-- merge_scoring_function_dfp.cc:77-101 for a candidate; that ranks are computed only once is not modelled, they do not change -/
def dfpScore (F : FTS) (c : Nat × Nat) : Option ℚ :=
  match labelRanks F c.1, labelRanks F c.2 with
  | some a, some b => some (pairWeight a b inf : ℚ)
  | _, _ => none

/-- merge_scoring_function_dfp.cc:67-103 -/
def dfp : Scoring := perPair dfpScore

/-! ### score-based filtering -/

/-- merge_selector_score_based_filtering.cc:23-28 -/
def bestScore (scores : List ℚ) : ℚ := scores.foldl (fun b s => if s < b then s else b) (inf : ℚ)

/-- merge_selector_score_based_filtering.cc:19-37 get_remaining_candidates -/
def remainingCandidates (cands : List (Nat × Nat)) (scores : List ℚ) : Option (List (Nat × Nat)) :=
  if cands.length = scores.length then some (((cands.zip scores).filter (fun c => c.2 = bestScore scores)).map (·.1)) else none

/-- merge_selector_score_based_filtering.cc:42-50 -/
def filterLoop (F : FTS) : List Scoring → List (Nat × Nat) → Option (List (Nat × Nat))
  | [], cands => some cands
  | f :: fs, cands =>
    match f F cands with
    | none => none
    | some scores =>
      match remainingCandidates cands scores with
      | none => none
      | some cands => if cands.length = 1 then some cands else filterLoop F fs cands

/-- merge_selector_score_based_filtering.cc:39-61 select_merge_from_candidates -/
def selectMerge (fs : List Scoring) (F : FTS) (cands : List (Nat × Nat)) : Chosen (Nat × Nat) :=
  match filterLoop F fs cands with
  | none => .ub
  | some [] => .ub
  | some [c] => .ok c
  | some (_ :: _ :: _) => .criticalError

/-- merge_selector.cc:14-40, merge_strategy_stateless.cc:14-16; the strategy has no state -/
def statelessNext (fs : List Scoring) (_ : Unit) (F : FTS) : Chosen ((Nat × Nat) × Unit) :=
  match selectMerge fs F (allPairs F.indices) with
  | .ub => .ub
  | .criticalError => .criticalError
  | .ok p => .ok (p, ())

/-! ### merging along strongly connected components -/

/-- merge_strategy_sccs.h:11-15 -/
structure SccState where
  sccs : List (List Nat)
  current : List Nat
deriving DecidableEq

/-- merge_strategy_sccs.cc:29-54: the new value of current_ts_indices and non_singleton_cg_sccs -/
def sccIndices (st : SccState) (F : FTS) : SccState :=
  match st.current, st.sccs with
  | [], [] => ⟨[], F.indices⟩
  | [], c :: cs => ⟨cs, c⟩
  | _ :: _, _ => ⟨st.sccs, st.current ++ [F.factors.length - 1]⟩

/-- merge_strategy_sccs.cc:56-84 -/
def sccSelect (fs : List Scoring) (F : FTS) (st : SccState) : Chosen ((Nat × Nat) × SccState) :=
  if 1 < st.current.length ∧ st.current.all F.active = true then
    match selectMerge fs F (allPairs st.current) with
    | .ub => .ub
    | .criticalError => .criticalError
    | .ok p => .ok (p, ⟨st.sccs, st.current.filter (fun i => !(i == p.1 || i == p.2))⟩)
  else .ub

/-- merge_strategy_sccs.cc:28-85 get_next -/
def sccNext (fs : List Scoring) (st : SccState) (F : FTS) : Chosen ((Nat × Nat) × SccState) := sccSelect fs F (sccIndices st F)

/-- merge_strategy_factory_sccs.h:9-14 -/
inductive SccOrder where
  | topological
  | reverseTopological
  | decreasing
  | increasing
deriving DecidableEq

/-- merge_strategy_factory_sccs.cc:57-72; std::sort is given by its result, which is a sorted permutation (not necessarily a stable one) -/
def orderSccs (sort : List (List Nat) → List (List Nat)) (sccs : List (List Nat)) : SccOrder → Option (List (List Nat))
  | .topological => some sccs
  | .reverseTopological => some sccs.reverse
  | .decreasing => if (sort sccs).Perm sccs ∧ (sort sccs).Pairwise (fun a b => b.length ≤ a.length) then some (sort sccs) else none
  | .increasing => if (sort sccs).Perm sccs ∧ (sort sccs).Pairwise (fun a b => a.length ≤ b.length) then some (sort sccs) else none

/-- merge_strategy_factory_sccs.cc:42-101 compute_merge_strategy: the initial state of the strategy -/
def createSccs (sort : List (List Nat) → List (List Nat)) (ord : SccOrder) (G : OrderFinder.Graph) : Option SccState :=
  match Sccs.computeMaximalSccs G.successors G.successors.length with
  | none => none
  | some sccs =>
    match orderSccs sort sccs ord with
    | none => none
    | some sccs => some ⟨sccs.filter (fun c => c.length ≠ 1), []⟩

end Verif.Mas
