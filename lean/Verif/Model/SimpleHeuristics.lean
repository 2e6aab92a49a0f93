import Verif.Model.TaskWorld

/-
Model of src/search/heuristics/blind_search_heuristic.cc and goal_count_heuristic.cc.

`none` is an access outside of the state.  The heuristics have no transformed task (`transform=no_transform()`).
-/
namespace Verif.SimpleHeuristics

/-- task_utils/task_properties.cc:77-83 `get_min_operator_cost` -/
def minOperatorCost (ops : List Operator) : Nat := ops.foldl (fun m o => min m o.cost) 2147483647

/-- blind_search_heuristic.cc:24-30 `compute_heuristic` -/
def blind (t : Task) (s : State) : Option Nat :=
  match Search.isGoalState s t.goal with
  | none => none
  | some true => some 0
  | some false => some (minOperatorCost t.ops)

/-- goal_count_heuristic.cc:21-29, the loop -/
def countLoop (s : State) : List Fact → Nat → Option Nat
  | [], n => some n
  | f :: fs, n =>
    match s[f.var]? with
    | none => none
    | some x => if x ≠ f.val then countLoop s fs (n + 1) else countLoop s fs n

/-- goal_count_heuristic.cc:19-30 `compute_heuristic` -/
def goalCount (t : Task) (s : State) : Option Nat := countLoop s t.goal 0

/-- heuristic.cc:72-105 for a value that is not negative: what the search sees; `none` is EvaluationResult::INFTY, which is INT_MAX -/
def seen (h : Nat) : Option Nat := if h = 2147483647 then none else some h

end Verif.SimpleHeuristics
