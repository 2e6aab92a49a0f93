import Verif.Model.SearchSpace
import Verif.Model.SuccGen
import Verif.Model.Registry
import Verif.Model.OperatorCost

/-
A planning task as seen by a search algorithm.
-/
namespace Verif.Search
open Verif.OperatorCost

/-- task_utils/task_properties.h:18-24: the loop over the goals -/
def isGoalState (s : State) : List Fact → Option Bool
  | [] => some true
  | f :: fs =>
    match s[f.var]? with
    | none => none
    | some x => if x ≠ f.val then some false else isGoalState s fs

/-- what search_algorithm.cc:39-59 sets up: the state registry, the successor generator, the
costs (search_algorithm.cc:112-114).  `useHash` is the choice of switches made by the
successor generator (C10). -/
def World.ofTask (t : Task) (useHash : Nat → Nat → Bool) (ct : CostType) : World State where
  init := t.init
  ops s := SuccGen.generateApplicableOps t useHash s []
  succ s o :=
    match t.ops[o]? with
    | none => none
    | some op => Registry.unregisteredSuccessor t s op
  goal s := isGoalState s t.goal
  cost o := t.opCost o
  adj o := getAdjustedActionCost false (t.opCost o) ct (isUnitCost t.ops)

end Verif.Search
