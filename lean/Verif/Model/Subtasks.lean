import Verif.Model.Cegar
import Verif.Model.CostSaturation
import Verif.Model.DomainAbstraction

/-
Model of the subtasks for additive Cartesian heuristics: src/search/cartesian_abstractions/{subtask_generators,cost_saturation}.cc, src/search/tasks/modified_goals_task.cc.

The landmarks and the groups of their predecessors are parameters.  Sorting and shuffling of facts are covered since the theorems are about all lists of subtasks.
-/
namespace Verif.Cart
open Verif.AdaptiveQueue

/-- subtask_generators.cc: the task itself; the task with a single goal fact; the same with combined values -/
inductive SubtaskKind where
  | original
  | fact (f : Fact)
  | combined (f : Fact) (groups : DomAbs.VarToGroups)

/-- modified_goals_task.cc:6-18 -/
def modifiedGoal (t : Task) (f : Fact) : Task := { t with goal := [f] }

/-- subtask_generators.cc:106-114, 124-137, 149-186: the task and the conversion of states -/
def subtaskOf (t : Task) : SubtaskKind → Option (Task × (State → Option State))
  | .original => some (t, some)
  | .fact f => some (modifiedGoal t f, some)
  | .combined f groups => DomAbs.abstractTask (modifiedGoal t f) groups

/-- subtask_generators.cc:49-59, 128-130: the goal facts that do not hold in the initial state -/
def goalFacts (t : Task) : List Fact := t.goal.filter (fun f => decide (¬ f.holds t.init))

/-- cost_saturation.cc:184-209: an abstraction with at most `maxStates` states (at least 1) is built for the subtask; the limits and choices may depend on anything. -/
def cegarSubtask (H : StdHeap Nat) (t : Task) (kind : SubtaskKind) (maxStates : Nat) (sched : List Nat → Schedule) : Subtask :=
  match subtaskOf t kind with
  | none => ⟨fun _ => none, fun _ => none⟩
  | some (t', conv) => ⟨conv, fun costs => (cegar H t' maxStates (sched costs) costs).map (·.1)⟩

end Verif.Cart
