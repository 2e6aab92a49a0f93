import Verif.Spec.Plan

/-
Model of src/search/operator_cost.cc and src/search/tasks/cost_adapted_task.cc.
-/
namespace Verif.OperatorCost

/-- operator_cost.cc:12-26 -/
def adjustedCost (cost : Nat) (ct : CostType) (isUnitCost : Bool) : Nat :=
  match ct with
  | .normal => cost
  | .one => 1
  | .plusone => if isUnitCost then 1 else cost + 1

/-- operator_cost.cc:28-34 -/
def getAdjustedActionCost (isAxiom : Bool) (cost : Nat) (ct : CostType) (isUnitCost : Bool) : Nat :=
  if isAxiom then 0 else adjustedCost cost ct isUnitCost

/-- task_properties.cc:14-20 -/
def isUnitCost : List Operator → Bool
  | [] => true
  | o :: os => if o.cost ≠ 1 then false else isUnitCost os

/-- tasks/cost_adapted_task.cc:20-23; `none` if there is no such operator -/
def costAdaptedOperatorCost (t : Task) (ct : CostType) (index : Nat) (isAxiom : Bool) : Option Nat :=
  ((if isAxiom then t.axioms else t.ops)[index]?).map (fun o => getAdjustedActionCost isAxiom o.cost ct (isUnitCost t.ops))

/-- tasks/cost_adapted_task.cc:13-23: a delegating task which overrides only
get_operator_cost -/
def costAdaptedTask (t : Task) (ct : CostType) : Task :=
  { t with
    ops := t.ops.map (fun o => { o with cost := getAdjustedActionCost false o.cost ct (isUnitCost t.ops) })
    axioms := t.axioms.map (fun o => { o with cost := getAdjustedActionCost true o.cost ct (isUnitCost t.ops) }) }

end Verif.OperatorCost
