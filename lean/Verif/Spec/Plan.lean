import Verif.Spec.Succ
import Mathlib.Algebra.BigOperators.Group.List.Basic

/-
Specification of plans of a planning task, and of operator costs.
-/
namespace Verif

/-- executing the operators with the given indices one after the other leads from `s` to
`u`; each operator is applicable when it is its turn -/
inductive Task.Exec (t : Task) : State → List Nat → State → Prop where
  | nil (s) : Task.Exec t s [] s
  | cons (s i o s' π u) : t.ops[i]? = some o → o.applicable s → t.SuccRel o s s' → Task.Exec t s' π u → Task.Exec t s (i :: π) u

/-- executing `π` in `s` leads to a state in which all goals hold -/
def Task.SolvesFrom (t : Task) (s : State) (π : List Nat) : Prop := ∃ u, t.Exec s π u ∧ allHold t.goal u

/-- `π` is a plan of the task -/
def Task.IsPlan (t : Task) (π : List Nat) : Prop := t.SolvesFrom t.init π

/-- the cost of the operator with index `i` -/
def Task.opCost (t : Task) (i : Nat) : Nat := ((t.ops[i]?).map (·.cost)).getD 0

/-- the cost of a plan -/
def Task.planCost (t : Task) (π : List Nat) : Nat := (π.map t.opCost).sum

/-- the three cost types (operator_cost.h:15) -/
inductive CostType where
  | normal | one | plusone
deriving DecidableEq, Repr

/-- all operators have cost 1 -/
def Task.unitCost (t : Task) : Prop := ∀ o ∈ t.ops, o.cost = 1

instance (t : Task) : Decidable t.unitCost := inferInstanceAs (Decidable (∀ o ∈ t.ops, _))

/-- the cost of an operator under a cost type -/
def Task.costUnder (t : Task) : CostType → Nat → Nat
  | .normal, i => t.opCost i
  | .one, _ => 1
  | .plusone, i => if t.unitCost then 1 else t.opCost i + 1

/-- the cost of a plan under a cost type -/
def Task.planCostUnder (t : Task) (ct : CostType) (π : List Nat) : Nat := (π.map (t.costUnder ct)).sum

/-- the number of assignments of values to the variables -/
def Task.numStates (t : Task) : Nat := (t.vars.map (·.domain)).prod

/-- The bound cannot cut off anything: the g-values of `cost_type=normal` cannot reach it, or
not even a path through all states can. -/
def Task.BoundIrrelevant (t : Task) (ct : CostType) (bound : Int) : Prop :=
  (ct = .normal ∧ (∀ i, t.opCost i < 2 ^ 29) ∧ 2 ^ 30 ≤ bound) ∨ ∃ C : Nat, (∀ i, t.opCost i ≤ C) ∧ t.numStates * C < bound

/-- no path through all states has a cost that exceeds the C++ types -/
def Task.FitsTypes (t : Task) (ct : CostType) : Prop :=
  ∃ C : Nat, (∀ i, t.opCost i ≤ C ∧ t.costUnder ct i ≤ C) ∧ t.numStates * C < 2 ^ 29

end Verif
