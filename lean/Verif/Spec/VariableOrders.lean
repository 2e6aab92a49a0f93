import Verif.Spec.SearchCausalGraph
import Verif.Model.VariableOrderFinder

/-
Specification of the orders of variables of the search component.  Of the model, only the enumeration of the types of orders is used.
-/
namespace Verif.OrderFinder

/-- the order of the variables in which candidates are considered -/
def baseOrder (τ : OrderType) (shuffle : List Nat → List Nat) (t : Task) : List Nat :=
  match τ with
  | .cgGoalRandom | .random => shuffle (List.range t.vars.length).reverse
  | .reverseLevel => List.range t.vars.length
  | .cgGoalLevel | .goalCgLevel | .level => (List.range t.vars.length).reverse

/-- the first kind of variables an order type looks for, given the variables chosen before -/
def first (τ : OrderType) (t : Task) (chosen : List Nat) : Nat → Prop :=
  match τ with
  | .cgGoalLevel | .cgGoalRandom => t.Connected chosen
  | .goalCgLevel => t.GoalVar
  | .random | .level | .reverseLevel => fun _ => True

/-- the second kind -/
def second (τ : OrderType) (t : Task) (chosen : List Nat) : Nat → Prop :=
  match τ with
  | .cgGoalLevel | .cgGoalRandom => t.GoalVar
  | .goalCgLevel => t.Connected chosen
  | .random | .level | .reverseLevel => fun _ => False

/-- every variable of the list is the right choice after those before it -/
def Follows (τ : OrderType) (t : Task) (base chosen vs : List Nat) : Prop :=
  ∀ before v after, vs = before ++ v :: after →
    FirstChoice base (chosen ++ before) (first τ t (chosen ++ before)) (second τ t (chosen ++ before)) v

/-- the number of abstract states of the projection to a list of variables -/
def numStates (t : Task) (vs : List Nat) : Nat := (vs.map (fun v => ((t.vars[v]?).map (·.domain)).getD 1)).prod

end Verif.OrderFinder
