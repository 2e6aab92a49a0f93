import Verif.Model.IteratedSearch

/-
What iterated search is supposed to do, in terms of the component searches that were run.
-/
namespace Verif.Iterated.Spec

/-- the cost of a plan -/
def planCost (cost : Nat → Nat) (π : List Nat) : Nat := (π.map cost).sum

/-- the plans found by component searches, in this order -/
def found (calls : List Call) : List (List Nat) := calls.filterMap (·.outcome)

/-- the cost of the best plan among `ps`, or `b` if that is smaller -/
def best (cost : Nat → Nat) (b : Int) : List (List Nat) → Int
  | [] => b
  | π :: ps => best cost (min b (planCost cost π)) ps

/-- those plans which are cheaper than `b` and all earlier plans -/
def improving (cost : Nat → Nat) (b : Int) : List (List Nat) → List (List Nat)
  | [] => []
  | π :: ps => if (planCost cost π : Int) < b then π :: improving cost (planCost cost π) ps else improving cost b ps

/-- When iterated search may end with each status: all components have been run and the last one is
not repeated; or a component found a plan and continue_on_solve is off; or a component found none
and continue_on_fail is off. -/
def EndOK {σ : Type} (opts : Options) (k : Nat) (st : St σ) : Status → Prop
  | .inProgress => True
  | .solved => st.plan.isSome = true ∧ k ≤ st.phase ∧ (opts.repeatLast = false ∨ st.lastFound = false) ∨ st.lastFound = true ∧ opts.continueOnSolve = false ∨
      st.lastFound = false ∧ opts.continueOnFail = false ∧ found st.calls ≠ []
  | .failed => st.plan = none ∧ k ≤ st.phase ∧ (opts.repeatLast = false ∨ st.lastFound = false) ∨ st.lastFound = false ∧ opts.continueOnFail = false ∧ found st.calls = []

end Verif.Iterated.Spec
