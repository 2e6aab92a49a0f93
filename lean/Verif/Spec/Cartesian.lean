import Verif.Spec.Relaxation

/-
Abstractions of planning tasks that are given by a mapping of the states to numbers.
-/
namespace Verif

/-- the tasks for which Cartesian abstractions are supported: no axioms and conditional effects; no variable occurs twice in a precondition, in the effects of an operator or in the goal -/
structure CartesianTask (t : Task) : Prop where
  wf : t.WF
  noAxioms : t.axioms = []
  unconditional : ∀ o ∈ t.ops, ∀ e ∈ o.effects, e.conds = []
  pre : ∀ o ∈ t.ops, (o.pre.map (·.var)).Nodup
  eff : ∀ o ∈ t.ops, (o.effects.map (·.fact.var)).Nodup
  goal : (t.goal.map (·.var)).Nodup

/-- the operator with index `i` is applicable in `s` and leads to `s'` -/
def Task.Step (t : Task) (s : State) (i : Nat) (s' : State) : Prop := ∃ o, t.ops[i]? = some o ∧ o.applicable s ∧ t.SuccRel o s s'

/-- `s` can be reached from the initial state -/
def Task.Reachable (t : Task) (s : State) : Prop := ∃ π, t.Exec t.init π s

/-- The numbers below `n` are the states of an abstraction of the task: `α` maps states to numbers, and `out`, `loop`, `init` and `goal` are the transitions between different abstract
states, the transitions from abstract states to themselves, the initial state and the goal states of the abstraction. -/
structure ExactAbstraction (t : Task) (n : Nat) (α : State → Option Nat) (out : Nat → Nat → Nat → Prop) (loop : Nat → Nat → Prop) (init : Nat) (goal : Nat → Prop) : Prop where
  /-- every state is mapped to one of the abstract states -/
  total : ∀ s, t.ValidState s → ∃ i, i < n ∧ α s = some i
  /-- no abstract state is superfluous -/
  surjective : ∀ i, i < n → ∃ s, t.ValidState s ∧ α s = some i
  /-- the states that are mapped to an abstract state form a Cartesian product of sets of values -/
  cartesian : ∀ i, i < n → ∃ values : Nat → Nat → Prop, ∀ s, t.ValidState s → (α s = some i ↔ ∀ v x, s[v]? = some x → values v x)
  /-- there is a transition between different abstract states if and only if there is one between states that are mapped to them -/
  out : ∀ i op j, out i op j ↔ i ≠ j ∧ ∃ s s', t.ValidState s ∧ t.Step s op s' ∧ α s = some i ∧ α s' = some j
  loop : ∀ i op, loop i op ↔ ∃ s s', t.ValidState s ∧ t.Step s op s' ∧ α s = some i ∧ α s' = some i
  init : α t.init = some init
  /-- an abstract state is a goal if and only if a goal state is mapped to it -/
  goal : ∀ i, goal i ↔ ∃ s, t.ValidState s ∧ allHold t.goal s ∧ α s = some i

/-- there is a path of cost `k` from the abstract state `i` to a goal -/
inductive GoalCost (out : Nat → Nat → Nat → Prop) (goal : Nat → Prop) (cost : Nat → Nat) : Nat → Nat → Prop where
  | goal (i) : goal i → GoalCost out goal cost i 0
  | step (i op j k) : out i op j → GoalCost out goal cost j k → GoalCost out goal cost i (cost op + k)

/-- The fact is a landmark of the delete relaxation that does not hold in the initial state: the goal cannot be reached, not even in the delete relaxation, without operators that have the
fact as an effect. -/
structure RelaxedLandmark (t : Task) (f : Fact) : Prop where
  valid : t.ValidFact f
  init : ¬ f.holds t.init
  landmark : ¬ t.IsRelaxedPlan (fun j => ∀ o, t.ops[j]? = some o → ∀ e ∈ o.effects, e.fact ≠ f) t.init

end Verif
