import Verif.Model.MasTransition
import Verif.Spec.Plan

/-
Paths of labelled transition systems and their costs.
-/
namespace Verif.Mas

/-- there is a transition from `a` to `b` in a group of labels of cost `c` -/
def TS.Arc (T : TS) (a b c : Nat) : Prop := ∃ i ∈ T.infos, i.labels ≠ [] ∧ (a, b) ∈ i.transitions ∧ i.cost = c

/-- there is a path from `a` to `b` whose arcs have total cost `k` -/
inductive TS.Path (T : TS) : Nat → Nat → Nat → Prop where
  | nil (a) : Path T a a 0
  | cons (a b u c k) : T.Arc a b c → Path T b u k → Path T a u (c + k)

/-- there is a path of cost `k` from the initial state to `s` -/
def TS.FromInit (T : TS) (s k : Nat) : Prop := ∃ i, T.init = some i ∧ T.Path i s k

/-- there is a path of cost `k` from `s` to a goal state -/
def TS.ToGoal (T : TS) (s k : Nat) : Prop := ∃ g, T.goals[g]? = some true ∧ T.Path s g k

/-- all states mentioned exist -/
structure TS.InRange (T : TS) : Prop where
  init : ∀ i, T.init = some i → i < T.size
  trans : ∀ i ∈ T.infos, ∀ t ∈ i.transitions, t.1 < T.size ∧ t.2 < T.size

/-- the largest int, which stands for infinity -/
def infinity : Nat := 2147483647

/-- `d` is the least cost for which `P` holds, infinity if there is none -/
def Least (P : Nat → Prop) (d : Nat) : Prop := (P d ∧ d < infinity ∧ ∀ k, P k → d ≤ k) ∨ (d = infinity ∧ ∀ k, ¬P k)

/-- `d` is the least cost for which `P` holds among those that are less than infinity, infinity if there is none -/
def LeastBelow (P : Nat → Prop) (d : Nat) : Prop := (P d ∧ d < infinity ∧ ∀ k, P k → d ≤ k) ∨ (d = infinity ∧ ∀ k, P k → infinity ≤ k)

/-- the state has a plan whose cost is less than infinity, even together with the cost of a path from the initial state if `U` is set -/
def Solvable (t : Task) (U : Bool) (s : State) : Prop :=
  ∃ π, t.SolvesFrom s π ∧ t.planCost π < infinity ∧ (U = true → ∃ ρ, t.Exec t.init ρ s ∧ t.planCost ρ + t.planCost π < infinity)

/-- `T` is an abstraction of the task by the mapping `α`, where `α s = some none` means that the state is pruned: operators induce transitions which are not more expensive, goal
states are mapped to goal states, the initial state to the initial state, and only states which are not `Solvable` are pruned -/
structure IsAbstraction (t : Task) (U : Bool) (T : TS) (α : State → Option (Option Nat)) : Prop where
  defined : ∀ s, t.ValidState s → ∃ o, α s = some o ∧ ∀ a, o = some a → a < T.size
  transition : ∀ (i : Nat) (o : Operator) (s s' : State) (a b : Nat), t.ValidState s → t.ops[i]? = some o → o.applicable s → t.SuccRel o s s' → α s = some (some a) → α s' = some (some b) →
    ∃ c, T.Arc a b c ∧ c ≤ t.opCost i
  goal : ∀ (s : State) (a : Nat), t.ValidState s → allHold t.goal s → α s = some (some a) → T.goals[a]? = some true
  init : α t.init = some T.init
  unpruned : ∀ s, t.ValidState s → Solvable t U s → ∃ a, α s = some (some a)

/-- the classes are not empty and contain all of the states -/
def Covers (n : Nat) (rel : List (List Nat)) : Prop := (∀ c ∈ rel, c ≠ []) ∧ ∀ s, s < n → ∃ c ∈ rel, s ∈ c

/-- well-formed tasks whose operator costs are ints and whose effect conditions mention no variable twice -/
structure MasTask (t : Task) : Prop where
  wf : t.WF
  costs : ∀ o ∈ t.ops, o.cost ≤ infinity
  single : ∀ o ∈ t.ops, ∀ e ∈ o.effects, (e.conds.map (·.var)).Nodup

end Verif.Mas
