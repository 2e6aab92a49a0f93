import Verif.Spec.Cartesian

/-
Landmarks, orderings of landmarks and achievers: what they say about the plans of a task.
-/
namespace Verif

/-- A run of the task from `s` to `u`: the operators that are applied one after the other, each with the state it leads to. -/
inductive Task.Run (t : Task) : State → List (Nat × State) → State → Prop where
  | nil (s) : Task.Run t s [] s
  | cons (s i s' r u) : t.Step s i s' → Task.Run t s' r u → Task.Run t s ((i, s') :: r) u

/-- the states of a run from `s` in their order; the state with number `k` is reached after `k` steps -/
def runStates (s : State) (r : List (Nat × State)) : List State := s :: r.map (·.2)

/-- a run from `s` that ends in a goal state -/
def Task.GoalRun (t : Task) (s : State) (r : List (Nat × State)) : Prop := ∃ u, t.Run s r u ∧ allHold t.goal u

namespace Landmarks

/-- the three kinds of landmarks (landmark.h:21) -/
inductive LandmarkType where
  | disjunctive | atomic | conjunctive
deriving DecidableEq, Repr

/-- The formula `L` (a set of states) holds in state number `k`. -/
def HoldsAt (L : State → Prop) (ss : List State) (k : Nat) : Prop := ∃ s, ss[k]? = some s ∧ L s

/-- `L` holds in state number `k`, and in none of the states before it -/
def FirstAt (L : State → Prop) (ss : List State) (k : Nat) : Prop := HoldsAt L ss k ∧ ∀ j < k, ¬HoldsAt L ss j

/-- `L` becomes true in state number `k`; a formula that holds in the first state becomes true there -/
def AddedAt (L : State → Prop) (ss : List State) (k : Nat) : Prop := HoldsAt L ss k ∧ ∀ j, j + 1 = k → ¬HoldsAt L ss j

/-- on every plan, `L` holds in some state -/
def IsLandmark (t : Task) (L : State → Prop) : Prop := ∀ r, t.GoalRun t.init r → ∃ k, HoldsAt L (runStates t.init r) k

/-- `L` holds in all goal states -/
def IsGoalLandmark (t : Task) (L : State → Prop) : Prop := ∀ s, t.ValidState s → allHold t.goal s → L s

/-- the four kinds of orderings (landmark_graph.h:16) -/
inductive OrderingType where
  | reasonable | natural | greedyNecessary | necessary
deriving DecidableEq, Repr

/-- What an ordering between `A` and `B` says about the plans of the task.  Natural: `A` holds some time before `B` holds for
the first time.  Greedy-necessary: `A` holds immediately before `B` holds for the first time.  Necessary: `A` holds immediately
before `B`, whenever `B` becomes true.  Reasonable: if `B` becomes true before `A` holds for the first time (or at the same
time), then `B` becomes true when `A` first holds or later. -/
def Ordering.Valid (t : Task) (A B : State → Prop) : OrderingType → Prop
  | .natural => ∀ r, t.GoalRun t.init r → ∀ k, FirstAt B (runStates t.init r) k → ∃ j < k, HoldsAt A (runStates t.init r) j
  | .greedyNecessary => ∀ r, t.GoalRun t.init r → ∀ k, FirstAt B (runStates t.init r) k → ∃ j, j + 1 = k ∧ HoldsAt A (runStates t.init r) j
  | .necessary => ∀ r, t.GoalRun t.init r → ∀ k, AddedAt B (runStates t.init r) k → ∃ j, j + 1 = k ∧ HoldsAt A (runStates t.init r) j
  | .reasonable => ∀ r, t.GoalRun t.init r → ∀ i j, AddedAt B (runStates t.init r) i → FirstAt A (runStates t.init r) j → i ≤ j →
      ∃ k, j ≤ k ∧ AddedAt B (runStates t.init r) k

/-- on every plan from `s`, `L` becomes true in some state after `s` -/
def MustAchieve (t : Task) (s : State) (L : State → Prop) : Prop := ∀ r, t.GoalRun s r → ∃ k, AddedAt L (runStates s r) (k + 1)

/-- the operators with numbers in `ops` are all that can make `L` true on a plan -/
def PossibleAchievers (t : Task) (L : State → Prop) (ops : Nat → Prop) : Prop :=
  ∀ r, t.GoalRun t.init r → ∀ k i s', r[k]? = some (i, s') → AddedAt L (runStates t.init r) (k + 1) → ops i

/-- the operators with numbers in `ops` are all that can make `L` true for the first time on a plan -/
def FirstAchievers (t : Task) (L : State → Prop) (ops : Nat → Prop) : Prop :=
  ∀ r, t.GoalRun t.init r → ∀ k i s', r[k]? = some (i, s') → FirstAt L (runStates t.init r) (k + 1) → ops i

/-- What the search tells a landmark heuristic: that it starts in the initial state, or that the operator `op` leads from the
state `parent` to the state `child`. -/
inductive Event where
  | initial
  | transition (parent : State) (op : Nat) (child : State)
deriving DecidableEq, Repr

/-- the search only reports transitions of the task -/
def Event.Legal (t : Task) : Event → Prop
  | .initial => True
  | .transition p i s => t.ValidState p ∧ t.ValidState s ∧ t.Step p i s

/-- the events in which the search reports the steps of a run from `s` -/
def stepEvents : State → List (Nat × State) → List Event
  | _, [] => []
  | s, (i, s') :: r => .transition s i s' :: stepEvents s' r

/-- The search has reported the start and all steps of a run from the initial state to `s`, one after the other, possibly with
other reports between them. -/
def Observed (t : Task) (es : List Event) (r : List (Nat × State)) (s : State) : Prop :=
  t.Run t.init r s ∧ (Event.initial :: stepEvents t.init r).Sublist es

end Landmarks
end Verif
