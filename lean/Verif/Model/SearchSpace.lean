import Verif.Model.OpenList

/-
Model of the search space: src/search/search_space.cc, src/search/search_node_info.h and the
parts of src/search/search_algorithm.cc shared by the search algorithms.

`none` is undefined behaviour, an integer overflow or a failed assertion.
Simplification: state IDs are identified with the states they denote; this is what C05
proves about the state registry.  Per-state information is a total function (C07).
-/
namespace Verif.Search

/-- what a search algorithm sees of a planning task: the successor generator
(task_utils/successor_generator.cc, C10), the successor function of the state registry
(state_registry.cc, C06), the goal test (task_utils/task_properties.h:18-24), the operator
costs and the costs adjusted by `cost_type` (operator_cost.cc:12-35).  Operators are numbers. -/
structure World (S : Type) where
  init : S
  ops : S → Option (List Nat)
  succ : S → Nat → Option S
  goal : S → Option Bool
  cost : Nat → Nat
  adj : Nat → Nat

/-- search_node_info.h:11-16 -/
inductive Status where
  | new | opened | closed | deadEnd
deriving DecidableEq, Repr

/-- search_node_info.h:10-31; `none` is StateID::no_state and OperatorID::no_operator -/
structure NodeInfo (S : Type) where
  status : Status
  g : Int
  parent : Option S
  op : Option Nat
  realG : Int
deriving DecidableEq

/-- search_node_info.h:24-30 -/
def NodeInfo.fresh {S : Type} : NodeInfo S := ⟨.new, -1, none, none, -1⟩

/-- the sum of an int and a cost as an int -/
def plus (a : Int) (c : Nat) : Option Int := if a + c < 2 ^ 31 then some (a + c) else none

variable {S : Type}

def upd [DecidableEq S] {α : Type} (f : S → α) (s : S) (a : α) : S → α := fun x => if x = s then a else f x

/-- search_space.cc:38-41 -/
def NodeInfo.getG (i : NodeInfo S) : Option Int := if 0 ≤ i.g then some i.g else none

/-- search_space.cc:47-54 -/
def openInitial (i : NodeInfo S) : Option (NodeInfo S) :=
  if i.status = .new then some ⟨.opened, 0, none, none, 0⟩ else none

/-- search_space.cc:56-63 for the node of a successor of `s` via `o`, with the new status;
the member `g` is a bit field of 30 bits (search_node_info.h:19) -/
def updateParent (w : World S) (infos : S → NodeInfo S) (s : S) (o : Nat) (st : Status) : Option (NodeInfo S) :=
  match plus (infos s).g (w.adj o), plus (infos s).realG (w.cost o) with
  | some g, some rg => if g < 2 ^ 29 then some ⟨st, g, some s, some o, rg⟩ else none
  | _, _ => none

/-- search_space.cc:65-71 -/
def openNewNode (w : World S) (infos : S → NodeInfo S) (s : S) (o : Nat) (t : S) : Option (NodeInfo S) :=
  if (infos t).status = .new then updateParent w infos s o .opened else none

/-- search_space.cc:73-79 -/
def reopenClosedNode (w : World S) (infos : S → NodeInfo S) (s : S) (o : Nat) (t : S) : Option (NodeInfo S) :=
  if (infos t).status = .closed then updateParent w infos s o .opened else none

/-- search_space.cc:81-86 -/
def updateOpenNodeParent (w : World S) (infos : S → NodeInfo S) (s : S) (o : Nat) (t : S) : Option (NodeInfo S) :=
  if (infos t).status = .opened then updateParent w infos s o .opened else none

/-- search_space.cc:88-93 -/
def updateClosedNodeParent (w : World S) (infos : S → NodeInfo S) (s : S) (o : Nat) (t : S) : Option (NodeInfo S) :=
  if (infos t).status = .closed then updateParent w infos s o .closed else none

/-- search_space.cc:95-98 -/
def closeNode (i : NodeInfo S) : Option (NodeInfo S) :=
  if i.status = .opened then some { i with status := .closed } else none

/-- search_space.cc:100-102 -/
def markDeadEnd (i : NodeInfo S) : NodeInfo S := { i with status := .deadEnd }

/-- search_space.cc:132-140: the loop; the result of an infinite loop is `none` -/
def traceLoop (infos : S → NodeInfo S) (s : S) (path : List Nat) : Option (List Nat) :=
  match (infos s).op with
  | none => some path
  | some o =>
    match (infos s).parent with
    | none => none
    | some p => traceLoop infos p (path ++ [o])
partial_fixpoint

/-- search_space.cc:127-142 -/
def tracePath (infos : S → NodeInfo S) (s : S) : Option (List Nat) := (traceLoop infos s []).map List.reverse

/-- the outcome of a step: search_algorithm.h:28-33 SearchStatus, with the plan set by
check_goal_and_set_plan (search_algorithm.cc:95-104) if solved -/
inductive Res (σ : Type) where
  | inProgress (st : σ)
  | solved (plan : List Nat)
  | failed

/-- search_algorithm.cc:83-90: the main loop with `n` steps, without time limit.  (When the
time limit is hit the loop is left after some number of steps.) -/
def runFor {σ : Type} (step : σ → Option (Res σ)) : Nat → σ → Option (Res σ)
  | 0, st => some (.inProgress st)
  | n + 1, st =>
    match step st with
    | none => none
    | some (.inProgress st') => runFor step n st'
    | some r => some r

end Verif.Search
