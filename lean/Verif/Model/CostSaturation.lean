import Verif.Model.Cartesian
import Verif.Model.MasDistances

/-
Model of src/search/cartesian_abstractions/cost_saturation.cc and of the heuristic that it computes (additive_cartesian_heuristic.cc).

Limits (numbers of states and transitions, time, memory) only cut off the list of subtasks, so the theorems quantify over lists of subtasks.  `none` is undefined behaviour.
-/
namespace Verif.Cart
open Verif.AdaptiveQueue

/-- utils.h / types.h: INF = numeric_limits<int>::max() -/
abbrev infinite : Nat := Dijkstra.inf

/-- abstract_search.cc:175-180: the transitions of a state with their costs.  A transition of cost INF has no effect: the distance of its target is compared with INF, and no distance is larger. -/
def weighted (trans : Nat → List Trans) (costs : List Nat) (s : Nat) : Option (List (Int × Nat)) :=
  ((trans s).mapM (fun tr => (costs[tr.op]?).map (fun c => ((tr.target : Int), c)))).map (fun l => l.filter (fun e => decide (e.2 ≠ infinite)))

/-- abstract_search.cc:155-188 compute_distances, where `n` is the number of states -/
def computeDistances (H : StdHeap Nat) (n : Nat) (trans : Nat → List Trans) (costs : List Nat) (sources : List Nat) : Option (List Nat) :=
  match Mas.pushSources n H sources ⟨fun _ => infinite, Queue.new⟩ with
  | none => none
  | some st =>
    match Dijkstra.loop H n (weighted trans costs) st with
    | none => none
    | some st => some ((List.range n).map st.dist)

/-- cost_saturation.cc:58-69: the loop over the transitions of a state with goal distance `d` -/
def satOut (h : List Nat) (d : Nat) : List Trans → (Nat → Int) → Option (Nat → Int)
  | [], sc => some sc
  | tr :: trs, sc =>
    match h[tr.target]? with
    | none => none
    | some d' => if d' = infinite then satOut h d trs sc else satOut h d trs (Relax.upd sc tr.op (max (sc tr.op) ((d : Int) - d')))

/-- cost_saturation.cc:71-77: the loops of a state -/
def satLoops (general : Bool) (loops : List Nat) (sc : Nat → Int) : Nat → Int :=
  if general then loops.foldl (fun sc op => Relax.upd sc op (max (sc op) 0)) sc else sc

/-- cost_saturation.cc:43-78: the loop over the states -/
def satStates (general : Bool) (ts : TS) (g h : List Nat) : List Nat → (Nat → Int) → Option (Nat → Int)
  | [], sc => some sc
  | s :: ss, sc =>
    match g[s]?, h[s]? with
    | some gs, some hs =>
      if gs = infinite ∨ hs = infinite then satStates general ts g h ss sc
      else
        match satOut h hs (ts.outgoing s) sc with
        | none => none
        | some sc => satStates general ts g h ss (satLoops general (ts.loops s) sc)
    | _, _ => none

/-- cost_saturation.cc:35-80 compute_saturated_costs -/
def saturatedCosts (general : Bool) (ts : TS) (g h : List Nat) : Option (Nat → Int) :=
  satStates general ts g h (List.range h.length) (fun _ => if general then -(infinite : Int) else 0)

/-- cost_saturation.cc:152-165: the new remaining cost of an operator.  A negative result violates the assertion in line 165 and is treated like an overflow. -/
def reduceCost (remaining : Nat) (saturated : Int) : Option Nat :=
  if remaining = infinite then some remaining
  else if saturated = -(infinite : Int) then some infinite
  else if 0 ≤ (remaining : Int) - saturated ∧ (remaining : Int) - saturated < 2 ^ 31 then some ((remaining : Int) - saturated).toNat
  else none

/-- cost_saturation.cc:148-167 reduce_remaining_costs; `i` is the number of the first operator -/
def reduceCosts (sc : Nat → Int) : Nat → List Nat → Option (List Nat)
  | _, [] => some []
  | i, c :: cs =>
    match reduceCost c (sc i), reduceCosts sc (i + 1) cs with
    | some r, some rs => some (r :: rs)
    | _, _ => none

/-- a heuristic function (cartesian_heuristic_function.h): the hierarchy, the conversion of states to the subtask and the distances -/
structure HFun where
  nodes : List Node
  conv : State → Option State
  h : List Nat

/-- cartesian_heuristic_function.cc:15-19 and refinement_hierarchy.cc:78-82 -/
def HFun.value (f : HFun) (s : State) : Option Nat :=
  match (f.conv s).bind (fun s => lookup f.nodes s 0) with
  | none => none
  | some i => f.h[i]?

/-- a subtask: the conversion of states, and the abstraction that is built for given operator costs (cegar.cc) -/
structure Subtask where
  conv : State → Option State
  build : List Nat → Option Abs

/-- cost_saturation.cc:184-227 build_abstractions: one subtask; the heuristic function and the remaining costs -/
def saturateOne (H : StdHeap Nat) (general : Bool) (sub : Subtask) (costs : List Nat) : Option (HFun × List Nat) :=
  match sub.build costs with
  | none => none
  | some a =>
    match computeDistances H a.states.length a.ts.outgoing costs [a.init], computeDistances H a.states.length a.ts.incoming costs a.goals with
    | some g, some h =>
      match saturatedCosts general a.ts g h with
      | none => none
      | some sc =>
        match reduceCosts sc 0 costs with
        | none => none
        | some costs' => some (⟨a.nodes, sub.conv, h⟩, costs')
    | _, _ => none

/-- cost_saturation.cc:100-140 generate_heuristic_functions, for the subtasks whose abstractions are built -/
def saturate (H : StdHeap Nat) (general : Bool) : List Subtask → List Nat → Option (List HFun)
  | [], _ => some []
  | sub :: subs, costs =>
    match saturateOne H general sub costs with
    | none => none
    | some (f, costs') =>
      match saturate H general subs costs' with
      | none => none
      | some fs => some (f :: fs)

/-- additive_cartesian_heuristic.cc:49-58: the sum, or `some none` for a dead end -/
def sumValues (s : State) : List HFun → Nat → Option (Option Nat)
  | [], acc => some (some acc)
  | f :: fs, acc =>
    match f.value s with
    | none => none
    | some v =>
      if v = infinite then some none
      else if acc + v < 2 ^ 31 then sumValues s fs (acc + v) else none

/-- additive_cartesian_heuristic.cc:47-59 compute_heuristic -/
def additiveValue (fs : List HFun) (s : State) : Option (Option Nat) := sumValues s fs 0

end Verif.Cart
