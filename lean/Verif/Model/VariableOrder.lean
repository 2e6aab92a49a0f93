import Verif.Model.PySccs
import Verif.Model.MasTransition
import Verif.Spec.SasPlans
import Mathlib.Data.List.Dedup

/-
Model of src/translate/variable_order.py: reordering of variables and removal of variables that do not matter for the goal.

`none` is an exception of Python (an index out of range), or more iterations than a loop is allowed in the model.
-/
namespace Verif.VarOrder
open Verif.SasFile
open Verif.Mas (mapAll)

/-! ### causal graph -/

/-- variable_order.py:52-55: variables of prevail conditions and preconditions -/
def sourceVars (o : SasOperator) : List Nat := o.prevail.map (·.var) ++ (o.prePost.filter (fun e => e.pre.isSome)).map (·.var)

/-- variable_order.py:57-61 for one effect: an edge for each increment of a weight -/
def effectEdges (o : SasOperator) (e : PrePost) : List (Nat × Nat) := ((sourceVars o ++ e.conds.map (·.var)).filter (fun u => u ≠ e.var)).map (fun u => (u, e.var))

/-- variable_order.py:51-61 `weight_graph_from_ops` for one operator -/
def operatorEdges (o : SasOperator) : List (Nat × Nat) := o.prePost.flatMap (effectEdges o)

/-- variable_order.py:63-69 `weight_graph_from_axioms` for one axiom -/
def axiomEdges (a : SasAxiom) : List (Nat × Nat) := ((a.conds.map (·.var)).filter (fun u => u ≠ a.effect.var)).map (fun u => (u, a.effect.var))

/-- variable_order.py:27-37: weighted_graph[u][v] is the number of edges from u to v -/
def edges (T : SasTask) : List (Nat × Nat) := T.operators.flatMap operatorEdges ++ T.axioms.flatMap axiomEdges

def weight (es : List (Nat × Nat)) (u v : Nat) : Nat := es.count (u, v)

/-- the sorted keys of weighted_graph[u] -/
def targets (es : List (Nat × Nat)) (u : Nat) : List Nat := (((es.filter (fun e => e.1 == u)).map (·.2)).dedup).insertionSort (· ≤ ·)

/-- variable_order.py:71-76 `get_strongly_connected_components` -/
def components (n : Nat) (es : List (Nat × Nat)) : Option (List (List Nat)) :=
  if es.all (fun e => decide (e.1 < n)) then PySccs.getSccs ((List.range n).map (targets es)) (PySccs.bound ((List.range n).map (targets es))) else none

/-! ### order of a component -/

/-- variable_order.py:89-93 for one target -/
def subEdges (es : List (Nat × Nat)) (goals scc : List Nat) (u v : Nat) : List (Nat × Nat) :=
  if v ∈ scc then (if v ∈ goals then [(v, 100000 + weight es u v), (v, weight es u v)] else [(v, weight es u v)]) else []

/-- variable_order.py:84-93: targets and weights in the subgraph -/
def subgraph (es : List (Nat × Nat)) (goals scc : List Nat) (u : Nat) : List (Nat × Nat) := (targets es u).flatMap (subEdges es goals scc u)

/-- The variables of the loop.  The keys of weight_to_nodes are always those in the heap, so there is one list of keys and queues; the minimum of the heap is the minimal key. -/
structure DagSt where
  incoming : Nat → Int
  buckets : List (Int × List Nat)
  result : List Nat

/-- append to the queue of the key; a new key gets a new queue -/
def addEntry (k : Int) (x : Nat) : List (Int × List Nat) → List (Int × List Nat)
  | [] => [(k, [x])]
  | (k', q) :: bs => if k' = k then (k', q ++ [x]) :: bs else (k', q) :: addEntry k x bs

/-- variable_order.py:136-139 -/
def incomingWeights (g : Nat → List (Nat × Nat)) (scc : List Nat) (v : Nat) : Int := (((scc.flatMap g).filter (fun e => e.1 == v)).map (fun e => (e.2 : Int))).sum

/-- variable_order.py:141-146 -/
def initBuckets (w : Nat → Int) : List Nat → List (Int × List Nat) → List (Int × List Nat)
  | [], bs => bs
  | x :: xs, bs => initBuckets w xs (addEntry (w x) x bs)

/-- variable_order.py:154-156: from the queue entries are taken while the last one is out of date -/
def pickEntry (w : Nat → Int) (done : List Nat) (k : Int) : Option Nat → List Nat → Option Nat × List Nat
  | m, [] => (m, [])
  | none, x :: q => pickEntry w done k (some x) q
  | some m, x :: q => if m ∈ done ∨ w m < k then pickEntry w done k (some x) q else (some m, x :: q)

/-- variable_order.py:157-159: store the rest of the queue, or remove the key -/
def setBucket (k : Int) (q : List Nat) (bs : List (Int × List Nat)) : List (Int × List Nat) :=
  if q = [] then bs.filter (fun b => b.1 ≠ k) else bs.map (fun b => if b.1 = k then (k, q) else b)

/-- variable_order.py:167-179 for one edge -/
def relaxEdge (st : DagSt) (e : Nat × Nat) : DagSt :=
  if e.1 ∈ st.result then st
  else if e.2 % 100000 = 0 then st
  else { st with incoming := fun x => if x = e.1 then st.incoming e.1 - ((e.2 % 100000 : Nat) : Int) else st.incoming x,
                 buckets := addEntry (st.incoming e.1 - ((e.2 % 100000 : Nat) : Int)) e.1 st.buckets }

/-- the minimal key and its queue -/
def minBucket : List (Int × List Nat) → Option (Int × List Nat)
  | [] => none
  | b :: bs => match minBucket bs with | none => some b | some c => if b.1 ≤ c.1 then some b else some c

/-- variable_order.py:160-179: the entry is used unless it is done already -/
def useEntry (g : Nat → List (Nat × Nat)) (st : DagSt) : Option Nat → DagSt
  | none => st
  | some x => if x ∈ st.result then st else (g x).foldl relaxEdge { st with result := st.result ++ [x] }

/-- variable_order.py:150-179 -/
def dagLoop (g : Nat → List (Nat × Nat)) : Nat → DagSt → Option (List Nat)
  | 0, _ => none
  | fuel + 1, st =>
    match minBucket st.buckets with
    | none => some st.result
    | some (k, q) => dagLoop g fuel (useEntry g { st with buckets := setBucket k (pickEntry st.incoming st.result k none q).2 st.buckets } (pickEntry st.incoming st.result k none q).1)

/-- variable_order.py:135-180 `MaxDAG.get_result` -/
def maxDag (g : Nat → List (Nat × Nat)) (scc : List Nat) : Option (List Nat) :=
  dagLoop g (scc.length + (scc.flatMap g).length + 1) ⟨incomingWeights g scc, initBuckets (incomingWeights g scc) scc [], []⟩

/-- variable_order.py:79-97 for one component -/
def orderComponent (es : List (Nat × Nat)) (goals scc : List Nat) : Option (List Nat) :=
  match scc with
  | [] => none
  | [v] => some [v]
  | v :: w :: l => maxDag (subgraph es goals (v :: w :: l)) (v :: w :: l)

/-- variable_order.py:39-43, 78-97 `get_ordering` -/
def getOrdering (n : Nat) (es : List (Nat × Nat)) (goals : List Nat) : Option (List Nat) :=
  match components n es with
  | none => none
  | some cs => (mapAll (orderComponent es goals) cs).map List.flatten

/-! ### important variables -/

/-- predecessor_graph[v]; the order of a set is not specified -/
def preds (es : List (Nat × Nat)) (v : Nat) : List Nat := ((es.filter (fun e => e.2 == v)).map (·.1)).dedup

/-- variable_order.py:109-115 `dfs`; the top of the stack comes first -/
def dfsLoop (es : List (Nat × Nat)) : Nat → List Nat → List Nat → Option (List Nat)
  | _, [], nec => some nec
  | 0, _ :: _, _ => none
  | fuel + 1, v :: stack, nec => if v ∈ nec then dfsLoop es fuel stack nec else dfsLoop es fuel (preds es v ++ stack) (v :: nec)

/-- variable_order.py:99-107 `calculate_important_vars` -/
def important (es : List (Nat × Nat)) : List Fact → List Nat → Option (List Nat)
  | [], nec => some nec
  | f :: fs, nec =>
    if f.var ∈ nec then important es fs nec
    else
      match dfsLoop es es.length (preds es f.var) (f.var :: nec) with
      | none => none
      | some nec' => important es fs nec'

/-! ### applying an order -/

section
variable (order : List Nat)

/-- variable_order.py:192 `new_var`; no variable occurs twice -/
def newVar (v : Nat) : Option Nat := order.idxOf? v

/-- facts of variables that are kept -/
def newFacts (fs : List Fact) : List Fact := fs.filterMap (fun f => (newVar order f.var).map (fun v => ⟨v, f.val⟩))

/-- variable_order.py:240-246 -/
def newEffect (e : PrePost) : Option PrePost := (newVar order e.var).map (fun v => ⟨v, e.pre, e.post, newFacts order e.conds⟩)

/-- variable_order.py:238-252 -/
def newOperator (keepNoOps : Bool) (o : SasOperator) : Option SasOperator :=
  if (o.prePost.filterMap (newEffect order)) = [] ∧ keepNoOps = false then none
  else some ⟨o.name, newFacts order o.prevail, o.prePost.filterMap (newEffect order), o.cost⟩

/-- variable_order.py:259-266 -/
def newAxiom (a : SasAxiom) : Option SasAxiom := (newVar order a.effect.var).map (fun v => ⟨newFacts order a.conds, ⟨v, a.effect.val⟩⟩)

/-- variable_order.py:194-269 `apply_to_task` -/
def applyOrder (keepNoOps : Bool) (T : SasTask) : Option SasTask :=
  match mapAll (fun v => T.variables[v]?) order, mapAll (fun v => T.init[v]?) order with
  | some vars, some init =>
    some { «variables» := vars
           init := init
           goal := (newFacts order T.goal).insertionSort (fun a b => toLex (a.var, a.val) ≤ toLex (b.var, b.val))
           mutexes := (T.mutexes.map (newFacts order)).filter (fun m => decide (1 < ((m.map (·.var)).dedup).length))
           operators := T.operators.filterMap (newOperator order keepNoOps)
           axioms := T.axioms.filterMap (newAxiom order)
           metric := T.metric }
  | _, _ => none

end

/-- variable_order.py:276-284: the order that is used -/
def findOrder (reorder filter : Bool) (T : SasTask) : Option (List Nat) :=
  match (if reorder then getOrdering T.variables.length (edges T) (T.goal.map (·.var)) else some (List.range T.variables.length)) with
  | none => none
  | some order =>
    if filter then
      match important (edges T) T.goal [] with
      | none => none
      | some nec => some (order.filter (fun v => decide (v ∈ nec)))
    else some order

/-- variable_order.py:272-285 `find_and_apply_variable_order` -/
def findAndApply (reorder filter keepNoOps : Bool) (T : SasTask) : Option SasTask :=
  if reorder || filter then
    match findOrder reorder filter T with
    | none => none
    | some order => applyOrder order keepNoOps T
  else some T

end Verif.VarOrder
