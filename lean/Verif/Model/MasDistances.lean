import Verif.Model.MasTransition

/-
Model of src/search/merge_and_shrink/distances.{h,cc}.
-/
namespace Verif.Mas
open Verif.AdaptiveQueue

/-- distances.h:24-28; `none` if the distances have not been computed -/
structure Distances where
  init : Option (List Nat)
  goal : Option (List Nat)
deriving DecidableEq, Repr

/-- distances.cc:32-46, transition_system.h:200-208: iteration over a transition system visits the active local labels -/
def TS.isUnitCost (T : TS) : Bool := (T.infos.filter (·.active)).all (fun i => i.cost == 1)

/-- the transitions with their costs, as (source, target, cost), in the order in which they are visited: distances.cc:66-72, 84-90, 126-134, 146-154 -/
def TS.arcs (T : TS) : List (Nat × Nat × Nat) := (T.infos.filter (·.active)).flatMap (fun i => i.transitions.map (fun t => (t.1, t.2, i.cost)))

/-- distances.cc:125-134: the graph of an arc list; the entry of state `s`.  The state is an int which is converted for the search. -/
def forward (arcs : List (Nat × Nat × Nat)) (s : Nat) : List (Int × Nat) := (arcs.filter (fun a => a.1 = s)).map (fun a => ((a.2.1 : Int), a.2.2))
/-- distances.cc:145-154 -/
def backward (arcs : List (Nat × Nat × Nat)) (s : Nat) : List (Int × Nat) := (arcs.filter (fun a => a.2.1 = s)).map (fun a => ((a.1 : Int), a.2.2))

section
variable (n : Nat)

/-- distances.cc:54-60: the loop over the successors of `s` -/
def bfsRelax (s : Nat) : List Nat → (Nat → Nat) × List Nat → Option ((Nat → Nat) × List Nat)
  | [], st => some st
  | p :: ps, st =>
    if p < n then
      if st.1 s + 1 < 2 ^ 31 then
        if st.1 p > st.1 s + 1 then bfsRelax s ps (Relax.upd st.1 p (st.1 s + 1), st.2 ++ [p])
        else bfsRelax s ps st
      else none
    else none

/-- distances.cc:48-62 -/
def bfs (graph : Nat → List Nat) (st : (Nat → Nat) × List Nat) : Option (Nat → Nat) :=
  match st.2 with
  | [] => some st.1
  | s :: q =>
    match bfsRelax n s (graph s) (st.1, q) with
    | none => none
    | some st => bfs graph st
partial_fixpoint

variable (H : StdHeap Nat)

/-- the pushes of the sources with priority 0: distances.cc:138-140, 158-164 -/
def pushSources : List Nat → Dijkstra.DSt → Option Dijkstra.DSt
  | [], st => some st
  | s :: ss, st =>
    if s < n then
      match st.queue.push H 0 s with
      | none => none
      | some q => pushSources ss ⟨Relax.upd st.dist s 0, q⟩
    else none

/-- the assignments to the sources: distances.cc:74-76, 90-96 -/
def setSources : List Nat → (Nat → Nat) → Option (Nat → Nat)
  | [], d => some d
  | s :: ss, d => if s < n then setSources ss (Relax.upd d s 0) else none

/-- distances.cc:64-78, 80-98, 124-142, 144-166: distances from the sources in a graph, where `out` computes the edges of a state.
The graph is a vector of size `n`; all states which index it must be in range. -/
def searchFrom (unit : Bool) (inRange : Bool) (out : Nat → List (Int × Nat)) (sources : List Nat) : Option (List Nat) :=
  if inRange then
    if unit then
      match setSources n sources (fun _ => inf) with
      | none => none
      | some d =>
        match bfs n (fun s => (out s).map (fun e => e.1.toNat)) (d, sources) with
        | none => none
        | some d => some ((List.range n).map d)
    else
      match pushSources n H sources ⟨fun _ => inf, Queue.new⟩ with
      | none => none
      | some st =>
        match Dijkstra.loop H n (fun s => some (out s)) st with
        | none => none
        | some st => some ((List.range n).map st.dist)
  else none

end

section
variable (H : StdHeap Nat)

/-- distances.cc:64-78, 124-142; undefined if the initial state is pruned -/
def TS.initDistances (T : TS) : Option (List Nat) :=
  match T.init with
  | none => none
  | some i => searchFrom T.size H T.isUnitCost (T.arcs.all (fun a => decide (a.1 < T.size))) (forward T.arcs) [i]

/-- distances.cc:80-98, 144-166 -/
def TS.goalDistances (T : TS) : Option (List Nat) :=
  searchFrom T.size H T.isUnitCost (T.arcs.all (fun a => decide (a.2.1 < T.size))) (backward T.arcs) ((List.range T.size).filter (fun s => T.goals[s]? = some true))

/-- the distances with one of them computed, if requested -/
def computeIf (b : Bool) (f : Option (List Nat)) (old : Option (List Nat)) : Option (Option (List Nat)) :=
  if b then f.map some else some old

/-- distances.cc:168-262 -/
def computeDistances (T : TS) (ci cg : Bool) (d : Distances) : Option Distances :=
  if T.size = 0 then some ⟨some [], some []⟩
  else
    match computeIf ci (T.initDistances H) d.init, computeIf cg (T.goalDistances H) d.goal with
    | some i, some g => some ⟨i, g⟩
    | _, _ => none

/-- distances.cc:293-316: the common value of the states of a class; `none` inside if they differ -/
def classValue (ds : List Nat) : List Nat → Option (Option Nat)
  | [] => none
  | s :: ss =>
    match mapAll (fun x => ds[x]?) (s :: ss) with
    | none => none
    | some vs => some (if vs.all (fun v => some v == vs.head?) then vs.head? else none)

/-- distances.cc:287-327 for one of the two vectors: the new distances; `none` inside if they must be recomputed -/
def newDistances (ds : List Nat) (rel : List (List Nat)) : Option (Option (List Nat)) :=
  match mapAll (classValue ds) rel with
  | none => none
  | some vs => some (mapAll id vs)

/-- the new distances if they are kept at all: distances.cc:268-285, 337-338 -/
def newIf (b : Bool) (ds : Option (List Nat)) (rel : List (List Nat)) : Option (Option (List Nat)) :=
  if b then
    match ds with
    | none => none
    | some ds => newDistances ds rel
  else some (some [])

/-- distances.cc:264-340; `T` is the transition system after the abstraction.  The loops over the two kinds of distances, which the
code interleaves, are separated.  Without the flag a vector becomes empty, but the flag which says that it has been computed is kept; in
the code it is never set then. -/
def Distances.applyAbstraction (d : Distances) (T : TS) (rel : List (List Nat)) (ci cg : Bool) : Option Distances :=
  match newIf ci d.init rel, newIf cg d.goal rel with
  | some (some i), some (some g) => some ⟨if ci then some i else none, if cg then some g else none⟩
  | some _, some _ => computeDistances H T ci cg ⟨none, none⟩
  | _, _ => none

end
end Verif.Mas
