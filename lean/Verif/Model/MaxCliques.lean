/-
Model of src/search/algorithms/max_cliques.cc.

`none` is undefined behaviour (an index out of range, or erasing `end()`), or recursion
deeper than the given fuel (the C++ code would overflow its stack for a graph with loops).
-/
namespace Verif.MaxCliques

/-- std::set_intersection on two sorted ranges (used in max_cliques.cc:35-37, 73-75, 80-82) -/
def setIntersection : List Nat → List Nat → List Nat
  | [], _ => []
  | _, [] => []
  | a :: as, b :: bs =>
    if a < b then setIntersection as (b :: bs)
    else if b < a then setIntersection (a :: as) bs
    else a :: setIntersection as bs
termination_by as bs => as.length + bs.length

/-- std::set_difference on two sorted ranges (used in max_cliques.cc:60-62) -/
def setDifference : List Nat → List Nat → List Nat
  | [], _ => []
  | a :: as, [] => a :: as
  | a :: as, b :: bs =>
    if a < b then a :: setDifference as (b :: bs)
    else if b < a then setDifference (a :: as) bs
    else setDifference as bs
termination_by as bs => as.length + bs.length

/-- `v.erase(lower_bound(v.begin(), v.end(), q))` (max_cliques.cc:86) -/
def eraseLowerBound (q : Nat) : List Nat → Option (List Nat)
  | [] => none
  | a :: as => if a < q then (eraseLowerBound q as).map (a :: ·) else some as

/-- max_cliques.cc:31-45: the loop over `subg` -/
def maximizingLoop (graph : List (List Nat)) (cand : List Nat) : List Nat → Nat → Nat → Option Nat
  | [], _, vertex => some vertex
  | v :: vs, max, vertex => do
    let nb ← graph[v]?
    let sz := (setIntersection cand nb).length
    if sz > max then maximizingLoop graph cand vs sz v else maximizingLoop graph cand vs max vertex

/-- max_cliques.cc:20-47 -/
def getMaximizingVertex (graph : List (List Nat)) (subg cand : List Nat) : Option Nat := do
  let v0 ← subg[0]?
  maximizingLoop graph cand subg 0 v0

mutual
/-- max_cliques.cc:49-92; returns the cliques pushed to `max_cliques`; `cur` is
`current_max_clique` -/
def expand (graph : List (List Nat)) : Nat → List Nat → List Nat → List Nat → Option (List (List Nat))
  | 0, _, _, _ => none
  | fuel + 1, cur, subg, cand =>
    if subg.isEmpty then some [cur] else do
      let u ← getMaximizingVertex graph subg cand
      let nb ← graph[u]?
      expandLoop graph fuel cur subg (setDifference cand nb).reverse cand
termination_by fuel _ _ _ => (fuel, 0)

/-- max_cliques.cc:64-90; the list of vertices is `ext_u` from the back -/
def expandLoop (graph : List (List Nat)) : Nat → List Nat → List Nat → List Nat → List Nat → Option (List (List Nat))
  | _, _, _, [], _ => some []
  | fuel, cur, subg, q :: ext, cand => do
    let nb ← graph[q]?
    let out ← expand graph fuel (cur ++ [q]) (setIntersection subg nb) (setIntersection cand nb)
    let cand' ← eraseLowerBound q cand
    let rest ← expandLoop graph fuel cur subg ext cand'
    some (out ++ rest)
termination_by fuel _ _ ext _ => (fuel, ext.length + 1)
end

/-- max_cliques.cc:100-109, 112-116 -/
def computeMaxCliques (graph : List (List Nat)) (fuel : Nat) : Option (List (List Nat)) :=
  expand graph fuel [] (List.range graph.length) (List.range graph.length)

end Verif.MaxCliques
