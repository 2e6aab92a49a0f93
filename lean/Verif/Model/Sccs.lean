/-
Model of src/search/algorithms/sccs.cc.

Simplification: the vectors indexed by vertex are functions; the index is checked against
the number of vertices where the code indexes with a vertex read from the graph.  `none` is
an index out of range or recursion deeper than the fuel.
-/
namespace Verif.Sccs

/-- the variables shared by all recursive calls, sccs.cc:8-11, 44-52 -/
structure St where
  num : Nat → Int
  low : Nat → Int
  idx : Nat → Int
  stack : List Nat
  counter : Int
  sccs : List (List Nat)

def upd (f : Nat → Int) (a : Nat) (b : Int) : Nat → Int := fun x => if x = a then b else f x

/-- sccs.cc:12-15 -/
def enter (v : Nat) (s : St) : St :=
  { s with num := upd s.num v s.counter, low := upd s.low v s.counter, counter := s.counter + 1,
           idx := upd s.idx v s.stack.length, stack := s.stack ++ [v] }

/-- sccs.cc:31-40; the loop in lines 34-37 resets the indices of the popped vertices -/
def close (v : Nat) (vn : Int) (s : St) : St :=
  if s.low v = vn then
    let i := (s.idx v).toNat
    let scc := s.stack.drop i
    { s with idx := fun u => if u ∈ scc then -1 else s.idx u, stack := s.stack.take i, sccs := s.sccs ++ [scc] }
  else s

mutual
/-- sccs.cc:8-41 -/
def dfs (graph : List (List Nat)) : Nat → Nat → St → Option St
  | 0, _, _ => none
  | fuel + 1, v, s => do
    let succs ← graph[v]?
    let s2 ← visit graph fuel v s.counter succs (enter v s)
    some (close v s.counter s2)
termination_by fuel _ _ => (fuel, 0)

/-- sccs.cc:18-29 -/
def visit (graph : List (List Nat)) : Nat → Nat → Int → List Nat → St → Option St
  | _, _, _, [], s => some s
  | fuel, v, vn, w :: ws, s =>
    if graph.length ≤ w then none
    else if s.num w = -1 then do
      let s1 ← dfs graph fuel w s
      visit graph fuel v vn ws { s1 with low := upd s1.low v (min (s1.low v) (s1.low w)) }
    else if s.num w < vn ∧ s.idx w ≠ -1 then
      visit graph fuel v vn ws { s with low := upd s.low v (min (s.low v) (s.num w)) }
    else visit graph fuel v vn ws s
termination_by fuel _ _ ws _ => (fuel, ws.length + 1)
end

/-- sccs.cc:53-58 -/
def outer (graph : List (List Nat)) (fuel : Nat) : List Nat → St → Option St
  | [], s => some s
  | v :: vs, s => if s.num v = -1 then do outer graph fuel vs (← dfs graph fuel v s) else outer graph fuel vs s

/-- sccs.cc:43-62 -/
def computeMaximalSccs (graph : List (List Nat)) (fuel : Nat) : Option (List (List Nat)) := do
  let s ← outer graph fuel (List.range graph.length)
    { num := fun _ => -1, low := fun _ => -1, idx := fun _ => -1, stack := [], counter := 0, sccs := [] }
  some s.sccs.reverse

end Verif.Sccs
