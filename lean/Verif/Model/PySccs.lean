/-
Model of src/translate/sccs.py `get_sccs_adjacency_list`.

Simplification: dictionaries with vertices as keys are functions.  `none` is an exception (an index or a key that does not exist), or more iterations than the first argument of `run` says.
-/
namespace Verif.PySccs

/-- sccs.py:72-77; `defaultdict(lambda: -1)` for lowlinks -/
structure St where
  indices : Nat → Option Nat
  low : Nat → Int
  stackIdx : Nat → Option Nat
  current : Nat
  stack : List Nat
  sccs : List (List Nat)

/-- entries of iter_stack, with the states BEGIN, CONTINUE and RETURN -/
inductive Frame where
  | begin (v : Nat)
  | cont (v i : Nat)
  | ret (v w i : Nat)

def upd {α : Type} (f : Nat → α) (a : Nat) (b : α) : Nat → α := fun x => if x = a then b else f x

/-- sccs.py:91-96 -/
def enter (v : Nat) (p : St) : St :=
  { p with current := p.current + 1, indices := upd p.indices v (some (p.current + 1)), low := upd p.low v ((p.current + 1 : Nat) : Int), stackIdx := upd p.stackIdx v (some p.stack.length), stack := p.stack ++ [v] }

/-- sccs.py:103-108: the component is complete; deletion fails if a key does not exist -/
def finish (v : Nat) (p : St) : Option St :=
  match p.stackIdx v with
  | none => none
  | some j =>
    if (p.stack.drop j).all (fun n => (p.stackIdx n).isSome) then
      some { p with stackIdx := fun u => if u ∈ p.stack.drop j then none else p.stackIdx u, stack := p.stack.take j, sccs := p.sccs ++ [p.stack.drop j] }
    else none

/-- sccs.py:101-108: after the last successor -/
def leave (v : Nat) (p : St) : Option St :=
  match p.indices v with
  | none => none
  | some k => if p.low v = (k : Int) then finish v p else some p

/-- sccs.py:114-116: a successor that has been visited -/
def seen (v w k : Nat) (p : St) : St :=
  match p.stackIdx w with
  | none => p
  | some _ => { p with low := upd p.low v (min (p.low v) (k : Int)) }

/-- sccs.py:99-118 CONTINUE -/
def continueAt (graph : List (List Nat)) (v i : Nat) (fs : List Frame) (p : St) : Option (List Frame × St) :=
  match graph[v]? with
  | none => none
  | some succs =>
    if i = succs.length then (leave v p).map (fun p' => (fs, p'))
    else
      match succs[i]? with
      | none => none
      | some w =>
        match p.indices w with
        | none => some (.begin w :: .ret v w i :: fs, p)
        | some k => some (.cont v (i + 1) :: fs, seen v w k p)

/-- sccs.py:88-121: one iteration -/
def step (graph : List (List Nat)) : Frame → List Frame → St → Option (List Frame × St)
  | .begin v, fs, p => some (.cont v 0 :: fs, enter v p)
  | .cont v i, fs, p => continueAt graph v i fs p
  | .ret v w i, fs, p => some (.cont v (i + 1) :: fs, { p with low := upd p.low v (min (p.low v) (p.low w)) })

/-- sccs.py:85-121 the loop of `visit` -/
def run (graph : List (List Nat)) : Nat → List Frame → St → Option St
  | _, [], p => some p
  | 0, _ :: _, _ => none
  | k + 1, f :: fs, p =>
    match step graph f fs p with
    | none => none
    | some (fs', p') => run graph k fs' p'

/-- sccs.py:79-81 -/
def outer (graph : List (List Nat)) (fuel : Nat) : List Nat → St → Option St
  | [], p => some p
  | v :: vs, p =>
    match p.indices v with
    | some _ => outer graph fuel vs p
    | none =>
      match run graph fuel [.begin v] p with
      | none => none
      | some p' => outer graph fuel vs p'

/-- sccs.py:72-83 `get_result` -/
def getSccs (graph : List (List Nat)) (fuel : Nat) : Option (List (List Nat)) :=
  match outer graph fuel (List.range graph.length) { indices := fun _ => none, low := fun _ => -1, stackIdx := fun _ => none, current := 0, stack := [], sccs := [] } with
  | none => none
  | some p => some p.sccs.reverse

/-- as many iterations as the size of the graph allows -/
def bound (graph : List (List Nat)) : Nat := (graph.map (fun succs => 2 * succs.length + 2)).sum

end Verif.PySccs
