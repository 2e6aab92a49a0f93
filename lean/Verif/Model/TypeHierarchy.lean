import Mathlib.Data.List.Dedup

/-
Model of the transitive closure of the type hierarchy of a PDDL domain: src/translate/graph.py (`transitive_closure`) and src/translate/pddl_parser/parsing_functions.py (`set_supertypes`).

Simplifications: names are of any type; sets and dictionaries are lists (the order of the sources does not matter because the result is sorted); the loop over pending nodes gets a bound on the number of steps, and `none` if it
is reached, which never happens (see C87_closure).
-/
namespace Verif.Types

variable {α : Type} [DecidableEq α]

/-- src/translate/graph.py:12-16: `successors` -/
def successors (pairs : List (α × α)) (u : α) : List α := (pairs.filter (fun e => e.1 = u)).map (·.2)

/-- src/translate/graph.py:30-34: the loop over the successors, with the reached and pending nodes -/
def visit : List α → List α → List α → List α × List α
  | [], reached, pending => (reached, pending)
  | v :: vs, reached, pending => if v ∈ reached then visit vs reached pending else visit vs (v :: reached) (v :: pending)

/-- src/translate/graph.py:27-34: the loop over the pending nodes; returns the reached nodes -/
def search (pairs : List (α × α)) : Nat → List α → List α → Option (List α)
  | _, reached, [] => some reached
  | 0, _, _ :: _ => none
  | n + 1, reached, current :: pending => search pairs n (visit (successors pairs current) reached pending).1 (visit (successors pairs current) reached pending).2

/-- src/translate/graph.py:18-34: the loop over the sources -/
def fromSources (pairs : List (α × α)) : List α → Option (List (α × α))
  | [] => some []
  | u :: us =>
    match search pairs (pairs.length + 1) [] [u] with
    | none => none
    | some reached => (fromSources pairs us).map (fun r => reached.map (fun v => (u, v)) ++ r)

/-- src/translate/graph.py:6-36 (`transitive_closure`); `le` is the order of pairs -/
def transitiveClosure (le : α × α → α × α → Bool) (pairs : List (α × α)) : Option (List (α × α)) := (fromSources pairs (pairs.map (·.1)).dedup).map (·.mergeSort le)

/-- src/translate/pddl_parser/parsing_functions.py:154-159: the pairs of the types with a base type -/
def childTypes (types : List (α × Option α)) : List (α × α) := types.filterMap (fun t => t.2.map (fun b => (t.1, b)))

/-- src/translate/pddl_parser/parsing_functions.py:150-161 (`set_supertypes`): the names that are stored for the type `u` -/
def supertypes (le : α × α → α × α → Bool) (types : List (α × Option α)) (u : α) : Option (List α) := (transitiveClosure le (childTypes types)).map (fun r => (r.filter (fun e => e.1 = u)).map (·.2))

end Verif.Types
