import Verif.Model.StripsToSas
import Verif.Model.PySccs
import Verif.Model.MasFts
import Mathlib.Data.List.Sort
import Mathlib.Data.List.Dedup

/-
Model of src/translate/axiom_rules.py: axioms that are not needed are removed, the others are simplified, and derived atoms get axiom layers.

Sets of Python are lists without duplicates.
-/
namespace Verif.AxiomRules
open Verif.Strips

/-- the exception of lines 193-194 (ParseError), another exception, or the axioms and the layers -/
inductive Result (α : Type) where
  | notStratifiable
  | error
  | ok (axioms : List (Strips.Rule α)) (layers : List (α × Nat))

section
variable {α : Type} [LinearOrder α]

/-- axiom_rules.py:16 `derived_variables` -/
def derivedVars (axioms : List (Strips.Rule α)) : List α := (axioms.map (·.head)).dedup

/-- axiom_rules.py:19-27: positive_dependencies or (flag) negative_dependencies of a derived variable -/
def dependencies (axioms : List (Strips.Rule α)) (negative : Bool) (p : α) : List α :=
  ((axioms.filter (fun r => r.head == p)).flatMap (fun r => (r.body.filter (fun l => l.negated == negative && (derivedVars axioms).contains l.atom)).map (·.atom))).dedup

/-- axiom_rules.py:85-86: what a derived variable depends on -/
def allDependencies (axioms : List (Strips.Rule α)) (p : α) : List α := dependencies axioms false p ++ dependencies axioms true p

/-- axiom_rules.py:64-80: the derived variables of goals and actions -/
def directlyNecessary (axioms : List (Strips.Rule α)) (goal : List (Literal α)) (actions : List (Action α)) : List α :=
  (((goal.map (·.atom)) ++ actions.flatMap (fun a => a.pre.map (·.atom) ++ (StripsToSas.addEffects a ++ StripsToSas.delEffects a).flatMap (fun e => e.1.map (·.atom)))).filter
    (fun p => (derivedVars axioms).contains p)).dedup

/-- axiom_rules.py:85-89: the body of the loop; the stack has its top first -/
def expand : List α → List α × List α → List α × List α
  | [], s => s
  | q :: qs, s => if q ∈ s.2 then expand qs s else expand qs (q :: s.1, q :: s.2)

/-- axiom_rules.py:82-90: the loop, with at most the given number of iterations -/
def closure (axioms : List (Strips.Rule α)) : Nat → List α → List α → Option (List α)
  | _, [], necessary => some necessary
  | 0, _ :: _, _ => none
  | n + 1, p :: stack, necessary => closure axioms n (expand (allDependencies axioms p) (stack, necessary)).1 (expand (allDependencies axioms p) (stack, necessary)).2

/-- axiom_rules.py:63-90 `compute_necessary_atoms` -/
def necessaryAtoms (axioms : List (Strips.Rule α)) (goal : List (Literal α)) (actions : List (Action α)) : Option (List α) :=
  closure axioms (derivedVars axioms).length (directlyNecessary axioms goal actions) (directlyNecessary axioms goal actions)

/-- axiom_rules.py:98, 104: the number of a variable; `none` is a KeyError -/
def indexOf (vars : List α) (p : α) : Option Nat := vars.findIdx? (· == p)

/-- axiom_rules.py:100-105: the adjacency lists -/
def adjacency (axioms : List (Strips.Rule α)) (vars : List α) : Option (List (List Nat)) :=
  Mas.mapAll (fun p => Mas.mapAll (indexOf vars) ((allDependencies axioms p).dedup.insertionSort (· ≤ ·))) vars

/-- axiom_rules.py:96-109 `get_strongly_connected_components`; `derived` are the derived variables that are left -/
def components (axioms : List (Strips.Rule α)) (derived : List α) : Option (List (List α)) :=
  match adjacency axioms (derived.insertionSort (· ≤ ·)) with
  | none => none
  | some g =>
    match PySccs.getSccs g (PySccs.bound g) with
    | none => none
    | some groups => Mas.mapAll (fun c => Mas.mapAll (fun (i : Nat) => (derived.insertionSort (· ≤ ·))[i]?) c) groups

/-- axiom_rules.py:122: duplicates are removed from the body, and it is sorted by the atoms -/
def cleanBody (r : Strips.Rule α) : Strips.Rule α := ⟨r.body.dedup.insertionSort (fun a b => a.atom ≤ b.atom), r.head⟩

/-- axiom_rules.py:125-132: the axioms (by their numbers) in which the literal occurs, without those that use their own head -/
def byLiteral (axioms : List (Strips.Rule α)) (l : Literal α) : List Nat :=
  (axioms.zipIdx.filter (fun r => !r.1.body.contains ⟨false, r.1.head⟩ && r.1.body.contains l)).map (·.2)

/-- axiom_rules.py:139-142: the numbers of axioms that have all the literals -/
def dominated (axioms : List (Strips.Rule α)) : List (Literal α) → List Nat → List Nat
  | [], d => d
  | l :: ls, d => dominated axioms ls (d.filter (fun i => (byLiteral axioms l).contains i))

/-- axiom_rules.py:134-146: the loop over the axioms; `skip` is axioms_to_skip.  The result are the axioms that are kept. -/
def dominanceLoop (axioms : List (Strips.Rule α)) : List (Strips.Rule α × Nat) → List Nat → List (Strips.Rule α)
  | [], skip => (axioms.zipIdx.filter (fun r => !skip.contains r.2)).map (·.1)
  | (r, i) :: rs, skip =>
    if skip.contains i then dominanceLoop axioms rs skip
    else
      match r.body with
      | [] => [r]
      | l :: ls => dominanceLoop axioms rs (skip ++ (dominated axioms ls (byLiteral axioms l)).filter (fun j => j != i))

/-- axiom_rules.py:114-146 `compute_simplified_axioms` -/
def simplify (axioms : List (Strips.Rule α)) : List (Strips.Rule α) :=
  dominanceLoop (axioms.map cleanBody) (axioms.map cleanBody).zipIdx (((axioms.map cleanBody).zipIdx.filter (fun r => r.1.body.contains ⟨false, r.1.head⟩)).map (·.2))

/-- axiom_rules.py:165-176, 231-236 `get_axioms`: the simplified axioms of a variable -/
def axiomsOf (axioms : List (Strips.Rule α)) (p : α) : List (Strips.Rule α) := simplify (axioms.filter (fun r => r.head == p))

/-- axiom_rules.py:188-195: a variable depends by negation on one of the same cluster -/
def negativeLoop (axioms : List (Strips.Rule α)) (groups : List (List α)) : Bool := groups.any (fun c => c.any (fun p => (dependencies axioms true p).any (fun q => c.contains q)))

/-- the layer of the cluster of a variable; 0 if it was not computed yet -/
def layerIn (layers : List (List α × Nat)) (p : α) : Nat := match layers.find? (fun c => c.1.contains p) with | none => 0 | some c => c.2

/-- axiom_rules.py:201-207 `compute_single_cluster_layer`, with the links of lines 180-195 -/
def clusterLayer (axioms : List (Strips.Rule α)) (c : List α) (layers : List (List α × Nat)) : Nat :=
  (((c.flatMap (dependencies axioms false)).filter (fun q => !c.contains q)).map (layerIn layers) ++ (c.flatMap (dependencies axioms true)).map (fun q => layerIn layers q + 1)).foldl max 0

/-- axiom_rules.py:220-222: the strategy "min"; later clusters first -/
def minLayers (axioms : List (Strips.Rule α)) : List (List α) → List (List α × Nat)
  | [] => []
  | c :: cs => (c, clusterLayer axioms c (minLayers axioms cs)) :: minLayers axioms cs

/-- axiom_rules.py:215-219: the strategy "max"; the last cluster has layer 0 -/
def maxLayers : List (List α) → List (List α × Nat)
  | [] => []
  | c :: cs => (c, cs.length) :: maxLayers cs

/-- axiom_rules.py:214-228 `compute_axiom_layers`; `max` is the strategy -/
def axiomLayers (max : Bool) (axioms : List (Strips.Rule α)) (groups : List (List α)) : List (α × Nat) :=
  (if max then maxLayers groups else minLayers axioms groups).flatMap (fun c => c.1.map (fun p => (p, c.2)))

/-- axiom_rules.py:54-60 `handle_axioms`, 149-197 `compute_clusters` -/
def handleAxioms (max : Bool) (t : StripsTask α) : Result α :=
  match necessaryAtoms t.axioms t.goal t.actions with
  | none => .error
  | some necessary =>
    match components t.axioms ((derivedVars t.axioms).filter (fun p => necessary.contains p)) with
    | none => .error
    | some groups =>
      if negativeLoop t.axioms groups then .notStratifiable
      else .ok (groups.flatMap (fun c => c.flatMap (axiomsOf t.axioms))) (axiomLayers max t.axioms groups)

end
end Verif.AxiomRules
