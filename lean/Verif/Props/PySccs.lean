import Verif.Lemmas.PySccs
import Verif.Props.Sccs

/-
C13: strongly connected components, in the translator.
-/
namespace Verif.PySccs
open Verif.Sccs (Edge Reach)

/-- C13 for sccs.py.  For every directed graph (whose edges lead to existing vertices) the algorithm of the translator, which has an explicit stack, ends without an exception after at most twice as many iterations
as there are vertices and edges; the components are nonempty, contain every vertex exactly once in total; two vertices are in the same component if and only
if each is reachable from the other; and no edge leads from a component to one listed before it.  (The result is the same as that of the search component.) -/
theorem C13_python_sccs (graph : List (List Nat)) (hg : ∀ succs ∈ graph, ∀ w ∈ succs, w < graph.length) :
    ∃ out, getSccs graph (bound graph) = some out ∧ Sccs.computeMaximalSccs graph graph.length = some out ∧
      (∀ c ∈ out, c ≠ []) ∧ out.flatten.Nodup ∧ (∀ v, v ∈ out.flatten ↔ v < graph.length) ∧
      (∀ c ∈ out, ∀ v ∈ c, ∀ w, w ∈ c ↔ Reach graph v w ∧ Reach graph w v) ∧
      out.Pairwise (fun c d => ∀ v ∈ d, ∀ w ∈ c, ¬ Edge graph v w) := by
  obtain ⟨out, h1, h2⟩ := Sccs.C13_sccs graph hg
  exact ⟨out, getSccs_eq h1, h1, h2⟩

example : ∀ succs ∈ Sccs.exGraph, ∀ w ∈ succs, w < Sccs.exGraph.length := by decide
example : getSccs Sccs.exGraph (bound Sccs.exGraph) = some [[5], [0, 1], [2, 3, 4]] := by decide +kernel

end Verif.PySccs
