import Verif.Lemmas.Sccs

/-
C13: strongly connected components.  `Edge` and `Reach` (in Lemmas/Sccs) are the
specification.
-/
namespace Verif.Sccs

/-- C13.  For every directed graph (whose edges lead to existing vertices) the algorithm
terminates, with recursion depth at most the number of vertices; the components are nonempty,
contain every vertex exactly once in total; two vertices are in the same component if and only
if each is reachable from the other; and no edge leads from a component to one listed before
it. -/
theorem C13_sccs (graph : List (List Nat)) (hg : ∀ succs ∈ graph, ∀ w ∈ succs, w < graph.length) :
    ∃ out, computeMaximalSccs graph graph.length = some out ∧
      (∀ c ∈ out, c ≠ []) ∧ out.flatten.Nodup ∧ (∀ v, v ∈ out.flatten ↔ v < graph.length) ∧
      (∀ c ∈ out, ∀ v ∈ c, ∀ w, w ∈ c ↔ Reach graph v w ∧ Reach graph w v) ∧
      out.Pairwise (fun c d => ∀ v ∈ d, ∀ w ∈ c, ¬ Edge graph v w) := by
  obtain ⟨s, e, hi, _, hall⟩ := outer_spec hg graph.length (List.range graph.length)
    { num := fun _ => -1, low := fun _ => -1, idx := fun _ => -1, stack := [], counter := 0, sccs := [] } (by simp)
    ⟨by simp, by simp, by simp, by simp, by simp, by simp, by simp, by simp, by simp, by simp, by simp, by simp, by simp, by simp⟩
    (by unfold unvisited; exact Nat.le_trans (List.length_filter_le _ _) (by simp))
  have hst : s.stack = [] := by
    cases hs : s.stack with
    | nil => rfl
    | cons a as =>
      obtain ⟨g, hg', _⟩ := hi.toG a (by rw [hs]; simp)
      simp at hg'
  have hperm : s.sccs.reverse.flatten.Perm s.sccs.flatten := (List.reverse_perm s.sccs).flatten
  refine ⟨s.sccs.reverse, ?_, ?_, ?_, ?_, ?_, ?_⟩
  · unfold computeMaximalSccs; rw [e]; rfl
  · intro c hc; exact (hi.ok c (by simpa using hc)).1
  · exact hperm.nodup_iff.mpr hi.nodup
  · intro v
    rw [hperm.mem_iff, hi.done, hst]
    simp only [List.not_mem_nil, not_false_eq_true, and_true]
    exact ⟨fun h => (hi.numR v h).2.2, fun h => hall v (by simpa using h)⟩
  · intro c hc; exact (hi.ok c (by simpa using hc)).2
  · rw [List.pairwise_reverse]
    exact hi.topo

/-- a graph with a two-vertex component, a cycle of three and an isolated loop -/
def exGraph : List (List Nat) := [[1], [0, 2], [3], [4], [2], [5]]

example : ∀ succs ∈ exGraph, ∀ w ∈ succs, w < exGraph.length := by decide

example : computeMaximalSccs exGraph 6 = some [[5], [0, 1], [2, 3, 4]] := by
  simp [computeMaximalSccs, exGraph, List.range, List.range.loop, outer, dfs, visit, enter, close, upd, Int.min_def]

end Verif.Sccs
