import Verif.Lemmas.MaxCliques

/-
C12: the maximal cliques are enumerated exactly.  `Adj`, `GraphOK` and `MaximalClique` (in
Lemmas/MaxCliques) are the specification.
-/
namespace Verif.MaxCliques

/-- C12.  For every undirected, loop-free graph with sorted adjacency lists, the algorithm
terminates without undefined behaviour (recursion depth at most the number of vertices plus
one); every reported list is duplicate-free and a maximal clique; every maximal clique is
reported; and no two reported lists have the same vertices. -/
theorem C12_max_cliques (graph : List (List Nat)) (hg : GraphOK graph) :
    ∃ out, computeMaxCliques graph (graph.length + 1) = some out ∧
      (∀ c ∈ out, c.Nodup ∧ MaximalClique graph (· ∈ c)) ∧
      (∀ S, MaximalClique graph S → ∃ c ∈ out, ∀ v, v ∈ c ↔ S v) ∧
      out.Pairwise (fun c d => ¬ ∀ v, v ∈ c ↔ v ∈ d) := by
  obtain ⟨out, e, a1, a2, a3⟩ := expand_spec hg (graph.length + 1) [] (List.range graph.length) (List.range graph.length)
    ⟨by simp, by simp, by simp, List.pairwise_lt_range, List.pairwise_lt_range, by simp, by simp⟩ (by simp)
  refine ⟨out, e, fun c hc => ⟨(a1 c hc).1, (a1 c hc).2.1⟩, ?_, a3⟩
  intro S hS
  exact a2 S hS ⟨by simp, fun v hv => Or.inr (by simpa using hS.1 v hv)⟩

/-- the path 0-1-2 with an extra edge 1-3, 2-3 and an isolated vertex 4 -/
def exGraph : List (List Nat) := [[1], [0, 2, 3], [1, 3], [1, 2], []]

example : GraphOK exGraph := by
  have hb : ∀ u v, Adj exGraph u v → u < 5 ∧ v < 5 := by
    rintro u v ⟨nb, h1, h2⟩
    have hu : u < 5 := (List.getElem?_eq_some_iff.mp h1).1
    refine ⟨hu, ?_⟩
    have : ∀ nb ∈ exGraph, ∀ v ∈ nb, v < 5 := by decide
    exact this nb (List.mem_of_getElem? h1) v h2
  have hiff : ∀ u v, Adj exGraph u v ↔ v ∈ (exGraph[u]?).getD [] := by
    intro u v
    constructor
    · rintro ⟨nb, h1, h2⟩; simpa [h1] using h2
    · intro h
      cases hc : exGraph[u]? with
      | none => simp [hc] at h
      | some nb => exact ⟨nb, hc, by simpa [hc] using h⟩
  refine ⟨?_, ?_, ?_⟩
  · intro u nb h
    have : ∀ nb ∈ exGraph, Srt nb := by decide
    exact this nb (List.mem_of_getElem? h)
  · intro u h
    have h5 := (hb u u h).1
    rw [hiff] at h
    revert h
    have : ∀ u < 5, u ∉ (exGraph[u]?).getD [] := by decide
    exact this u h5
  · intro u v h
    have h5 := hb u v h
    rw [hiff] at h ⊢
    have : ∀ u < 5, ∀ v < 5, v ∈ (exGraph[u]?).getD [] → u ∈ (exGraph[v]?).getD [] := by decide
    exact this u h5.1 v h5.2 h

example : computeMaxCliques exGraph 6 = some [[4], [1, 2, 3], [1, 0]] := by
  simp [computeMaxCliques, exGraph, List.range, List.range.loop, expand, expandLoop, getMaximizingVertex, maximizingLoop, setIntersection,
    setDifference, eraseLowerBound]

end Verif.MaxCliques
