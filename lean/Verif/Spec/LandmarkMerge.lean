import Verif.Spec.LandmarkGraph

/-
What merging landmark graphs should give.
-/
namespace Verif.Landmarks

/-- The landmark `m` stands for the landmark `l`: it has the same type, and all atoms of `l`. -/
def Landmark.CoveredBy (l m : Landmark) : Prop := l.type = m.type ∧ ∀ f ∈ l.atoms, f ∈ m.atoms

/-- atomic and disjunctive landmarks with the right number of atoms -/
def Landmark.AtomicOrDisjunctive (l : Landmark) : Prop := (l.type = .atomic ∧ ∃ f, l.atoms = [f]) ∨ (l.type = .disjunctive ∧ l.atoms ≠ [])

/-- landmark_graph.h:16: the strength of an ordering -/
def OrderingType.rank : OrderingType → Nat
  | .reasonable => 0
  | .natural => 1
  | .greedyNecessary => 2
  | .necessary => 3

/-- one of the graphs has an ordering of type `ty` between two landmarks for which `a` and `b` stand -/
def HasOrdering (gs : List Graph) (a b : Landmark) (ty : OrderingType) : Prop :=
  ∃ g ∈ gs, ∃ x ∈ g, ∃ (k : Nat) (y : Node), (k, ty) ∈ x.children ∧ g[k]? = some y ∧ x.landmark.CoveredBy a ∧ y.landmark.CoveredBy b

end Verif.Landmarks
