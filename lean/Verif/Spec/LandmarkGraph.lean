import Verif.Model.Landmarks

/-
What a landmark graph says about the plans of a task.
-/
namespace Verif.Landmarks

/-- the landmark holds in the state: one of the atoms does (disjunctive landmarks), or all of them do -/
def Landmark.Holds (l : Landmark) (s : State) : Prop :=
  match l.type with
  | .disjunctive => ∃ f ∈ l.atoms, f.holds s
  | _ => allHold l.atoms s

/-- The graph only contains true statements about the plans of the task: its nodes are landmarks, the landmarks that are
marked as goals hold in all goal states, and the orderings hold on all plans.  An ordering is stored in both nodes. -/
structure Graph.Valid (t : Task) (g : Graph) : Prop where
  atoms : ∀ n ∈ g, ∀ f ∈ n.landmark.atoms, t.ValidFact f
  landmark : ∀ n ∈ g, IsLandmark t n.landmark.Holds
  goal : ∀ n ∈ g, n.landmark.isTrueInGoal = true → IsGoalLandmark t n.landmark.Holds
  parents : ∀ b ∈ g, ∀ A ty, (A, ty) ∈ b.parents → ∃ a, g[A]? = some a ∧ Ordering.Valid t a.landmark.Holds b.landmark.Holds ty
  children : ∀ a ∈ g, ∀ B ty, (B, ty) ∈ a.children → ∃ b, g[B]? = some b ∧ Ordering.Valid t a.landmark.Holds b.landmark.Holds ty

/-- The lists of achievers of all landmarks without derived variables are complete. -/
structure Graph.AchieversComplete (t : Task) (g : Graph) : Prop where
  first : ∀ n ∈ g, n.landmark.isDerived = false → FirstAchievers t n.landmark.Holds (fun i => (i : Int) ∈ n.landmark.firstAchievers)
  possible : ∀ n ∈ g, n.landmark.isDerived = false → PossibleAchievers t n.landmark.Holds (fun i => (i : Int) ∈ n.landmark.possibleAchievers)

/-- The achievers are operators of a task with `n` operators (and not axioms), and there are no landmarks on derived variables. -/
structure Graph.WithoutAxioms (g : Graph) (n : Nat) : Prop where
  derived : ∀ x ∈ g, x.landmark.isDerived = false
  first : ∀ x ∈ g, ∀ a ∈ x.landmark.firstAchievers, 0 ≤ a ∧ a < n
  possible : ∀ x ∈ g, ∀ a ∈ x.landmark.possibleAchievers, 0 ≤ a ∧ a < n

/-- the operator has an effect that fires in the state and makes an atom of a future landmark true (conjunctive landmarks
are ignored) -/
def AchievesFuture (g : Graph) (s : State) (future : Bits) (es : List Effect) : Prop :=
  ∃ e ∈ es, allHold e.conds s ∧ ∃ (i : Nat) (n : Node), g[i]? = some n ∧ n.landmark.type ≠ .conjunctive ∧ e.fact ∈ n.landmark.atoms ∧ future[i]? = some true

end Verif.Landmarks
