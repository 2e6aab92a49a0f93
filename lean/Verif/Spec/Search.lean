import Verif.Model.SearchSpace

/-
Specification of paths in the state space that a search algorithm explores.
-/
namespace Verif.Search

variable {S : Type}

/-- executing the operators `π` one after the other leads from `s` to `s'`; each of them is
applicable when it is its turn -/
inductive World.Path (w : World S) : S → List Nat → S → Prop where
  | nil (s) : w.Path s [] s
  | cons (s o t π u l) : w.ops s = some l → o ∈ l → w.succ s o = some t → w.Path t π u → w.Path s (o :: π) u

/-- `π` leads from `s` to a goal state -/
def World.GoalPath (w : World S) (s : S) (π : List Nat) : Prop := ∃ u, w.Path s π u ∧ w.goal u = some true

/-- `π` solves the task -/
def World.IsPlan (w : World S) (π : List Nat) : Prop := w.GoalPath w.init π

/-- some goal state can be reached from `s` -/
def World.Solvable (w : World S) (s : S) : Prop := ∃ π, w.GoalPath s π

/-- sum of the costs of the operators -/
def pathCost (c : Nat → Nat) (π : List Nat) : Nat := (π.map c).sum

/-- The successor generator, the successor function and the goal test are defined on a set of
states containing the initial state and closed under successors. -/
structure World.Total (w : World S) (valid : S → Prop) : Prop where
  init : valid w.init
  ops : ∀ s, valid s → ∃ l, w.ops s = some l
  succ : ∀ s l o, valid s → w.ops s = some l → o ∈ l → ∃ t, w.succ s o = some t ∧ valid t
  goal : ∀ s, valid s → ∃ b, w.goal s = some b

/-- `π` leads from the initial state to `s`, visiting the states `xs` (last one first) -/
inductive World.Visits (w : World S) : List Nat → List S → S → Prop where
  | init : w.Visits [] [w.init] w.init
  | snoc (π xs s l o t) : w.Visits π xs s → w.ops s = some l → o ∈ l → w.succ s o = some t → w.Visits (π ++ [o]) (t :: xs) t

/-- The costs of all paths that visit no state twice, extended by one more operator, stay
below the limits of the C++ types: g-values are stored in 30 bits, real costs in 32 bits. -/
def World.NoOverflow (w : World S) : Prop :=
  ∀ π xs s l o, w.Visits π xs s → xs.Nodup → w.ops s = some l → o ∈ l → pathCost w.adj (π ++ [o]) < 2 ^ 29 ∧ pathCost w.cost (π ++ [o]) < 2 ^ 31

/-- no path that visits no state twice, extended by one more operator, reaches the bound -/
def World.BoundFree (w : World S) (bound : Int) : Prop :=
  ∀ π xs s l o, w.Visits π xs s → xs.Nodup → w.ops s = some l → o ∈ l → (pathCost w.cost (π ++ [o]) : Int) < bound

end Verif.Search
