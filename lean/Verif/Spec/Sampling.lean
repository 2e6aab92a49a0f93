import Verif.Model.Sampling

/-
Random walks.
-/
namespace Verif.Sampling

/-- what the C++ standard says about the two distributions (and nothing else) -/
structure Rng.Valid (rng : Rng) : Prop where
  real : ∀ k, 0 ≤ rng.real k ∧ rng.real k < 1
  int : ∀ k b, 0 < b → rng.int k b < b

/-- a path of the task from `s` to `u` on which no state after the first one is recognised as a dead end -/
inductive LivePath (t : Task) (isDeadEnd : State → Bool) : State → List Nat → State → Prop where
  | nil (s) : LivePath t isDeadEnd s [] s
  | cons (s i o s' π u) : t.ops[i]? = some o → o.applicable s → t.SuccRel o s s' → isDeadEnd s' = false → LivePath t isDeadEnd s' π u → LivePath t isDeadEnd s (i :: π) u

/-- the total cost of the operators -/
def totalCost (t : Task) : Nat := (t.ops.map (·.cost)).sum

end Verif.Sampling
