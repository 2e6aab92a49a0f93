import Verif.Spec.Bisimulation
import Verif.Model.ShrinkBuckets

/-
What users expect of f-preserving shrinking: the values f and h of a state, and which states are shrunk first.
-/
namespace Verif.Mas

/-- f and h of a state with the given distances from the initial state and to the goal; f is infinite if one of them is -/
def fh (gs hs : List Nat) (s : Nat) : Nat × Nat := (if gs.getD s 0 = infinity ∨ hs.getD s 0 = infinity then infinity else gs.getD s 0 + hs.getD s 0, hs.getD s 0)

/-- with "high", the state with the larger value is shrunk earlier; with "low", the state with the smaller value -/
def HighLow.Earlier : HighLow → Nat → Nat → Prop
  | .high, a, b => b < a
  | .low, a, b => a < b

/-- The states with values `k` are shrunk earlier than those with values `k'`: first f decides, then h. -/
def ShrunkEarlier (df dh : HighLow) (k k' : Nat × Nat) : Prop := df.Earlier k.1 k'.1 ∨ (k.1 = k'.1 ∧ dh.Earlier k.2 k'.2)

/-- the number of states is an int, the distances of all states are known, and finite distances have a sum that is an int -/
structure SumsFit (T : TS) (gs hs : List Nat) : Prop where
  size : T.size ≤ infinity
  init : T.size ≤ gs.length
  goal : T.size ≤ hs.length
  sums : ∀ s, s < T.size → gs.getD s 0 ≠ infinity → hs.getD s 0 ≠ infinity → gs.getD s 0 + hs.getD s 0 ≤ infinity

end Verif.Mas
