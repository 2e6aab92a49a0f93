import Verif.Model.AdaptiveQueue

/-
Specification of a priority queue: a bag of (key, value) entries.
-/
namespace Verif.AdaptiveQueue

/-- `bag` before, operation, result, `bag` after (a list, up to reordering) -/
inductive SpecStep {V : Type} : List (Entry V) → Op V → Out V → List (Entry V) → Prop where
  | push (bag k v) : SpecStep bag (.push k v) .unit ((k, v) :: bag)
  | pop (bag bag' k v) : bag.Perm ((k, v) :: bag') → (∀ e ∈ bag, k ≤ e.1) → SpecStep bag .pop (.entry k v) bag'
  | empty (bag b) : (b = true ↔ bag = []) → SpecStep bag .empty (.bool b) bag
  | clear (bag) : SpecStep bag .clear .unit []
  | virt (bag n) : SpecStep bag (.addVirtualPushes n) .unit bag

/-- the results `outs` are possible for the operations `ops` starting from `bag` -/
inductive SpecRun {V : Type} : List (Entry V) → List (Op V) → List (Out V) → Prop where
  | nil (bag) : SpecRun bag [] []
  | cons {bag bag' op o ops os} : SpecStep bag op o bag' → SpecRun bag' ops os → SpecRun bag (op :: ops) (o :: os)

/-- pop is only called on a nonempty queue (the assertions in priority_queues.h:107, 196);
`n` is the current number of entries -/
def Legal {V : Type} : Nat → List (Op V) → Prop
  | _, [] => True
  | n, .push _ _ :: ops => Legal (n + 1) ops
  | n, .pop :: ops => 0 < n ∧ Legal (n - 1) ops
  | _, .clear :: ops => Legal 0 ops
  | n, .empty :: ops => Legal n ops
  | n, .addVirtualPushes _ :: ops => Legal n ops

end Verif.AdaptiveQueue
