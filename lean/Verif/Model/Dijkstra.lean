import Verif.Model.AdaptiveQueue
import Verif.Model.Relaxation

/-
Model of Dijkstra's algorithm as used for pattern databases (src/search/pdbs/pattern_database_factory.cc:306-331)
and transition systems (src/search/merge_and_shrink/distances.cc:100-122).

States are numbers; distances are non-negative ints, numeric_limits<int>::max() for states that have not
been reached.  `none` is undefined behaviour (integer overflow, index out of range, pop from an empty queue).
In distances.cc the distance of the expanded state is read once: it cannot change in the loop over its
edges.
-/
namespace Verif.Dijkstra
open Verif.AdaptiveQueue

/-- numeric_limits<int>::max() -/
def inf : Nat := 2 ^ 31 - 1

/-- the distances and the queue -/
structure DSt where
  dist : Nat → Nat
  queue : Queue Nat

section
variable (H : StdHeap Nat) (n : Nat)

/-- pattern_database_factory.cc:319-330, distances.cc:111-120: the loop over the edges `es` of the state `s` to
states (the predecessor index as computed) with costs -/
def relax (s : Nat) : List (Int × Nat) → DSt → Option DSt
  | [], st => some st
  | (p, c) :: es, st =>
    if 0 ≤ p ∧ p < n then
      if st.dist s + c < 2 ^ 31 then
        if st.dist s + c < st.dist p.toNat then
          match st.queue.push H (st.dist s + c) p.toNat with
          | none => none
          | some q => relax s es ⟨Relax.upd st.dist p.toNat (st.dist s + c), q⟩
        else relax s es st
      else none
    else none

/-- pattern_database_factory.cc:307-331, distances.cc:103-121: the loop; `edges` computes the edges of a state -/
def loop (edges : Nat → Option (List (Int × Nat))) (st : DSt) : Option DSt :=
  if st.queue.empty then some st
  else
    match st.queue.pop H with
    | none => none
    | some (q, d, s) =>
      if d > st.dist s then loop edges { st with queue := q }
      else
        match edges s with
        | none => none
        | some es =>
          match relax H n s es { st with queue := q } with
          | none => none
          | some st => loop edges st
partial_fixpoint

end
end Verif.Dijkstra
