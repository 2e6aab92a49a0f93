import Verif.Model.SuccGen
import Verif.Model.Registry
import Verif.Spec.Plan
import Mathlib.Data.Rat.Floor

/-
Model of the random numbers and random walks (src/search/utils/rng.h, src/search/task_utils/sampling.cc).

The engine std::mt19937 and the distributions of the standard library are modelled by arbitrary streams of numbers; what the standard
says about them is the specification `Rng.Valid` in Spec/Sampling.lean.  Numbers of type double are rational numbers.  A failed
assertion, a conversion of a number that does not fit into an int, and an access outside of a vector give `none`.
-/
namespace Verif.Sampling

/-- What the distributions return: `real k` is the result of call number `k` of std::uniform_real_distribution(0, 1), `int k b` that
of call number `k` of std::uniform_int_distribution(0, b - 1). -/
structure Rng where
  real : Nat → Rat
  int : Nat → Nat → Nat

/-- rng.h:32 `random(int bound)`; `k` is the number of the call -/
def Rng.random (rng : Rng) (k bound : Nat) : Option Nat := if 0 < bound ∧ bound < 2 ^ 31 then some (rng.int k bound) else none

/-- rng.h:38 `choose` and the access to the element -/
def Rng.choose {α : Type} (rng : Rng) (k : Nat) (v : List α) : Option α :=
  match rng.random k v.length with
  | none => none
  | some i => v[i]?

/-- task_properties.cc:68 `get_average_operator_cost`; `none` if there are no operators (division by zero gives NaN) -/
def averageOperatorCost (t : Task) : Option Rat := if t.ops.length = 0 then none else some ((((t.ops.map (·.cost)).sum : Nat) : Rat) / t.ops.length)

/-- sampling.cc:19-34: the number of trials `n` of the binomial distribution -/
def numTrials (t : Task) (initH : Nat) : Option Nat :=
  if initH < 2 ^ 31 - 1 then
    if initH = 0 then some 10
    else
      match averageOperatorCost t with
      | none => none
      | some avg =>
        if avg = 0 then none
        else if 4 * Rat.floor ((initH : Rat) / avg + 1 / 2) < 2 ^ 31 then some (4 * (Rat.floor ((initH : Rat) / avg + 1 / 2)).toNat) else none
  else none

/-- sampling.cc:39-45: the length of the walk -/
def walkLength (rng : Rng) (n : Nat) : Nat := ((List.range n).filter (fun j => decide (rng.real j < 1 / 2))).length

/-- sampling.cc:50-70: the loop; the first argument is the number of steps that are left, the second one the number of steps so far -/
def walk (t : Task) (useHash : Nat → Nat → Bool) (isDeadEnd : State → Bool) (rng : Rng) : Nat → Nat → State → Option State
  | 0, _, s => some s
  | n + 1, k, s =>
    match SuccGen.generateApplicableOps t useHash s [] with
    | none => none
    | some [] => some s
    | some (o :: os) =>
      match rng.choose k (o :: os) with
      | none => none
      | some i =>
        match t.ops[i]? with
        | none => none
        | some op =>
          match Registry.unregisteredSuccessor t s op with
          | none => none
          | some s' => walk t useHash isDeadEnd rng n (k + 1) (if isDeadEnd s' then t.init else s')

/-- sampling.cc:13 `sample_state_with_random_walk` -/
def sampleState (t : Task) (useHash : Nat → Nat → Bool) (isDeadEnd : State → Bool) (rng : Rng) (initH : Nat) : Option State :=
  match numTrials t initH with
  | none => none
  | some n => walk t useHash isDeadEnd rng (walkLength rng n) 0 t.init

end Verif.Sampling
