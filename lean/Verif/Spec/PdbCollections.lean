import Verif.Spec.Pdb

/-
Collections of patterns.
-/
namespace Verif

/-- some effect of the operator is on a variable of `P` -/
def Operator.Affects (o : Operator) (P : List Nat) : Prop := ∃ e ∈ o.effects, e.fact.var ∈ P

/-- the operator with number `i` affects the pattern: some effect is on a variable of `P` -/
def Task.affects (t : Task) (P : List Nat) (i : Nat) : Bool := ((t.ops[i]?).map (fun o => o.effects.any (fun e => decide (e.fact.var ∈ P)))).getD false

/-- a collection of patterns as it is computed by pattern generators (sorted variables without duplicates), for a task with operator costs of at most `C`, such that the number of abstract
states and the sum of the distances fit into an int: all distances are at most `B`, and their sum is smaller than the largest int -/
structure Task.CollectionFits (t : Task) (patterns : List (List Nat)) (C B : Nat) : Prop where
  cost : ∀ i, t.opCost i ≤ C
  range : ∀ P ∈ patterns, ∀ v ∈ P, v < t.vars.length
  sorted : ∀ P ∈ patterns, P.Pairwise (· < ·)
  states : ∀ P ∈ patterns, t.numAbstractStates P < 2 ^ 31
  bound : ∀ P ∈ patterns, t.numAbstractStates P * C ≤ B
  fits : (patterns.length + 1) * B < 2 ^ 31 - 1

/-- zero-one cost partitioning: the cost of an operator for pattern number `k` is its cost if no earlier pattern is affected by the operator, 0 otherwise -/
def Task.zeroOneCost (t : Task) (patterns : List (List Nat)) (k i : Nat) : Nat := if (patterns.take k).any (fun P => t.affects P i) then 0 else t.opCost i

/-- no operator affects both patterns -/
def Task.AdditivePatterns (t : Task) (P Q : List Nat) : Prop := ∀ o ∈ t.ops, ¬(o.Affects P ∧ o.Affects Q)

/-- `A` is an additive subset of the collection: different numbers of patterns that are pairwise additive -/
structure Task.AdditiveSubset (t : Task) (patterns : List (List Nat)) (A : List Nat) : Prop where
  nodup : A.Nodup
  range : ∀ i ∈ A, i < patterns.length
  additive : ∀ i ∈ A, ∀ j ∈ A, i ≠ j → ∀ P Q, patterns[i]? = some P → patterns[j]? = some Q → t.AdditivePatterns P Q

end Verif
