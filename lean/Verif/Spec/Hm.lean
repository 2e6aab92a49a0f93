import Verif.Spec.Plan
import Verif.Spec.Succ
import Mathlib.Data.Finset.Card
import Mathlib.Data.Finset.Insert
import Mathlib.Data.Finset.Lattice.Basic

/-
Specification of the critical path heuristics h^m: sets of facts are estimated by regression; a set with more than `m` facts is estimated by its subsets with at most `m` facts.
-/
namespace Verif

/-- the facts of the list as a set -/
def factSet (l : List Fact) : Finset Fact := l.toFinset

/-- the operator adds the fact -/
def Operator.adds (o : Operator) (f : Fact) : Prop := ∃ e ∈ o.effects, e.fact = f

/-- the operator gives the variable of the fact another value -/
def Operator.deletes (o : Operator) (f : Fact) : Prop := ∃ e ∈ o.effects, e.fact.var = f.var ∧ e.fact.val ≠ f.val

/-- the facts added by the operator -/
def Operator.addSet (o : Operator) : Finset Fact := factSet (o.effects.map (·.fact))

/-- the estimate of the set `T` of facts in state `s` is at most `n`: either the facts are true, or an operator adds one of them, deletes none, and the estimate of the preconditions and the facts
not added is small enough -/
inductive HmLe (t : Task) (m : Nat) (s : State) : Finset Fact → Nat → Prop where
  | init (T n) : (∀ f ∈ T, f.holds s) → HmLe t m s T n
  | op (T) (n i : Nat) (o : Operator) : t.ops[i]? = some o → (∃ f ∈ T, o.adds f) → (∀ f ∈ T, ¬o.deletes f) → (∀ U ⊆ factSet o.pre ∪ (T \ o.addSet), U.card ≤ m → HmLe t m s U n) → HmLe t m s T (n + o.cost)

/-- h^m of state `s` is at most `n` -/
def Task.HmGoalLe (t : Task) (m : Nat) (s : State) (n : Nat) : Prop := ∀ U ⊆ factSet t.goal, U.card ≤ m → HmLe t m s U n

/-- tasks which h^m supports: without axioms and conditional effects; no operator mentions a variable twice in its preconditions or in its effects, and goals are sorted by variable -/
structure HmTask (t : Task) : Prop where
  wf : t.WF
  noAxioms : t.axioms = []
  unconditional : ∀ o ∈ t.ops, ∀ e ∈ o.effects, e.conds = []
  pre : ∀ o ∈ t.ops, (o.pre.map (·.var)).Nodup
  eff : ∀ o ∈ t.ops, (o.effects.map (·.fact.var)).Nodup
  goal : t.goal.Pairwise (fun a b => a.var < b.var)

end Verif
