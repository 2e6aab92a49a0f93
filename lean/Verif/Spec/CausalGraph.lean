import Verif.Spec.SasPlans
import Mathlib.Logic.Relation

/-
Causal graphs of tasks of the translator.
-/
namespace Verif.SasFile

/-- the value of the variable `u` matters for changes of the variable `v`: `u` occurs in a condition of an operator or in the condition of one of its effects on `v`, or in an axiom for `v` -/
def SasTask.Influences (T : SasTask) (u v : Nat) : Prop :=
  u ≠ v ∧ ((∃ o ∈ T.operators, ∃ e ∈ o.prePost, e.var = v ∧ ((∃ f ∈ o.prevail, f.var = u) ∨ (∃ e' ∈ o.prePost, e'.var = u ∧ e'.pre ≠ none) ∨ ∃ c ∈ e.conds, c.var = u)) ∨
    ∃ a ∈ T.axioms, a.effect.var = v ∧ ∃ c ∈ a.conds, c.var = u)

/-- a variable that matters for the goal -/
def SasTask.Relevant (T : SasTask) (v : Nat) : Prop := ∃ g ∈ T.goal, Relation.ReflTransGen T.Influences v g.var

end Verif.SasFile
