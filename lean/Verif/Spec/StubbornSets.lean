import Verif.Spec.Plan

/-
Specification of safe pruning, and of the tasks that stubborn sets support.
-/
namespace Verif

/-- the operators in `l` are exactly the applicable ones -/
def Task.ApplicableOps (t : Task) (s : State) (l : List Nat) : Prop := ∀ i, i ∈ l ↔ ∃ o : Operator, t.ops[i]? = some o ∧ o.applicable s

/-- every plan from `s` can be reordered such that it begins with an operator in `os` -/
def Task.SafeSelection (t : Task) (s : State) (os : List Nat) : Prop := ∀ π, t.SolvesFrom s π → ∃ i ρ, i ∈ os ∧ (i :: ρ).Perm π ∧ t.SolvesFrom s (i :: ρ)

/-- what stubborn_sets.cc:21-22 demands, and that no operator has two preconditions or two effects on the same variable -/
structure StubbornTask (t : Task) : Prop where
  wf : t.WF
  noAxioms : t.axioms = []
  unconditional : ∀ o ∈ t.ops, ∀ e ∈ o.effects, e.conds = []
  pre : ∀ o ∈ t.ops, (o.pre.map (·.var)).Nodup
  eff : ∀ o ∈ t.ops, (o.effects.map (·.fact.var)).Nodup

end Verif
