import Verif.Spec.Axioms

/-
Specification of well-formed tasks and of the successor relation of a planning task.
-/
namespace Verif

/-- Well-formed task: what abstract_task.h promises about facts and domains. -/
structure Task.WF (t : Task) : Prop where
  ax : t.WFAxioms
  domains : ∀ d ∈ t.vars, 1 ≤ d.domain ∧ d.domain < 2 ^ 31
  init : t.ValidState t.init
  effFact : ∀ o ∈ t.ops, ∀ e ∈ o.effects, t.ValidFact e.fact
  effCond : ∀ o ∈ t.ops, ∀ e ∈ o.effects, ∀ c ∈ e.conds, t.ValidFact c
  pre : ∀ o ∈ t.ops, ∀ c ∈ o.pre, t.ValidFact c
  goalFacts : ∀ f ∈ t.goal, t.ValidFact f

/-- `s'` results from `s` by the effects of `o` (conditions evaluated in `s`), with the
derived variables given by the axioms. -/
def Task.SuccRel (t : Task) (o : Operator) (s s' : State) : Prop :=
  ∃ m, o.EffectResult s m ∧ StableModel t m s'

end Verif
