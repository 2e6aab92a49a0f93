import Verif.Spec.Plan

/-
Tasks in which values of variables are combined.
-/
namespace Verif

/-- the fact with the new value -/
def Fact.rename (α : Nat → Nat → Nat) (f : Fact) : Fact := ⟨f.var, α f.var f.val⟩

/-- the operator with the new values (there are no conditional effects) -/
def Operator.rename (α : Nat → Nat → Nat) (o : Operator) : Operator := ⟨o.pre.map (Fact.rename α), o.effects.map (fun e => ⟨e.conds, e.fact.rename α⟩), o.cost⟩

/-- the state with the new values -/
def renameState (α : Nat → Nat → Nat) (s : State) : State := s.mapIdx α

/-- `t'` is the task `t`, where the value `x` of the variable `v` is replaced by `α v x` everywhere -/
structure DomainAbstraction (t : Task) (α : Nat → Nat → Nat) (t' : Task) : Prop where
  numVars : t'.vars.length = t.vars.length
  /-- the new values are the values of the new domain -/
  values : ∀ (v : Nat) (d d' : Variable), t.vars[v]? = some d → t'.vars[v]? = some d' → ∀ y, y < d'.domain ↔ ∃ x, x < d.domain ∧ α v x = y
  layers : ∀ (v : Nat) (d d' : Variable), t.vars[v]? = some d → t'.vars[v]? = some d' → d'.layer = d.layer
  ops : t'.ops = t.ops.map (Operator.rename α)
  axioms : t'.axioms = []
  init : t'.init = renameState α t.init
  goal : t'.goal = t.goal.map (Fact.rename α)

/-- legal arguments: the values of the groups are values of the variables; no group is empty, and no value occurs twice -/
structure LegalGroups (t : Task) (groups : Nat → List (List Nat)) : Prop where
  range : ∀ v, groups v ≠ [] → v < t.vars.length
  values : ∀ (v : Nat) (d : Variable), t.vars[v]? = some d → ∀ g ∈ groups v, ∀ x ∈ g, x < d.domain
  nonempty : ∀ v, ∀ g ∈ groups v, g ≠ []
  disjoint : ∀ v, (groups v).flatten.Nodup

end Verif
