import Verif.Model.Subtasks
import Verif.Spec.Cartesian
import Verif.Spec.DomainAbstraction

/-
Legal subtasks.
-/
namespace Verif

/-- the groups of a variable -/
def DomAbs.groupsOf (vg : DomAbs.VarToGroups) (v : Nat) : List (List Nat) := (vg.lookup v).getD []

/-- the keys of the map are variables -/
def DomAbs.KeysOk (t : Task) (vg : DomAbs.VarToGroups) : Prop := ∀ p ∈ vg, p.1 < t.vars.length

/-- What the generators of subtasks guarantee: the goal fact of the subtask is a landmark, and values are only combined if they can be reached before the landmark. -/
def Cart.SubtaskKind.Legal (t : Task) : Cart.SubtaskKind → Prop
  | .original => True
  | .fact f => RelaxedLandmark t f
  | .combined f vg => RelaxedLandmark t f ∧ DomAbs.KeysOk t vg ∧ LegalGroups t (DomAbs.groupsOf vg) ∧
      ∀ v, ∀ g ∈ DomAbs.groupsOf vg v, ∀ x ∈ g, t.RelReach (fun j => ∀ o, t.ops[j]? = some o → ∀ e ∈ o.effects, e.fact ≠ f) t.init ⟨v, x⟩

end Verif
