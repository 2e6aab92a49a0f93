import Verif.Spec.FactGroups
import Verif.Model.Invariants

/-
Model of the use of the groups of the synthesis of invariants: src/translate/fact_groups.py:123 and src/translate/invariants.py:155-158.
-/
namespace Verif.Invariants

/-- invariants.py:155-158 `instantiate`: the counted argument is the variable "?X" -/
def groupAtom (x : List Char × List (Option (List Char))) : FactGroups.Atom := ⟨x.1, x.2.map (fun a => a.getD FactGroups.counted)⟩

/-- the atoms of a group -/
def groupAtoms (g : List (List Char × List (Option (List Char)))) : List FactGroups.Atom := g.map groupAtom

end Verif.Invariants
