import Verif.Spec.Strips
import Mathlib.Logic.Relation

/-
Specification of the treatment of axioms: derived atoms are the heads of axioms; which of them are needed; stratifications.
-/
namespace Verif.Strips
variable {α : Type} (t : StripsTask α)

/-- the head of an axiom -/
def StripsTask.Head (p : α) : Prop := ∃ r ∈ t.axioms, r.head = p

/-- the task where the heads of axioms are the derived atoms; the numbers of layers have no meaning here -/
def StripsTask.fromHeads : StripsTask α := { t with layers := t.axioms.map (fun r => (r.head, 0)) }

/-- actions do not change derived atoms, and they are not initially true -/
structure StripsTask.DerivedOnly : Prop where
  effects : ∀ a ∈ t.actions, ∀ e ∈ a.effects, ¬ t.Head e.2.atom
  init : ∀ p ∈ t.init, ¬ t.Head p

/-- a derived atom that matters for the goal or an action, or for another such atom -/
inductive StripsTask.Needed : α → Prop where
  | goal (l : Literal α) (hl : l ∈ t.goal) (hh : t.Head l.atom) : StripsTask.Needed l.atom
  | pre (a : Action α) (ha : a ∈ t.actions) (l : Literal α) (hl : l ∈ a.pre) (hh : t.Head l.atom) : StripsTask.Needed l.atom
  | cond (a : Action α) (ha : a ∈ t.actions) (e : List (Literal α) × Literal α) (he : e ∈ a.effects) (l : Literal α) (hl : l ∈ e.1) (hh : t.Head l.atom) : StripsTask.Needed l.atom
  | body (r : Rule α) (hr : r ∈ t.axioms) (hn : StripsTask.Needed r.head) (l : Literal α) (hl : l ∈ r.body) (hh : t.Head l.atom) : StripsTask.Needed l.atom

/-- the derived atom `q` occurs in the body of an axiom for `p` -/
def StripsTask.DependsOn (p q : α) : Prop := ∃ r ∈ t.axioms, r.head = p ∧ ∃ l ∈ r.body, l.atom = q ∧ t.Head q

/-- the atoms depend on each other, directly or indirectly -/
def StripsTask.Mutual (p q : α) : Prop := Relation.ReflTransGen t.DependsOn p q ∧ Relation.ReflTransGen t.DependsOn q p

/-- a stratification of the axioms with heads in `S`: no atom is below one that it depends on, and it is above those that it depends on by negation -/
def StripsTask.Stratification (S : α → Prop) (layer : α → Nat) : Prop :=
  ∀ r ∈ t.axioms, S r.head → ∀ l ∈ r.body, t.Head l.atom → layer l.atom ≤ layer r.head ∧ (l.negated = true → layer l.atom < layer r.head)

/-- the axioms are stratifiable, as the definition of PDDL demands -/
def StripsTask.Stratifiable : Prop := ∃ layer, t.Stratification (fun _ => True) layer

end Verif.Strips
