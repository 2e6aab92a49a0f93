import Verif.Spec.SasPlans

/-
Specification of grounded tasks before finite-domain variables are introduced: states are sets of atoms, actions have conditional add and delete effects, and axioms define derived atoms.
Also: mutex groups of such a task.
-/
namespace Verif.Strips
open Verif.SasFile

/-- an atom or a negated atom -/
structure Literal (α : Type) where
  negated : Bool
  atom : α
deriving DecidableEq

variable {α : Type}

/-- the literal is true in a state, given by the true atoms -/
def Literal.holds (l : Literal α) (s : α → Prop) : Prop := if l.negated then ¬ s l.atom else s l.atom

/-- a grounded action; effects are pairs of condition and literal; the name is without the parentheses around it -/
structure Action (α : Type) where
  name : List Char
  pre : List (Literal α)
  effects : List (List (Literal α) × Literal α)
  cost : Nat

/-- a grounded axiom -/
structure Rule (α : Type) where
  body : List (Literal α)
  head : α

/-- a grounded task; `layers` are the derived atoms with their axiom layers -/
structure StripsTask (α : Type) where
  init : List α
  goal : List (Literal α)
  actions : List (Action α)
  axioms : List (Rule α)
  layers : List (α × Nat)
  metric : Bool

variable (t : StripsTask α)

/-- defined by axioms -/
def StripsTask.Derived (p : α) : Prop := ∃ n : Nat, (p, n) ∈ t.layers

/-- the derived atom follows from the axioms, if negative literals and atoms that are not derived are read off the state `s` -/
inductive StripsTask.Derives (s : α → Prop) : α → Prop where
  | rule (r : Rule α) (hr : r ∈ t.axioms)
      (hneg : ∀ l ∈ r.body, l.negated = true → ¬ s l.atom)
      (hbase : ∀ l ∈ r.body, l.negated = false → ¬ t.Derived l.atom → s l.atom)
      (hpos : ∀ l ∈ r.body, l.negated = false → t.Derived l.atom → StripsTask.Derives s l.atom) :
      StripsTask.Derives s r.head

/-- `s` is the state with the basic atoms of `b`, in which derived atoms are true if they follow from the axioms (a stable model) -/
structure StripsTask.Completes (b s : α → Prop) : Prop where
  base : ∀ p, ¬ t.Derived p → (s p ↔ b p)
  derived : ∀ p, t.Derived p → (s p ↔ t.Derives s p)

/-- an add effect for the atom triggers -/
def Action.Adds (a : Action α) (s : α → Prop) (p : α) : Prop := ∃ e ∈ a.effects, e.2 = ⟨false, p⟩ ∧ ∀ l ∈ e.1, l.holds s

/-- a delete effect for the atom triggers -/
def Action.Deletes (a : Action α) (s : α → Prop) (p : α) : Prop := ∃ e ∈ a.effects, e.2 = ⟨true, p⟩ ∧ ∀ l ∈ e.1, l.holds s

/-- deleted atoms are removed first, and added atoms are added then -/
def Action.result (a : Action α) (s : α → Prop) (p : α) : Prop := a.Adds s p ∨ (s p ∧ ¬ a.Deletes s p)

/-- `s'` is the state after the action in `s` -/
def StripsTask.Step (s : α → Prop) (a : Action α) (s' : α → Prop) : Prop := a ∈ t.actions ∧ (∀ l ∈ a.pre, l.holds s) ∧ t.Completes (a.result s) s'

/-- the actions lead from one state to another -/
inductive StripsTask.Run : (α → Prop) → List (Action α) → (α → Prop) → Prop where
  | nil (s) : StripsTask.Run s [] s
  | cons (s a s' as u) : t.Step s a s' → StripsTask.Run s' as u → StripsTask.Run s (a :: as) u

/-- the initial state -/
def StripsTask.Initial (s : α → Prop) : Prop := t.Completes (fun p => p ∈ t.init) s

def StripsTask.Reachable (s : α → Prop) : Prop := ∃ s0 as, t.Initial s0 ∧ t.Run s0 as s

/-- `p` are the names and costs of the actions of a plan -/
def StripsTask.HasPlan (p : List (List Char × Nat)) : Prop :=
  ∃ s as u, t.Initial s ∧ t.Run s as u ∧ (∀ l ∈ t.goal, l.holds u) ∧ as.map (fun a => (a.name, a.cost)) = p

/-- in every reachable state at most one of the atoms is true -/
def StripsTask.MutexGroup (g : List α) : Prop := ∀ s, t.Reachable s → ∀ p ∈ g, ∀ q ∈ g, s p → s q → p = q

/-- the atom occurs in a condition, an effect or the head of an axiom -/
def StripsTask.Mentions (p : α) : Prop :=
  (∃ l ∈ t.goal, l.atom = p) ∨ (∃ a ∈ t.actions, (∃ l ∈ a.pre, l.atom = p) ∨ ∃ e ∈ a.effects, e.2.atom = p ∨ ∃ l ∈ e.1, l.atom = p) ∨
  ∃ r ∈ t.axioms, r.head = p ∨ ∃ l ∈ r.body, l.atom = p

/-- what axiom_rules.py and the normalisation guarantee: each derived atom has one layer, is not changed by actions and not true initially, and is at least on the layers of the atoms that it depends on, above those that it depends on by
negation -/
structure StripsTask.Stratified : Prop where
  once : (t.layers.map (·.1)).Nodup
  heads : ∀ r ∈ t.axioms, t.Derived r.head
  layered : ∀ r ∈ t.axioms, ∀ l ∈ r.body, ∀ n m : Nat, (l.atom, n) ∈ t.layers → (r.head, m) ∈ t.layers → n ≤ m ∧ (l.negated = true → n < m)
  effects : ∀ a ∈ t.actions, ∀ e ∈ a.effects, ¬ t.Derived e.2.atom
  init : ∀ p ∈ t.init, ¬ t.Derived p

/-- Groups of atoms from which variables are made, and all groups of atoms that are known to exclude each other: they are mutex groups that cover the task; derived atoms and negative goals are alone in their groups. -/
structure StripsTask.Groups (groups mutexGroups : List (List α)) : Prop where
  nodup : ∀ g ∈ groups ++ mutexGroups, g.Nodup
  mutex : ∀ g ∈ groups ++ mutexGroups, t.MutexGroup g
  covered : ∀ p, t.Mentions p → (∃ g ∈ groups, p ∈ g) ∧ ∃ g ∈ mutexGroups, p ∈ g
  derived : ∀ p, t.Derived p → ∃ v : Nat, groups[v]? = some [p] ∧ ∀ (w : Nat) (g : List α), groups[w]? = some g → p ∈ g → w = v
  negativeGoals : ∀ l ∈ t.goal, l.negated = true → ∀ g ∈ groups, l.atom ∈ g → g = [l.atom]

/-- every atom of the groups is in exactly one of the groups from which variables are made -/
def Partition (groups mutexGroups : List (List α)) : Prop :=
  ∀ p, (∃ g ∈ groups ++ mutexGroups, p ∈ g) → ∃ (v : Nat) (g : List α), groups[v]? = some g ∧ p ∈ g ∧ ∀ (w : Nat) (g' : List α), groups[w]? = some g' → p ∈ g' → w = v

/-- names for the values of the variables: one for each atom of the group and one for "none of those" -/
def Named (groups : List (List α)) (names : List (List (List Char))) : Prop := names.map (·.length) = groups.map (fun g => g.length + 1)

end Verif.Strips
