import Verif.Spec.Lifted

/-
Specification of invariants of tasks with schemas: for all values of the parameters, at most one of the covered atoms is true.
-/
namespace Verif.Lifted
open Verif.Datalog

/-- a part of an invariant: a predicate whose arguments are parameters of the invariant (numbers) or counted (`none`) -/
structure IPart (P : Type) where
  pred : P
  args : List (Option Nat)
deriving DecidableEq

variable {P V O T F : Type}

/-- the part covers the atom, for values of the parameters -/
def IPart.Covers (part : IPart P) (θ : Nat → O) (p : GAtom P O) : Prop := part.pred = p.pred ∧ List.Forall₂ (fun a o => ∀ k, a = some k → θ k = o) part.args p.args

/-- one of the parts covers the atom -/
def Covered (inv : List (IPart P)) (θ : Nat → O) (p : GAtom P O) : Prop := ∃ part ∈ inv, part.Covers θ p

/-- at most one of the covered atoms is true -/
def AtMostOne (inv : List (IPart P)) (θ : Nat → O) (s : GAtom P O → Prop) : Prop := ∀ p q, Covered inv θ p → Covered inv θ q → s p → s q → p = q

/-- the form of an invariant: parts have different predicates and the right number of arguments, each of the parameters 0, …, `n` - 1 occurs once in each part, and at most one argument is counted -/
structure WellFormed (ar : P → Nat) (n : Nat) (inv : List (IPart P)) : Prop where
  preds : (inv.map (·.pred)).Nodup
  length : ∀ part ∈ inv, part.args.length = ar part.pred
  args : ∀ part ∈ inv, (part.args.filterMap id).Perm (List.range n)
  once : ∀ part ∈ inv, part.args.count none ≤ 1

/-- one of the atoms of the group covers the atom; a counted argument `none` can be any object -/
def GroupCovers (g : List (P × List (Option O))) (p : GAtom P O) : Prop := ∃ x ∈ g, x.1 = p.pred ∧ List.Forall₂ (fun a o => ∀ b, a = some b → b = o) x.2 p.args

variable (L : LTask P V O T F)

/-- the predicates of the parts are not derived -/
def LTask.BasicParts (inv : List (IPart P)) : Prop := ∀ part ∈ inv, ∀ x ∈ L.axioms, x.pred ≠ part.pred

/-- the instance of the action can be applied in the state -/
def LTask.Applicable (s : GAtom P O → Prop) (A : LAction P V O T F) (σ : V → O) : Prop := A ∈ L.actions ∧ L.Typed A.params σ ∧ (∃ n, L.CostValue σ n A.cost) ∧ ∀ c ∈ A.pre, c.holds σ s

/-- no action adds an atom again that it deletes, and at the same time another atom that is covered together with it and was not true -/
def LTask.NoReadding (inv : List (IPart P)) (θ : Nat → O) : Prop := ∀ s, L.Reachable s → ∀ A σ, L.Applicable s A σ → ∀ p q, Covered inv θ p → Covered inv θ q →
  s q → L.Changes true A σ s q → L.Changes false A σ s q → ¬ s p → ¬ L.Changes false A σ s p

/-- the lists have the values of the parameters of all instances that are applicable in reachable states -/
def LTask.ReachLists (acts : List (LAction P V O T F × Option (List (List O)))) : Prop := ∀ A r, (A, some r) ∈ acts → ∀ s, L.Reachable s → ∀ σ, L.Applicable s A σ → A.params.map (fun p => σ p.1) ∈ r

/-- variables of delete effects range over all objects, and there is an object -/
def LTask.UntypedDeletes : Prop := L.objects ≠ [] ∧ ∀ A ∈ L.actions, ∀ e ∈ A.effects, e.negated = true → ∀ p ∈ e.params, ∀ x ∈ L.objects, L.HasType p.2 x.1

/-- the condition of a delete effect is not simply false -/
def LTask.PossibleDeletes : Prop := ∀ A ∈ L.actions, ∀ e ∈ A.effects, e.negated = true → .falsity ∉ e.cond

/-- the objects in conditions of actions are declared -/
def LTask.ConditionObjects : Prop := ∀ A ∈ L.actions, ∀ cs ∈ A.pre :: A.effects.map (·.cond), ∀ n a, .lit n a ∈ cs → ∀ o, .const o ∈ a.args → ∃ t, (o, t) ∈ L.objects

end Verif.Lifted
