import Verif.Spec.Pddl

/-
Specification of PDDL formulas.
-/
namespace Verif.Pddl
open Verif.Datalog

/-- formulas of PDDL -/
inductive Formula (P V O T : Type) where
  | atom (a : SymAtom P V O)
  | not (f : Formula P V O T)
  | and (fs : List (Formula P V O T))
  | or (fs : List (Formula P V O T))
  | imply (f g : Formula P V O T)
  | forall_ (ps : List (V × T)) (f : Formula P V O T)
  | exists_ (ps : List (V × T)) (f : Formula P V O T)

variable {P V O T F : Type}

mutual
/-- the formula is true in the state, for values of variables -/
def Formula.holds (has : T → O → Prop) (s : GAtom P O → Prop) (σ : V → O) : Formula P V O T → Prop
  | .atom a => s (a.inst σ)
  | .not f => ¬ f.holds has s σ
  | .and fs => holdsAll has s σ fs
  | .or fs => holdsSome has s σ fs
  | .imply f g => f.holds has s σ → g.holds has s σ
  | .forall_ ps f => ∀ τ, Ext has ps σ τ → f.holds has s τ
  | .exists_ ps f => ∃ τ, Ext has ps σ τ ∧ f.holds has s τ
/-- all formulas are true -/
def holdsAll (has : T → O → Prop) (s : GAtom P O → Prop) (σ : V → O) : List (Formula P V O T) → Prop
  | [] => True
  | f :: fs => f.holds has s σ ∧ holdsAll has s σ fs
/-- one of the formulas is true -/
def holdsSome (has : T → O → Prop) (s : GAtom P O → Prop) (σ : V → O) : List (Formula P V O T) → Prop
  | [] => False
  | f :: fs => f.holds has s σ ∨ holdsSome has s σ fs
end

mutual
/-- the variable is free in the formula -/
def Formula.Free (v : V) : Formula P V O T → Prop
  | .atom a => v ∈ a.vars
  | .not f => f.Free v
  | .and fs => FreeAny v fs
  | .or fs => FreeAny v fs
  | .imply f g => f.Free v ∨ g.Free v
  | .forall_ ps f => v ∉ names ps ∧ f.Free v
  | .exists_ ps f => v ∉ names ps ∧ f.Free v
def FreeAny (v : V) : List (Formula P V O T) → Prop
  | [] => False
  | f :: fs => f.Free v ∨ FreeAny v fs
end

mutual
/-- the lists of parameters of all quantifiers -/
def Formula.quantifiers : Formula P V O T → List (List (V × T))
  | .atom _ => []
  | .not f => f.quantifiers
  | .and fs => quantifiersAll fs
  | .or fs => quantifiersAll fs
  | .imply f g => f.quantifiers ++ g.quantifiers
  | .forall_ ps f => ps :: f.quantifiers
  | .exists_ ps f => ps :: f.quantifiers
def quantifiersAll : List (Formula P V O T) → List (List (V × T))
  | [] => []
  | f :: fs => f.quantifiers ++ quantifiersAll fs
end

mutual
/-- parameters of one quantifier have different names -/
def Cond.Distinct : Cond P V O T → Prop
  | .truth => True
  | .falsity => True
  | .lit _ _ => True
  | .conj cs => DistinctAll cs
  | .disj cs => DistinctAll cs
  | .all ps b => (names ps).Nodup ∧ b.Distinct
  | .ex ps b => (names ps).Nodup ∧ b.Distinct
def DistinctAll : List (Cond P V O T) → Prop
  | [] => True
  | c :: cs => c.Distinct ∧ DistinctAll cs
end

/-- the parameters of an action, axiom, effect or quantifier have different names -/
structure PTask.Distinct (Q : PTask P V O T F) : Prop where
  actions : ∀ A ∈ Q.actions, (names A.params).Nodup
  effects : ∀ A ∈ Q.actions, ∀ e ∈ A.effects, (names e.params).Nodup
  axs : ∀ x ∈ Q.axioms, (names x.params).Nodup
  conditions : ∀ c ∈ Q.conditions, c.Distinct

end Verif.Pddl
