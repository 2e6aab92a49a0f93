import Mathlib.Data.List.Basic

/-
Specification of Datalog programs and of their least models.
-/
namespace Verif.Datalog

/-- an argument of a symbolic atom: a variable or an object -/
inductive Term (V O : Type) where
  | var (v : V)
  | const (o : O)
deriving DecidableEq

/-- an atom with variables -/
structure SymAtom (P V O : Type) where
  pred : P
  args : List (Term V O)
deriving DecidableEq

/-- an atom without variables -/
structure GAtom (P O : Type) where
  pred : P
  args : List O
deriving DecidableEq

variable {P V O : Type}

/-- the object of an argument, for values of the variables -/
def Term.value (σ : V → O) : Term V O → O
  | .var v => σ v
  | .const o => o

/-- the atom for values of the variables -/
def SymAtom.inst (a : SymAtom P V O) (σ : V → O) : GAtom P O := ⟨a.pred, a.args.map (·.value σ)⟩

/-- the variable of an argument -/
def Term.var? : Term V O → Option V
  | .var v => some v
  | .const _ => none

/-- the variables of an atom -/
def SymAtom.vars (a : SymAtom P V O) : List V := a.args.filterMap Term.var?

/-- the kinds of rules that the exploration knows -/
inductive RuleType where
  | join
  | product
  | project
deriving DecidableEq

/-- a rule: the effect follows from the conditions -/
structure Rule (P V O : Type) where
  type : RuleType
  effect : SymAtom P V O
  conditions : List (SymAtom P V O)
deriving DecidableEq

/-- the atoms that follow from the facts by the rules (the least model) -/
inductive Follows (facts : List (GAtom P O)) (rules : List (Rule P V O)) : GAtom P O → Prop where
  | fact (a : GAtom P O) (ha : a ∈ facts) : Follows facts rules a
  | rule (r : Rule P V O) (hr : r ∈ rules) (σ : V → O) (hc : ∀ c ∈ r.conditions, Follows facts rules (c.inst σ)) : Follows facts rules (r.effect.inst σ)

/-- as `Follows`, but the conditions of a rule need to agree on variables of the effect only -/
inductive FollowsLoosely (facts : List (GAtom P O)) (rules : List (Rule P V O)) : GAtom P O → Prop where
  | fact (a : GAtom P O) (ha : a ∈ facts) : FollowsLoosely facts rules a
  | rule (r : Rule P V O) (hr : r ∈ rules) (σ : V → O) (τ : SymAtom P V O → V → O) (hτ : ∀ c ∈ r.conditions, ∀ v ∈ c.vars, v ∈ r.effect.vars → τ c v = σ v)
      (hc : ∀ c ∈ r.conditions, FollowsLoosely facts rules (c.inst (τ c))) : FollowsLoosely facts rules (r.effect.inst σ)

/-- what rules look like for the exploration: variables of the effect occur in conditions, variables in an atom are different; a join has two conditions with a common variable, and other variables are in the effect; conditions of a
product have no common variables, and all their variables are in the effect; a projection has one condition -/
structure Rule.Normal (r : Rule P V O) : Prop where
  bound : ∀ v ∈ r.effect.vars, ∃ c ∈ r.conditions, v ∈ c.vars
  effect : r.effect.vars.Nodup
  conditions : ∀ c ∈ r.conditions, c.vars.Nodup
  join : r.type = .join → ∃ c d, r.conditions = [c, d] ∧ (∃ v, v ∈ c.vars ∧ v ∈ d.vars) ∧ (∀ v ∈ c.vars, v ∉ d.vars → v ∈ r.effect.vars) ∧ ∀ v ∈ d.vars, v ∉ c.vars → v ∈ r.effect.vars
  product : r.type = .product → 2 ≤ r.conditions.length ∧ r.conditions.Pairwise (fun c d => ∀ v ∈ c.vars, v ∉ d.vars) ∧ ∀ c ∈ r.conditions, ∀ v ∈ c.vars, v ∈ r.effect.vars
  project : r.type = .project → ∃ c, r.conditions = [c]

/-- variables that two conditions have in common are in the effect -/
def Rule.Joined (r : Rule P V O) : Prop := r.conditions.Pairwise (fun c d => ∀ v ∈ c.vars, v ∈ d.vars → v ∈ r.effect.vars)

/-- every predicate has one number of arguments -/
def Arity (ar : P → Nat) (facts : List (GAtom P O)) (rules : List (Rule P V O)) : Prop :=
  (∀ a ∈ facts, a.args.length = ar a.pred) ∧ ∀ r ∈ rules, r.effect.args.length = ar r.effect.pred ∧ ∀ c ∈ r.conditions, c.args.length = ar c.pred

end Verif.Datalog
