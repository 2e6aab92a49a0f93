import Verif.Spec.Datalog

/-
Specification of Datalog programs before they are normalised: rules have no type, variables of the effect need not occur in the conditions, and variables may occur several times in an atom.
-/
namespace Verif.Datalog
variable {P V O : Type}

/-- a rule without a type -/
structure Clause (P V O : Type) where
  effect : SymAtom P V O
  conditions : List (SymAtom P V O)
deriving DecidableEq

/-- the objects of a program: those that occur in facts -/
def objects (facts : List (GAtom P O)) : List O := facts.flatMap (·.args)

/-- what follows from facts by rules; variables that occur in the effect only stand for any object -/
inductive Derivable (facts : List (GAtom P O)) (rules : List (Clause P V O)) : GAtom P O → Prop where
  | fact (a : GAtom P O) (ha : a ∈ facts) : Derivable facts rules a
  | rule (r : Clause P V O) (hr : r ∈ rules) (σ : V → O) (hf : ∀ v ∈ r.effect.vars, (∀ c ∈ r.conditions, v ∉ c.vars) → σ v ∈ objects facts) (hc : ∀ c ∈ r.conditions, Derivable facts rules (c.inst σ)) : Derivable facts rules (r.effect.inst σ)

/-- As `Derivable`, but the conditions of a rule need to agree on variables of its effect only, and conditions in which a variable occurs twice are ignored: an upper bound for what the exploration finds. -/
inductive DerivableLoosely (facts : List (GAtom P O)) (rules : List (Clause P V O)) : GAtom P O → Prop where
  | fact (a : GAtom P O) (ha : a ∈ facts) : DerivableLoosely facts rules a
  | rule (r : Clause P V O) (hr : r ∈ rules) (σ : V → O) (τ : SymAtom P V O → V → O) (hτ : ∀ c ∈ r.conditions, ∀ v ∈ c.vars, v ∈ r.effect.vars → τ c v = σ v)
      (hf : ∀ v ∈ r.effect.vars, σ v ∈ objects facts) (hc : ∀ c ∈ r.conditions, c.vars.Nodup → DerivableLoosely facts rules (c.inst (τ c))) : DerivableLoosely facts rules (r.effect.inst σ)

/-- the predicates of a rule -/
def Clause.preds (r : Clause P V O) : List P := r.effect.pred :: r.conditions.map (·.pred)

/-- the variables of a rule -/
def Clause.vars (r : Clause P V O) : List V := r.effect.vars ++ r.conditions.flatMap (·.vars)

/-- every predicate has one number of arguments -/
def ClauseArity (ar : P → Nat) (facts : List (GAtom P O)) (rules : List (Clause P V O)) : Prop :=
  (∀ a ∈ facts, a.args.length = ar a.pred) ∧ ∀ r ∈ rules, r.effect.args.length = ar r.effect.pred ∧ ∀ c ∈ r.conditions, c.args.length = ar c.pred

/-- the predicate `eq` stands for equality of the objects, and objects in effects of rules also occur in facts -/
structure Equality (eq : P) (facts : List (GAtom P O)) (rules : List (Clause P V O)) : Prop where
  same : ∀ o ∈ objects facts, ⟨eq, [o, o]⟩ ∈ facts
  only : ∀ a ∈ facts, a.pred = eq → ∃ o, a.args = [o, o]
  effects : ∀ r ∈ rules, r.effect.pred ≠ eq
  consts : ∀ r ∈ rules, ∀ o, .const o ∈ r.effect.args → o ∈ objects facts

end Verif.Datalog
