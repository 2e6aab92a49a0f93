/-
Specification-level notion of a planning task (finite-domain variables, conditional
effects, axioms), independent of any data structure of the code.  Corresponds to the
interface src/search/abstract_task.h.
-/
namespace Verif

/-- a fact `var = val` (abstract_task.h `FactPair`) -/
structure Fact where
  var : Nat
  val : Nat
deriving DecidableEq, Repr

/-- a conditional effect -/
structure Effect where
  conds : List Fact
  fact : Fact
deriving DecidableEq, Repr

/-- an operator or an axiom -/
structure Operator where
  pre : List Fact
  effects : List Effect
  cost : Nat
deriving DecidableEq, Repr

/-- a variable; `layer = none` for a variable that is not derived -/
structure Variable where
  domain : Nat
  layer : Option Nat
  default : Nat
deriving DecidableEq, Repr

structure Task where
  vars : List Variable
  ops : List Operator
  axioms : List Operator
  init : List Nat
  goal : List Fact
deriving DecidableEq, Repr

/-- a state assigns a value to every variable -/
abbrev State := List Nat

/-- the fact is true in the state -/
def Fact.holds (f : Fact) (s : State) : Prop := s[f.var]? = some f.val

instance (f : Fact) (s : State) : Decidable (f.holds s) := inferInstanceAs (Decidable (_ = _))

/-- all facts are true -/
def allHold (fs : List Fact) (s : State) : Prop := ∀ f ∈ fs, f.holds s

instance (fs : List Fact) (s : State) : Decidable (allHold fs s) :=
  inferInstanceAs (Decidable (∀ f ∈ fs, _))

def Operator.applicable (o : Operator) (s : State) : Prop := allHold o.pre s
def Effect.fires (e : Effect) (s : State) : Prop := allHold e.conds s

instance (o : Operator) (s : State) : Decidable (o.applicable s) := inferInstanceAs (Decidable (allHold _ _))
instance (e : Effect) (s : State) : Decidable (e.fires s) := inferInstanceAs (Decidable (allHold _ _))

/-- value assigned to `v` by the last effect (in the operator's order) on `v` whose
conditions hold in `s`, if any -/
def Operator.assigned (o : Operator) (s : State) (v : Nat) : Option Nat :=
  ((o.effects.filter (fun e => decide (e.fires s) && e.fact.var == v)).getLast?).map (·.fact.val)

/-- `s'` is the result of the operator's effects in `s` (before axioms): all conditions
are evaluated in `s`, and each variable takes the value of the last firing effect on it. -/
def Operator.EffectResult (o : Operator) (s s' : State) : Prop :=
  s'.length = s.length ∧ ∀ v x, s[v]? = some x → s'[v]? = some ((o.assigned s v).getD x)

/-- A state with as many values as variables, each within its domain. -/
def Task.ValidState (t : Task) (s : State) : Prop :=
  s.length = t.vars.length ∧ ∀ (v x : Nat) (d : Variable), s[v]? = some x → t.vars[v]? = some d → x < d.domain

/-- The fact mentions an existing variable and a value of its domain. -/
def Task.ValidFact (t : Task) (f : Fact) : Prop := ∃ d : Variable, t.vars[f.var]? = some d ∧ f.val < d.domain

/-- is the variable derived? -/
def Task.derived (t : Task) (v : Nat) : Prop := ∃ (d : Variable) (ℓ : Nat), t.vars[v]? = some d ∧ d.layer = some ℓ

end Verif
