import Verif.Spec.Strips
import Verif.Spec.Program

/-
Specification of PDDL tasks after normalisation, with schemas for actions and axioms: conditions are conjunctions of literals.  The types are: predicates `P`, variables `V`, objects `O`, types of objects `T` and functions `F`.
States are sets of atoms.  The semantics is that of PDDL: an action schema stands for its instances with objects of the right types.
-/
namespace Verif.Lifted
open Verif.Datalog

/-- a part of a conjunction: a literal, or a condition that is never true -/
inductive Part (P V O : Type) where
  | lit (negated : Bool) (atom : SymAtom P V O)
  | falsity

/-- a conditional effect for all objects of some types -/
structure LEffect (P V O T : Type) where
  params : List (V × T)
  cond : List (Part P V O)
  negated : Bool
  atom : SymAtom P V O

/-- the cost of an action: nothing, a number or the initial value of a function -/
inductive CostExpr (V O F : Type) where
  | none
  | const (n : Nat)
  | fn (f : F) (args : List (Term V O))

/-- an action schema; the name of its instances has the values of the first `external` parameters -/
structure LAction (P V O T F : Type) where
  name : List Char
  params : List (V × T)
  external : Nat
  pre : List (Part P V O)
  effects : List (LEffect P V O T)
  cost : CostExpr V O F

/-- an axiom schema; the derived atom has the values of the first `external` parameters -/
structure LAxiom (P V O T : Type) where
  pred : P
  params : List (V × T)
  external : Nat
  cond : List (Part P V O)

/-- a task; `eq` is the predicate for equality, `values` are the initial values of functions -/
structure LTask (P V O T F : Type) where
  eq : P
  objectName : O → List Char
  supertypes : T → List T
  objects : List (O × T)
  init : List (GAtom P O)
  values : List ((F × List O) × Nat)
  goal : List (Part P V O)
  actions : List (LAction P V O T F)
  axioms : List (LAxiom P V O T)
  metric : Bool

variable {P V O T F : Type}

/-- the part is true in the state, for values of variables -/
def Part.holds (σ : V → O) (s : GAtom P O → Prop) : Part P V O → Prop
  | .lit negated a => if negated then ¬ s (a.inst σ) else s (a.inst σ)
  | .falsity => False

variable (L : LTask P V O T F)

/-- the object has the type -/
def LTask.HasType (t : T) (o : O) : Prop := ∃ u, (o, u) ∈ L.objects ∧ (t = u ∨ t ∈ L.supertypes u)

/-- the values of the parameters have the right types -/
def LTask.Typed (params : List (V × T)) (σ : V → O) : Prop := ∀ p ∈ params, L.HasType p.2 (σ p.1)

/-- the predicate of the atom is defined by axioms -/
def LTask.Derived (p : GAtom P O) : Prop := ∃ x ∈ L.axioms, x.pred = p.pred

/-- the derived atom of an instance of an axiom -/
def LAxiom.head (x : LAxiom P V O T) (σ : V → O) : GAtom P O := ⟨x.pred, (x.params.take x.external).map (fun p => σ p.1)⟩

/-- the derived atom follows from instances of axioms, if negative literals and atoms that are not derived are read off the state `s` -/
inductive LTask.Derives (s : GAtom P O → Prop) : GAtom P O → Prop where
  | rule (x : LAxiom P V O T) (hx : x ∈ L.axioms) (σ : V → O) (ht : L.Typed x.params σ) (hfalse : .falsity ∉ x.cond)
      (hneg : ∀ a, .lit true a ∈ x.cond → ¬ s (a.inst σ))
      (hbase : ∀ a, .lit false a ∈ x.cond → ¬ L.Derived (a.inst σ) → s (a.inst σ))
      (hpos : ∀ a, .lit false a ∈ x.cond → L.Derived (a.inst σ) → LTask.Derives s (a.inst σ)) :
      LTask.Derives s (x.head σ)

/-- `s` is the state with the basic atoms of `b`, in which derived atoms are true if they follow from the axioms (a stable model) -/
structure LTask.Completes (b s : GAtom P O → Prop) : Prop where
  base : ∀ p, ¬ L.Derived p → (s p ↔ b p)
  derived : ∀ p, L.Derived p → (s p ↔ L.Derives s p)

/-- `τ` gives values to the parameters of the effect, and the same values as `σ` to other variables -/
def LTask.Extends (e : LEffect P V O T) (σ τ : V → O) : Prop := (∀ v, v ∉ e.params.map (·.1) → τ v = σ v) ∧ L.Typed e.params τ

/-- an effect of the instance of the action adds (or deletes, if `negated` is true) the atom -/
def LTask.Changes (negated : Bool) (A : LAction P V O T F) (σ : V → O) (s : GAtom P O → Prop) (p : GAtom P O) : Prop :=
  ∃ e ∈ A.effects, ∃ τ, L.Extends e σ τ ∧ e.negated = negated ∧ e.atom.inst τ = p ∧ ∀ c ∈ e.cond, c.holds τ s

/-- deleted atoms are removed first, and added atoms are added then -/
def LTask.result (A : LAction P V O T F) (σ : V → O) (s : GAtom P O → Prop) (p : GAtom P O) : Prop := L.Changes false A σ s p ∨ (s p ∧ ¬ L.Changes true A σ s p)

/-- the value of the cost expression, if it has one -/
def LTask.CostValue (σ : V → O) (n : Nat) : CostExpr V O F → Prop
  | .none => n = 0
  | .const k => n = k
  | .fn f args => ((f, args.map (·.value σ)), n) ∈ L.values

/-- `s'` is the state after an instance of an action schema in `s`: the values of parameters have the right types, the cost has a value, and the precondition is true -/
def LTask.Step (s : GAtom P O → Prop) (A : LAction P V O T F) (σ : V → O) (s' : GAtom P O → Prop) : Prop :=
  A ∈ L.actions ∧ L.Typed A.params σ ∧ (∃ n, L.CostValue σ n A.cost) ∧ (∀ c ∈ A.pre, c.holds σ s) ∧ L.Completes (L.result A σ s) s'

/-- the name of an instance: the name of the action and the objects, with a space before each object (and one space, if there is no object) -/
def LTask.instName (A : LAction P V O T F) (σ : V → O) : List Char := A.name ++ ' ' :: [' '].intercalate ((A.params.take A.external).map (fun p => L.objectName (σ p.1)))

/-- the number is the cost of the instance; all costs are 1 if the task has no metric -/
def LTask.CostIs (A : LAction P V O T F) (σ : V → O) (n : Nat) : Prop := if L.metric then L.CostValue σ n A.cost else n = 1

/-- actions with the given names and costs lead from one state to another -/
inductive LTask.Run : (GAtom P O → Prop) → List (List Char × Nat) → (GAtom P O → Prop) → Prop where
  | nil (s) : LTask.Run s [] s
  | cons (s A σ n s' p u) : L.Step s A σ s' → L.CostIs A σ n → LTask.Run s' p u → LTask.Run s ((L.instName A σ, n) :: p) u

/-- the initial state -/
def LTask.Initial (s : GAtom P O → Prop) : Prop := L.Completes (fun p => p ∈ L.init) s

def LTask.Reachable (s : GAtom P O → Prop) : Prop := ∃ s0 p, L.Initial s0 ∧ L.Run s0 p s

/-- `p` are the names and costs of the actions of a plan; the goal has no variables, so that their values `σ` do not matter -/
def LTask.HasPlan (p : List (List Char × Nat)) : Prop := ∃ s u, L.Initial s ∧ L.Run s p u ∧ ∀ c ∈ L.goal, ∀ σ : V → O, c.holds σ u

/-- the axioms are stratifiable: no derived atom is below one that it depends on, and it is above those that it depends on by negation -/
def LTask.Stratifiable : Prop := ∃ layer : GAtom P O → Nat, ∀ x ∈ L.axioms, ∀ σ, L.Typed x.params σ → ∀ negated a, .lit negated a ∈ x.cond → L.Derived (a.inst σ) →
  layer (a.inst σ) ≤ layer (x.head σ) ∧ (negated = true → layer (a.inst σ) < layer (x.head σ))

/-- the variables of parts of a condition -/
def condVars (cs : List (Part P V O)) : List V := cs.flatMap (fun c => match c with | .lit _ a => a.vars | .falsity => [])

/-- the number of arguments fits -/
def condArity (ar : P → Nat) (cs : List (Part P V O)) : Prop := ∀ n a, .lit n a ∈ cs → a.args.length = ar a.pred

/-- the variables of arguments -/
def argVars (ts : List (Term V O)) : List V := ts.filterMap Term.var?

/-- What the parser and the normalisation guarantee: numbers of arguments fit (`ar` and `fnAr`); equality is true for equal objects only and is not changed; all objects are declared; variables are parameters; the parameters of an action or
axiom have different names, also from those of the effects; derived atoms are not true initially and not changed by actions; functions have one initial value.  In addition, no variable occurs twice in the cost of an action. -/
structure LTask.Ok (ar : P → Nat) (fnAr : F → Nat) : Prop where
  initArity : ∀ a ∈ L.init, a.args.length = ar a.pred
  valueArity : ∀ x ∈ L.values, x.1.2.length = fnAr x.1.1
  goalArity : condArity ar L.goal
  preArity : ∀ A ∈ L.actions, condArity ar A.pre
  costArity : ∀ A ∈ L.actions, ∀ f args, A.cost = .fn f args → args.length = fnAr f
  effectArity : ∀ A ∈ L.actions, ∀ e ∈ A.effects, condArity ar e.cond ∧ e.atom.args.length = ar e.atom.pred
  axiomArity : ∀ x ∈ L.axioms, condArity ar x.cond ∧ x.external = ar x.pred ∧ x.external ≤ x.params.length
  eqArity : ar L.eq = 2
  eqSame : ∀ x ∈ L.objects, ⟨L.eq, [x.1, x.1]⟩ ∈ L.init
  eqOnly : ∀ a ∈ L.init, a.pred = L.eq → ∃ o, a.args = [o, o]
  eqEffect : ∀ A ∈ L.actions, ∀ e ∈ A.effects, e.atom.pred ≠ L.eq
  eqAxiom : ∀ x ∈ L.axioms, x.pred ≠ L.eq
  initObjects : ∀ a ∈ L.init, ∀ o ∈ a.args, ∃ t, (o, t) ∈ L.objects
  valueObjects : ∀ x ∈ L.values, ∀ o ∈ x.1.2, ∃ t, (o, t) ∈ L.objects
  effectObjects : ∀ A ∈ L.actions, ∀ e ∈ A.effects, ∀ o, .const o ∈ e.atom.args → ∃ t, (o, t) ∈ L.objects
  preVars : ∀ A ∈ L.actions, ∀ v ∈ condVars A.pre, v ∈ A.params.map (·.1)
  costVars : ∀ A ∈ L.actions, ∀ f args, A.cost = .fn f args → (argVars args).Nodup ∧ ∀ v ∈ argVars args, v ∈ A.params.map (·.1)
  effectVars : ∀ A ∈ L.actions, ∀ e ∈ A.effects, ∀ v, (v ∈ condVars e.cond ∨ v ∈ e.atom.vars) → v ∈ A.params.map (·.1) ∨ v ∈ e.params.map (·.1)
  axiomVars : ∀ x ∈ L.axioms, ∀ v ∈ condVars x.cond, v ∈ x.params.map (·.1)
  goalVars : condVars L.goal = []
  actionParams : ∀ A ∈ L.actions, (A.params.map (·.1)).Nodup
  axiomParams : ∀ x ∈ L.axioms, (x.params.map (·.1)).Nodup
  effectParams : ∀ A ∈ L.actions, ∀ e ∈ A.effects, (e.params.map (·.1)).Nodup ∧ ∀ v ∈ e.params.map (·.1), v ∉ A.params.map (·.1)
  derivedInit : ∀ a ∈ L.init, ¬ L.Derived a
  derivedEffect : ∀ A ∈ L.actions, ∀ e ∈ A.effects, ∀ x ∈ L.axioms, x.pred ≠ e.atom.pred
  functional : ∀ k n m, (k, n) ∈ L.values → (k, m) ∈ L.values → n = m

/-- the variables of the task -/
def LTask.vars : List V :=
  L.actions.flatMap (fun A => A.params.map (·.1) ++ A.effects.flatMap (fun e => e.params.map (·.1))) ++ L.axioms.flatMap (fun x => x.params.map (·.1))

end Verif.Lifted
