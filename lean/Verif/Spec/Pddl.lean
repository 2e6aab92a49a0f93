import Verif.Spec.Lifted

/-
Specification of PDDL tasks before normalisation: conditions are formulas with quantifiers, in negation normal form.  The semantics is that of PDDL 2.2 with derived predicates.
-/
namespace Verif.Pddl
open Verif.Datalog Verif.Lifted

/-- a condition -/
inductive Cond (P V O T : Type) where
  | truth
  | falsity
  | lit (negated : Bool) (atom : SymAtom P V O)
  | conj (parts : List (Cond P V O T))
  | disj (parts : List (Cond P V O T))
  | all (params : List (V × T)) (body : Cond P V O T)
  | ex (params : List (V × T)) (body : Cond P V O T)

/-- a conditional effect for all objects of some types -/
structure PEffect (P V O T : Type) where
  params : List (V × T)
  cond : Cond P V O T
  negated : Bool
  atom : SymAtom P V O

/-- an action schema -/
structure PAction (P V O T F : Type) where
  name : List Char
  params : List (V × T)
  external : Nat
  pre : Cond P V O T
  effects : List (PEffect P V O T)
  cost : CostExpr V O F

/-- a derived predicate with its condition -/
structure PAxiom (P V O T : Type) where
  pred : P
  params : List (V × T)
  external : Nat
  cond : Cond P V O T

/-- a task, as `LTask` -/
structure PTask (P V O T F : Type) where
  eq : P
  objectName : O → List Char
  supertypes : T → List T
  objects : List (O × T)
  init : List (GAtom P O)
  values : List ((F × List O) × Nat)
  goal : Cond P V O T
  actions : List (PAction P V O T F)
  axioms : List (PAxiom P V O T)
  metric : Bool

variable {P V O T F : Type}

/-- `τ` gives values of the right types to the variables in `ps`, and the same values as `σ` to other variables -/
def Ext (has : T → O → Prop) (ps : List (V × T)) (σ τ : V → O) : Prop := (∀ v, v ∉ ps.map (·.1) → τ v = σ v) ∧ ∀ p ∈ ps, has p.2 (τ p.1)

mutual
/-- The condition is true for values of variables.  `ev` is the value of (negated) atoms, `under` is that of (negated) atoms under a universal quantifier. -/
def Cond.sat (has : T → O → Prop) (ev under : Bool → GAtom P O → Prop) (σ : V → O) : Cond P V O T → Prop
  | .truth => True
  | .falsity => False
  | .lit n a => ev n (a.inst σ)
  | .conj cs => satAll has ev under σ cs
  | .disj cs => satSome has ev under σ cs
  | .all ps b => ∀ τ, Ext has ps σ τ → b.sat has under under τ
  | .ex ps b => ∃ τ, Ext has ps σ τ ∧ b.sat has ev under τ
/-- all parts are true -/
def satAll (has : T → O → Prop) (ev under : Bool → GAtom P O → Prop) (σ : V → O) : List (Cond P V O T) → Prop
  | [] => True
  | c :: cs => c.sat has ev under σ ∧ satAll has ev under σ cs
/-- one of the parts is true -/
def satSome (has : T → O → Prop) (ev under : Bool → GAtom P O → Prop) (σ : V → O) : List (Cond P V O T) → Prop
  | [] => False
  | c :: cs => c.sat has ev under σ ∨ satSome has ev under σ cs
end

/-- the value of (negated) atoms in a state -/
def lits (s : GAtom P O → Prop) (negated : Bool) (p : GAtom P O) : Prop := if negated then ¬ s p else s p

/-- the condition is true in the state -/
def Cond.holds (has : T → O → Prop) (s : GAtom P O → Prop) (σ : V → O) (c : Cond P V O T) : Prop := c.sat has (lits s) (lits s) σ

variable (Q : PTask P V O T F)

/-- the object has the type -/
def PTask.HasType (t : T) (o : O) : Prop := ∃ u, (o, u) ∈ Q.objects ∧ (t = u ∨ t ∈ Q.supertypes u)

/-- the values of the parameters have the right types -/
def PTask.Typed (params : List (V × T)) (σ : V → O) : Prop := ∀ p ∈ params, Q.HasType p.2 (σ p.1)

/-- the predicate of the atom is derived -/
def PTask.Derived (p : GAtom P O) : Prop := ∃ x ∈ Q.axioms, x.pred = p.pred

/-- the derived atom of an instance of an axiom -/
def PAxiom.head (x : PAxiom P V O T) (σ : V → O) : GAtom P O := ⟨x.pred, (x.params.take x.external).map (fun p => σ p.1)⟩

/-- the value of (negated) atoms if the derived atoms in `D` follow: negated atoms and those that are not derived are read off the state -/
def PTask.ruleLits (s D : GAtom P O → Prop) (negated : Bool) (p : GAtom P O) : Prop := if negated then ¬ s p else (Q.Derived p ∧ D p) ∨ (¬ Q.Derived p ∧ s p)

/-- the derived atoms that follow: the smallest set with the heads of all instances of axioms whose conditions are true -/
def PTask.Derives (s : GAtom P O → Prop) (p : GAtom P O) : Prop :=
  ∀ D : GAtom P O → Prop, (∀ x ∈ Q.axioms, ∀ σ, Q.Typed x.params σ → x.cond.sat Q.HasType (Q.ruleLits s D) (Q.ruleLits s D) σ → D (x.head σ)) → D p

/-- `s` is the state with the basic atoms of `b`, in which derived atoms are true if they follow -/
structure PTask.Completes (b s : GAtom P O → Prop) : Prop where
  base : ∀ p, ¬ Q.Derived p → (s p ↔ b p)
  derived : ∀ p, Q.Derived p → (s p ↔ Q.Derives s p)

/-- an effect of the instance of the action adds (or deletes, if `negated` is true) the atom -/
def PTask.Changes (negated : Bool) (A : PAction P V O T F) (σ : V → O) (s : GAtom P O → Prop) (p : GAtom P O) : Prop :=
  ∃ e ∈ A.effects, ∃ τ, Ext Q.HasType e.params σ τ ∧ e.negated = negated ∧ e.atom.inst τ = p ∧ e.cond.holds Q.HasType s τ

/-- deleted atoms are removed first, and added atoms are added then -/
def PTask.result (A : PAction P V O T F) (σ : V → O) (s : GAtom P O → Prop) (p : GAtom P O) : Prop := Q.Changes false A σ s p ∨ (s p ∧ ¬ Q.Changes true A σ s p)

/-- the value of the cost expression, if it has one -/
def PTask.CostValue (σ : V → O) (n : Nat) : CostExpr V O F → Prop
  | .none => n = 0
  | .const k => n = k
  | .fn f args => ((f, args.map (·.value σ)), n) ∈ Q.values

/-- `s'` is the state after an instance of an action schema in `s` -/
def PTask.Step (s : GAtom P O → Prop) (A : PAction P V O T F) (σ : V → O) (s' : GAtom P O → Prop) : Prop :=
  A ∈ Q.actions ∧ Q.Typed A.params σ ∧ (∃ n, Q.CostValue σ n A.cost) ∧ A.pre.holds Q.HasType s σ ∧ Q.Completes (Q.result A σ s) s'

/-- the name of an instance -/
def PTask.instName (A : PAction P V O T F) (σ : V → O) : List Char := A.name ++ ' ' :: [' '].intercalate ((A.params.take A.external).map (fun p => Q.objectName (σ p.1)))

/-- the number is the cost of the instance; all costs are 1 if the task has no metric -/
def PTask.CostIs (A : PAction P V O T F) (σ : V → O) (n : Nat) : Prop := if Q.metric then Q.CostValue σ n A.cost else n = 1

/-- actions with the given names and costs lead from one state to another -/
inductive PTask.Run : (GAtom P O → Prop) → List (List Char × Nat) → (GAtom P O → Prop) → Prop where
  | nil (s) : PTask.Run s [] s
  | cons (s A σ n s' p u) : Q.Step s A σ s' → Q.CostIs A σ n → PTask.Run s' p u → PTask.Run s ((Q.instName A σ, n) :: p) u

/-- the initial state -/
def PTask.Initial (s : GAtom P O → Prop) : Prop := Q.Completes (fun p => p ∈ Q.init) s

/-- `p` are the names and costs of the actions of a plan; the goal has no free variables, so that their values `σ` do not matter -/
def PTask.HasPlan (p : List (List Char × Nat)) : Prop := ∃ s u, Q.Initial s ∧ Q.Run s p u ∧ ∀ σ : V → O, Q.goal.holds Q.HasType u σ

mutual
/-- the atom occurs in the condition, for values of variables; `strict` if it is negated or under a universal quantifier (which is the case for the whole condition, if `u` is true) -/
def Cond.occurs (has : T → O → Prop) (strict : Bool) (p : GAtom P O) (u : Bool) (σ : V → O) : Cond P V O T → Prop
  | .truth => False
  | .falsity => False
  | .lit n a => strict = (n || u) ∧ p = a.inst σ
  | .conj cs => occursAny has strict p u σ cs
  | .disj cs => occursAny has strict p u σ cs
  | .all ps b => ∃ τ, Ext has ps σ τ ∧ b.occurs has strict p true τ
  | .ex ps b => ∃ τ, Ext has ps σ τ ∧ b.occurs has strict p u τ
/-- the atom occurs in one of the conditions -/
def occursAny (has : T → O → Prop) (strict : Bool) (p : GAtom P O) (u : Bool) (σ : V → O) : List (Cond P V O T) → Prop
  | [] => False
  | c :: cs => c.occurs has strict p u σ ∨ occursAny has strict p u σ cs
end

/-- The axioms are stratifiable: no derived atom is below one that it depends on, and it is above those that it depends on by negation or under a universal quantifier. -/
def PTask.Stratifiable : Prop := ∃ layer : GAtom P O → Nat, ∀ x ∈ Q.axioms, ∀ σ, Q.Typed x.params σ → ∀ strict p, x.cond.occurs Q.HasType strict p false σ → Q.Derived p →
  layer p ≤ layer (x.head σ) ∧ (strict = true → layer p < layer (x.head σ))

mutual
/-- the quantified variables of a condition, with their types -/
def Cond.bound : Cond P V O T → List (V × T)
  | .truth => []
  | .falsity => []
  | .lit _ _ => []
  | .conj cs => boundAll cs
  | .disj cs => boundAll cs
  | .all ps b => ps ++ b.bound
  | .ex ps b => ps ++ b.bound
def boundAll : List (Cond P V O T) → List (V × T)
  | [] => []
  | c :: cs => c.bound ++ boundAll cs
end

mutual
/-- the literals of a condition satisfy `p` -/
def Cond.Lits (p : Bool → SymAtom P V O → Prop) : Cond P V O T → Prop
  | .truth => True
  | .falsity => True
  | .lit n a => p n a
  | .conj cs => LitsAll p cs
  | .disj cs => LitsAll p cs
  | .all _ b => b.Lits p
  | .ex _ b => b.Lits p
def LitsAll (p : Bool → SymAtom P V O → Prop) : List (Cond P V O T) → Prop
  | [] => True
  | c :: cs => c.Lits p ∧ LitsAll p cs
end

mutual
/-- all variables are quantified or in `vs` -/
def Cond.Scoped (vs : List V) : Cond P V O T → Prop
  | .truth => True
  | .falsity => True
  | .lit _ a => ∀ v ∈ a.vars, v ∈ vs
  | .conj cs => ScopedAll vs cs
  | .disj cs => ScopedAll vs cs
  | .all ps b => b.Scoped (ps.map (·.1) ++ vs)
  | .ex ps b => b.Scoped (ps.map (·.1) ++ vs)
def ScopedAll (vs : List V) : List (Cond P V O T) → Prop
  | [] => True
  | c :: cs => c.Scoped vs ∧ ScopedAll vs cs
end

mutual
/-- the condition is trivially true (or trivially false, if `v` is false), without a look at its literals and at which objects there are -/
def Cond.trivially (v : Bool) : Cond P V O T → Bool
  | .truth => v
  | .falsity => !v
  | .lit _ _ => false
  | .conj cs => if v then allTrivially v cs else someTrivially v cs
  | .disj cs => if v then someTrivially v cs else allTrivially v cs
  | .all _ b => b.trivially v
  | .ex _ b => b.trivially v
def allTrivially (v : Bool) : List (Cond P V O T) → Bool
  | [] => true
  | c :: cs => c.trivially v && allTrivially v cs
def someTrivially (v : Bool) : List (Cond P V O T) → Bool
  | [] => false
  | c :: cs => c.trivially v || someTrivially v cs
end

mutual
/-- if there are no objects for a quantifier, then what it ranges over is not trivially true (for an existential quantifier) or trivially false (for a universal quantifier) -/
def Cond.Proper (has : T → O → Prop) : Cond P V O T → Prop
  | .truth => True
  | .falsity => True
  | .lit _ _ => True
  | .conj cs => ProperAll has cs
  | .disj cs => ProperAll has cs
  | .all ps b => ((∃ τ : V → O, ∀ p ∈ ps, has p.2 (τ p.1)) ∨ b.trivially false = false) ∧ b.Proper has
  | .ex ps b => ((∃ τ : V → O, ∀ p ∈ ps, has p.2 (τ p.1)) ∨ b.trivially true = false) ∧ b.Proper has
def ProperAll (has : T → O → Prop) : List (Cond P V O T) → Prop
  | [] => True
  | c :: cs => c.Proper has ∧ ProperAll has cs
end

/-- true or false -/
def Cond.isConst : Cond P V O T → Bool
  | .truth => true
  | .falsity => true
  | _ => false

def Cond.isConj : Cond P V O T → Bool
  | .conj _ => true
  | _ => false

def Cond.isDisj : Cond P V O T → Bool
  | .disj _ => true
  | _ => false

mutual
/-- the condition is simplified: parts of a conjunction are not conjunctions and not constants, parts of a disjunction are not disjunctions and not constants -/
def Cond.Flat : Cond P V O T → Prop
  | .truth => True
  | .falsity => True
  | .lit _ _ => True
  | .conj cs => (∀ c ∈ cs, c.isConj = false ∧ c.isConst = false) ∧ FlatAll cs
  | .disj cs => (∀ c ∈ cs, c.isDisj = false ∧ c.isConst = false) ∧ FlatAll cs
  | .all _ b => b.Flat
  | .ex _ b => b.Flat
def FlatAll : List (Cond P V O T) → Prop
  | [] => True
  | c :: cs => c.Flat ∧ FlatAll cs
end

/-- names of variables -/
def names (ps : List (V × T)) : List V := ps.map (·.1)

/-- all variables that an action introduces, with their types -/
def PAction.binders (A : PAction P V O T F) : List (V × T) := A.params ++ A.pre.bound ++ A.effects.flatMap (fun e => e.params ++ e.cond.bound)

/-- all variables that an axiom introduces, with their types -/
def PAxiom.binders (x : PAxiom P V O T) : List (V × T) := x.params ++ x.cond.bound

/-- all conditions of a task -/
def PTask.conditions : List (Cond P V O T) := Q.actions.flatMap (fun A => A.pre :: A.effects.map (·.cond)) ++ Q.axioms.map (·.cond) ++ [Q.goal]

/-- the number of arguments fits -/
def Cond.arity (ar : P → Nat) (c : Cond P V O T) : Prop := c.Lits (fun _ a => a.args.length = ar a.pred)

/-- What the parser guarantees: numbers of arguments fit (`ar` and `fnAr`); equality is true for equal objects only and is not changed; all objects are declared; all variables are parameters or quantified;
functions have one initial value; conditions are simplified.  In addition, no variable occurs twice in the cost of an action, and quantifiers over types without objects are not trivial. -/
structure PTask.Basic (ar : P → Nat) (fnAr : F → Nat) : Prop where
  initArity : ∀ a ∈ Q.init, a.args.length = ar a.pred
  valueArity : ∀ x ∈ Q.values, x.1.2.length = fnAr x.1.1
  arity : ∀ c ∈ Q.conditions, c.arity ar
  costArity : ∀ A ∈ Q.actions, ∀ f args, A.cost = .fn f args → args.length = fnAr f
  effectArity : ∀ A ∈ Q.actions, ∀ e ∈ A.effects, e.atom.args.length = ar e.atom.pred
  axiomArity : ∀ x ∈ Q.axioms, x.external = ar x.pred ∧ x.external ≤ x.params.length
  actionExternal : ∀ A ∈ Q.actions, A.external ≤ A.params.length
  eqArity : ar Q.eq = 2
  eqSame : ∀ x ∈ Q.objects, ⟨Q.eq, [x.1, x.1]⟩ ∈ Q.init
  eqOnly : ∀ a ∈ Q.init, a.pred = Q.eq → ∃ o, a.args = [o, o]
  eqEffect : ∀ A ∈ Q.actions, ∀ e ∈ A.effects, e.atom.pred ≠ Q.eq
  eqAxiom : ∀ x ∈ Q.axioms, x.pred ≠ Q.eq
  initObjects : ∀ a ∈ Q.init, ∀ o ∈ a.args, ∃ t, (o, t) ∈ Q.objects
  valueObjects : ∀ x ∈ Q.values, ∀ o ∈ x.1.2, ∃ t, (o, t) ∈ Q.objects
  effectObjects : ∀ A ∈ Q.actions, ∀ e ∈ A.effects, ∀ o, .const o ∈ e.atom.args → ∃ t, (o, t) ∈ Q.objects
  preVars : ∀ A ∈ Q.actions, A.pre.Scoped (names A.params)
  costVars : ∀ A ∈ Q.actions, ∀ f args, A.cost = .fn f args → (argVars args).Nodup ∧ ∀ v ∈ argVars args, v ∈ names A.params
  effectVars : ∀ A ∈ Q.actions, ∀ e ∈ A.effects, e.cond.Scoped (names (e.params ++ A.params)) ∧ ∀ v ∈ e.atom.vars, v ∈ names (e.params ++ A.params)
  axiomVars : ∀ x ∈ Q.axioms, x.cond.Scoped (names x.params)
  goalVars : Q.goal.Scoped []
  functional : ∀ k n m, (k, n) ∈ Q.values → (k, m) ∈ Q.values → n = m
  proper : ∀ c ∈ Q.conditions, c.Proper Q.HasType
  flat : ∀ c ∈ Q.conditions, c.Flat

/-- all variables (within an action, an axiom or the goal) have different names, too -/
structure PTask.Ok (ar : P → Nat) (fnAr : F → Nat) : Prop extends Q.Basic ar fnAr where
  actionNames : ∀ A ∈ Q.actions, (names A.binders).Nodup
  axiomNames : ∀ x ∈ Q.axioms, (names x.binders).Nodup
  goalNames : (names Q.goal.bound).Nodup

/-- the derived predicates are not true initially and not changed by actions -/
def PTask.DerivedOk : Prop := (∀ a ∈ Q.init, ¬ Q.Derived a) ∧ ∀ A ∈ Q.actions, ∀ e ∈ A.effects, ∀ x ∈ Q.axioms, x.pred ≠ e.atom.pred

end Verif.Pddl
