import Verif.Spec.Succ

/-
Specification of translator output: the planning task that the translator has in memory, when it is valid, and the task of the search component that it
stands for.
-/
namespace Verif.SasFile

/-- an effect of the translator: variable, value before (`none` for -1), value after, conditions -/
structure PrePost where
  var : Nat
  pre : Option Nat
  post : Nat
  conds : List Fact
deriving DecidableEq

/-- an operator of the translator; the name is without the parentheses around it -/
structure SasOperator where
  name : List Char
  prevail : List Fact
  prePost : List PrePost
  cost : Nat

/-- an axiom of the translator -/
structure SasAxiom where
  conds : List Fact
  effect : Fact

/-- a variable of the translator; `layer` is `none` for -1; the size of the domain is the number of names -/
structure SasVariable where
  layer : Option Nat
  valueNames : List (List Char)

/-- a task of the translator -/
structure SasTask where
  variables : List SasVariable
  mutexes : List (List Fact)
  init : List Nat
  goal : List Fact
  operators : List SasOperator
  axioms : List SasAxiom
  metric : Bool

/-- white space of the C locale -/
def isSpace (c : Char) : Bool := c = ' ' || c = '\t' || c = '\n' || c = '\x0b' || c = '\x0c' || c = '\x0d'

/-- a name fills a line of its own: no line break, and not only white space -/
def NameOk (n : List Char) : Prop := '\n' ∉ n ∧ ∃ c ∈ n, isSpace c = false

/-- numbers of the search component are ints -/
def IntMax : Nat := 2147483647

/-- the fact exists -/
def FactOk (T : SasTask) (f : Fact) : Prop := ∃ v, T.variables[f.var]? = some v ∧ f.val < v.valueNames.length

/-- the layer of a variable -/
def layerOf (T : SasTask) (var : Nat) : Option Nat := (T.variables[var]?).bind (·.layer)

/-- a condition: facts that exist, and not too many of them -/
def CondOk (T : SasTask) (fs : List Fact) : Prop := (∀ f ∈ fs, FactOk T f) ∧ fs.length ≤ IntMax

structure SasOperator.Valid (T : SasTask) (o : SasOperator) : Prop where
  name : NameOk o.name
  prevail : CondOk T o.prevail
  someEffect : o.prePost ≠ []
  fewEffects : o.prePost.length ≤ IntMax
  pre : ∀ e ∈ o.prePost, ∀ x, e.pre = some x → FactOk T ⟨e.var, x⟩
  post : ∀ e ∈ o.prePost, FactOk T ⟨e.var, e.post⟩
  conds : ∀ e ∈ o.prePost, CondOk T e.conds
  basic : ∀ e ∈ o.prePost, layerOf T e.var = none
  cost : o.cost ≤ IntMax

/-- an axiom sets a derived variable to the value it does not have initially; variables in the condition are on the same layer or below, and have
the other value than initially if they are on the same layer -/
structure SasAxiom.Valid (T : SasTask) (a : SasAxiom) : Prop where
  conds : CondOk T a.conds
  effect : FactOk T a.effect
  derived : ∃ l, layerOf T a.effect.var = some l ∧
    ∀ c ∈ a.conds, ∀ lc, layerOf T c.var = some lc → lc ≤ l ∧ (lc = l → T.init[c.var]? ≠ some c.val)
  nonInit : T.init[a.effect.var]? ≠ some a.effect.val

/-- sas_tasks.py `validate`, without the requirements on sorting and uniqueness, plus names that fill a line and numbers that are ints -/
structure SasTask.Valid (T : SasTask) : Prop where
  someVariable : T.variables ≠ []
  names : ∀ v ∈ T.variables, ∀ n ∈ v.valueNames, NameOk n
  domain : ∀ v ∈ T.variables, 1 ≤ v.valueNames.length ∧ v.valueNames.length ≤ IntMax
  derived : ∀ v ∈ T.variables, v.layer ≠ none → v.valueNames.length = 2
  layers : ∀ v ∈ T.variables, ∀ l, v.layer = some l → l ≤ IntMax
  fewVariables : T.variables.length ≤ IntMax
  mutexes : ∀ m ∈ T.mutexes, CondOk T m
  fewMutexes : T.mutexes.length ≤ IntMax
  init : T.init.length = T.variables.length
  initOk : ∀ (v x : Nat), T.init[v]? = some x → FactOk T ⟨v, x⟩
  goal : CondOk T T.goal
  someGoal : T.goal ≠ []
  goalOnce : (T.goal.map (·.var)).Nodup
  operators : ∀ o ∈ T.operators, o.Valid T
  fewOperators : T.operators.length ≤ IntMax
  axioms : ∀ a ∈ T.axioms, a.Valid T
  fewAxioms : T.axioms.length ≤ IntMax

/-- The planning task that is meant: all prevail conditions and values before effects are preconditions, operators cost 1 unless a metric is used,
and the default values of variables are the initial ones.  The initial values of derived variables are still the default values. -/
def SasTask.task (T : SasTask) : Task where
  vars := (T.variables.zip T.init).map (fun v => ⟨v.1.valueNames.length, v.1.layer, v.2⟩)
  ops := T.operators.map (fun o =>
    ⟨o.prevail ++ o.prePost.filterMap (fun e => e.pre.map (fun x => ⟨e.var, x⟩)), o.prePost.map (fun e => ⟨e.conds, ⟨e.var, e.post⟩⟩), if T.metric then o.cost else 1⟩)
  axioms := T.axioms.map (fun a => ⟨[⟨a.effect.var, 1 - a.effect.val⟩], [⟨a.conds, a.effect⟩], 0⟩)
  init := T.init
  goal := T.goal

/-- two facts exclude each other: different values of a variable, or facts of different variables in a common mutex group -/
def SasTask.Mutex (T : SasTask) (f g : Fact) : Prop := (f.var = g.var ∧ f.val ≠ g.val) ∨ (f.var ≠ g.var ∧ ∃ m ∈ T.mutexes, f ∈ m ∧ g ∈ m)

end Verif.SasFile
