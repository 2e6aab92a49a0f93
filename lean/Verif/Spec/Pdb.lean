import Verif.Spec.Plan

/-
Projections of planning tasks.
-/
namespace Verif

/-- the projection to the variables of `P`: all conditions, effects and goals on other variables are dropped -/
def Task.project (t : Task) (P : List Nat) : Task :=
  { t with
    ops := t.ops.map (fun o => { o with pre := o.pre.filter (fun f => decide (f.var ∈ P)), effects := o.effects.filter (fun e => decide (e.fact.var ∈ P)) })
    goal := t.goal.filter (fun f => decide (f.var ∈ P)) }

/-- the domain size of a variable -/
def Task.domain (t : Task) (v : Nat) : Nat := ((t.vars[v]?).map (·.domain)).getD 0

/-- the number of states of the projection -/
def Task.numAbstractStates (t : Task) (P : List Nat) : Nat := (P.map t.domain).prod

/-- the variables of `l` that are also in `m`, in the order of `l` -/
def common (l m : List Nat) : List Nat := l.filter (fun v => decide (v ∈ m))

/-- the tasks supported by pattern databases: no axioms and conditional effects; no operator mentions a
variable twice in its precondition or effect; variables with precondition and effect are mentioned in the same
order in the precondition and in the effects -/
structure Task.PdbOk (t : Task) : Prop where
  wf : t.WF
  axioms : t.axioms = []
  conds : ∀ o ∈ t.ops, ∀ e ∈ o.effects, e.conds = []
  pre : ∀ o ∈ t.ops, (o.pre.map (·.var)).Nodup
  eff : ∀ o ∈ t.ops, (o.effects.map (·.fact.var)).Nodup
  aligned : ∀ o ∈ t.ops, common (o.pre.map (·.var)) (o.effects.map (·.fact.var)) = common (o.effects.map (·.fact.var)) (o.pre.map (·.var))

/-- a pattern: existing variables, none of them twice -/
structure Task.IsPattern (t : Task) (P : List Nat) : Prop where
  range : ∀ v ∈ P, v < t.vars.length
  nodup : P.Nodup

/-- the operator costs of the list; those of the task if the list is empty -/
def Task.costWith (t : Task) (costs : List Nat) (i : Nat) : Nat := if costs = [] then t.opCost i else (costs[i]?).getD 0

/-- `h` is the perfect heuristic value of `s` in the task `t` with operator costs `c`: the least cost of a plan from `s`,
`none` if there is no plan -/
def Task.PerfectValue (t : Task) (c : Nat → Nat) (s : State) : Option Nat → Prop
  | none => ∀ π, ¬t.SolvesFrom s π
  | some n => (∃ π, t.SolvesFrom s π ∧ (π.map c).sum = n) ∧ ∀ π, t.SolvesFrom s π → n ≤ (π.map c).sum

end Verif
