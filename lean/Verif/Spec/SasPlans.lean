import Verif.Spec.SasFile
import Verif.Spec.Plan
import Mathlib.Data.List.Lex
import Mathlib.Data.Prod.Lex
import Mathlib.Data.Int.Order.Basic

/-
Plans of tasks of the translator, the requirements on sorting and uniqueness of sas_tasks.py `validate`, and reachability of values.
-/
namespace Verif.SasFile

/-- name and cost of an operator -/
def SasTask.label (T : SasTask) (i : Nat) : Option (List Char × Nat) := (T.operators[i]?).map (fun o => (o.name, o.cost))

/-- `p` are the names and costs of the operators of a plan: they are applicable one after the other in the initial state, in which the values of derived variables are those that follow from the axioms,
and the goals hold at the end -/
def SasTask.HasPlan (T : SasTask) (p : List (List Char × Nat)) : Prop :=
  ∃ s π, StableModel T.task T.init s ∧ T.task.SolvesFrom s π ∧ π.map T.label = p.map some

/-- strictly sorted by variables: no variable is mentioned twice -/
def SortedVars (fs : List Fact) : Prop := fs.Pairwise (fun a b => a.var < b.var)

/-- the order of Python on effects, tuples of variable, value before (or -1), value after, and conditions -/
def PrePost.key (e : PrePost) : Nat ×ₗ Int ×ₗ Nat ×ₗ List (Nat ×ₗ Nat) :=
  toLex (e.var, toLex (match e.pre with | none => (-1 : Int) | some x => (x : Int), toLex (e.post, e.conds.map (fun c => toLex (c.var, c.val)))))

/-- sas_tasks.py `SASOperator.validate`, items 1, 2, 4 and 8, and the first half of item 3 -/
structure SasOperator.Canonical (o : SasOperator) : Prop where
  prevail : SortedVars o.prevail
  conds : ∀ e ∈ o.prePost, SortedVars e.conds
  sorted : o.prePost.Pairwise (fun a b => a.key < b.key)
  prevailOrEffect : ∀ f ∈ o.prevail, ∀ e ∈ o.prePost, f.var ≠ e.var
  samePre : ∀ e ∈ o.prePost, ∀ e' ∈ o.prePost, e.var = e'.var → e.pre = e'.pre

/-- what sas_tasks.py `validate` says about sorting and uniqueness -/
structure SasTask.Canonical (T : SasTask) : Prop where
  goal : SortedVars T.goal
  mutexes : ∀ m ∈ T.mutexes, m.Pairwise (fun a b => a.var < b.var ∨ (a.var = b.var ∧ a.val < b.val))
  operators : ∀ o ∈ T.operators, o.Canonical
  axioms : ∀ a ∈ T.axioms, SortedVars a.conds

/-- an effect that leaves a variable at the value it has by a precondition cannot override another effect on the variable -/
def SasTask.NoKeepingEffects (T : SasTask) : Prop :=
  ∀ o ∈ T.operators, ∀ e ∈ o.prePost, ∀ e' ∈ o.prePost, e.pre = some e.post → e.var = e'.var → e.post ≤ e'.post

/-- all numbers of the task are ints of the search component -/
structure SasTask.Fits (T : SasTask) : Prop where
  vars : T.variables.length ≤ IntMax
  domains : ∀ v ∈ T.variables, v.valueNames.length ≤ IntMax
  layers : ∀ v ∈ T.variables, ∀ l, v.layer = some l → l ≤ IntMax
  mutexes : T.mutexes.length ≤ IntMax ∧ ∀ m ∈ T.mutexes, m.length ≤ IntMax
  goal : T.goal.length ≤ IntMax
  operators : T.operators.length ≤ IntMax ∧ ∀ o ∈ T.operators, o.cost ≤ IntMax ∧ o.prevail.length ≤ IntMax ∧ o.prePost.length ≤ IntMax ∧ ∀ e ∈ o.prePost, e.conds.length ≤ IntMax
  axioms : T.axioms.length ≤ IntMax ∧ ∀ a ∈ T.axioms, a.conds.length ≤ IntMax

/-- the effect can change the variable from `x`: the conditions of the operator and of the effect do not exclude this value of the variable -/
def AllowsValue (o : SasOperator) (e : PrePost) (x : Nat) : Prop :=
  (∀ f ∈ o.prevail, f.var = e.var → f.val = x) ∧ (∀ e' ∈ o.prePost, e'.var = e.var → ∀ y, e'.pre = some y → y = x) ∧ ∀ c ∈ e.conds, c.var = e.var → c.val = x

/-- values of the variable `v` that can be reached from the initial one by single effects and axioms, if all conditions on other variables are ignored -/
inductive SasTask.Reached (T : SasTask) (v : Nat) : Nat → Prop where
  | init (x : Nat) : T.init[v]? = some x → T.Reached v x
  | effect (x : Nat) (o : SasOperator) (e : PrePost) : T.Reached v x → o ∈ T.operators → e ∈ o.prePost → e.var = v → AllowsValue o e x → T.Reached v e.post
  | axiom (a : SasAxiom) : a ∈ T.axioms → a.effect.var = v → T.Reached v a.effect.val

end Verif.SasFile
