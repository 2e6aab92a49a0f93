import Verif.Spec.Task
import Mathlib.Logic.Relation

/-
Specification of the causal graph of a task of the search component, of relevance, and of orders of the variables that follow the causal graph.
-/
namespace Verif

/-- the variables that occur in operators, axioms and the goal exist -/
structure Task.InRange (t : Task) : Prop where
  pre : ∀ o ∈ t.ops ++ t.axioms, ∀ p ∈ o.pre, p.var < t.vars.length
  cond : ∀ o ∈ t.ops ++ t.axioms, ∀ e ∈ o.effects, ∀ c ∈ e.conds, c.var < t.vars.length
  eff : ∀ o ∈ t.ops ++ t.axioms, ∀ e ∈ o.effects, e.fact.var < t.vars.length
  goal : ∀ g ∈ t.goal, g.var < t.vars.length

/-- an operator or axiom has an effect on `v` that depends on `u`, by a precondition or by a condition of this effect -/
def Task.PreEff (t : Task) (u v : Nat) : Prop :=
  u ≠ v ∧ ∃ o ∈ t.ops ++ t.axioms, ∃ e ∈ o.effects, e.fact.var = v ∧ ((∃ p ∈ o.pre, p.var = u) ∨ ∃ c ∈ e.conds, c.var = u)

/-- an operator or axiom has effects on both variables -/
def Task.EffEff (t : Task) (u v : Nat) : Prop :=
  u ≠ v ∧ ∃ o ∈ t.ops ++ t.axioms, (∃ e ∈ o.effects, e.fact.var = u) ∧ ∃ e ∈ o.effects, e.fact.var = v

/-- the table lists, for every one of the `n` variables `u`, the variables `v` with `R u v`, in increasing order -/
def Lists (n : Nat) (table : List (List Nat)) (R : Nat → Nat → Prop) : Prop :=
  table.length = n ∧ (∀ (u : Nat) (row : List Nat), table[u]? = some row → row.Pairwise (· < ·) ∧ ∀ v, v ∈ row ↔ R u v)
    ∧ ∀ u v, R u v → u < n ∧ v < n

/-- does the variable occur in the goal? -/
def Task.GoalVar (t : Task) (v : Nat) : Prop := ∃ g ∈ t.goal, g.var = v

/-- changes of the variable can matter for the goal: a path of dependencies leads from it to a variable of the goal -/
def Task.RelevantVar (t : Task) (v : Nat) : Prop := ∃ g ∈ t.goal, Relation.ReflTransGen t.PreEff v g.var

/-- does one of the variables depend directly on `v`? -/
def Task.Connected (t : Task) (chosen : List Nat) (v : Nat) : Prop := ∃ u ∈ chosen, t.PreEff v u

/-- `v` is the first of the variables in `base` that has not been chosen yet and satisfies `P` -/
def FirstLeft (base chosen : List Nat) (P : Nat → Prop) (v : Nat) : Prop :=
  v ∉ chosen ∧ P v ∧ ∃ before after, base = before ++ v :: after ∧ ∀ u ∈ before, u ∉ chosen → ¬ P u

/-- `v` is the first variable left satisfying `P`, or, if no variable left satisfies `P`, the first one satisfying `Q` -/
def FirstChoice (base chosen : List Nat) (P Q : Nat → Prop) (v : Nat) : Prop :=
  FirstLeft base chosen P v ∨ ((∀ u ∈ base, u ∉ chosen → ¬ P u) ∧ FirstLeft base chosen Q v)

end Verif
