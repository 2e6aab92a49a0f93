import Verif.Spec.Plan
import Verif.Spec.Relaxation
import Mathlib.Logic.Relation

/-
Specification for the task transformation that adds axioms for the default values of derived variables.
-/
namespace Verif

/-- the fact gives a derived variable its default value -/
def Task.DefaultFact (t : Task) (f : Fact) : Prop := t.layerOf f.var ≠ none ∧ f.val = t.defaultOf f.var

/-- the fact gives a derived variable its other value -/
def Task.TrueFact (t : Task) (f : Fact) : Prop := t.layerOf f.var ≠ none ∧ f.val ≠ t.defaultOf f.var

/-- an axiom for the derived variable `v` has the derived variable `w` in its body, not with its default value -/
def Task.PosDep (t : Task) (v w : Nat) : Prop := ∃ r ∈ t.rules, r.head.var = v ∧ ∃ c ∈ r.body, t.TrueFact c ∧ c.var = w

/-- `v` depends on another variable that depends on `v` -/
def Task.OnCycle (t : Task) (v : Nat) : Prop := ∃ w, w ≠ v ∧ Relation.ReflTransGen t.PosDep v w ∧ Relation.ReflTransGen t.PosDep w v

/-- Which values of derived variables matter (`true`: the default value): those in goals and conditions of operators, and those on which they depend.  The default values of
variables in `A` do not depend on anything. -/
inductive Task.Needed (t : Task) (A : Nat → Prop) : Nat → Bool → Prop where
  | goal (f) : f ∈ t.goal → t.layerOf f.var ≠ none → t.Needed A f.var (decide (f.val = t.defaultOf f.var))
  | pre (o f) : o ∈ t.ops → f ∈ o.pre → t.layerOf f.var ≠ none → t.Needed A f.var (decide (f.val = t.defaultOf f.var))
  | cond (o e f) : o ∈ t.ops → e ∈ o.effects → f ∈ e.conds → t.layerOf f.var ≠ none → t.Needed A f.var (decide (f.val = t.defaultOf f.var))
  | same (b r c) : t.Needed A r.head.var b → ¬(b = true ∧ A r.head.var) → r ∈ t.rules → c ∈ r.body → t.TrueFact c → t.Needed A c.var b
  | other (b r c) : t.Needed A r.head.var b → ¬(b = true ∧ A r.head.var) → r ∈ t.rules → c ∈ r.body → t.DefaultFact c → t.Needed A c.var (!b)

/-- derived variables are binary, and axioms have no preconditions except for the default value of their variable (tasks read from files are of this form) -/
structure Task.AxiomForm (t : Task) : Prop where
  binary : ∀ (v : Nat) (d : Variable), t.vars[v]? = some d → d.layer ≠ none → d.domain = 2
  pre : ∀ a ∈ t.axioms, ∀ e ∈ a.effects, ∀ p ∈ a.pre, p = ⟨e.fact.var, t.defaultOf e.fact.var⟩

/-- an axiom uses the variable it sets (the translator removes such axioms) -/
def Task.SelfSupporting (t : Task) : Prop := ∃ r ∈ t.rules, ∃ c ∈ r.body, c.var = r.head.var

end Verif
