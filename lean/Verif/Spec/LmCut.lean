import Verif.Spec.Relaxation

/-
Landmarks and cost partitioning.
-/
namespace Verif

/-- a set of operators as passed to the callbacks of the landmark generation (`none` stands for the operator id -1),
and its cost -/
abbrev CostedSet := List (Option Nat) × Nat

/-- the task with different operator costs -/
def Task.withCosts (t : Task) (c : Nat → Nat) : Task := { t with ops := t.ops.zipIdx.map (fun p => { p.1 with cost := c p.2 }) }

/-- every relaxed plan for `s` contains an operator of the set: it is a disjunctive action landmark -/
def Task.IsLandmark (t : Task) (s : State) (l : List (Option Nat)) : Prop :=
  ∀ R : Nat → Prop, t.IsRelaxedPlan R s → ∃ i, some i ∈ l ∧ R i

/-- what the sets that contain operator `i` cost together -/
def charged (ls : List CostedSet) (i : Nat) : Nat := ((ls.filter (fun l => some i ∈ l.1)).map (·.2)).sum

/-- the requirements of LM-cut: no axioms and conditional effects, no fact mentioned twice, the sum of
the operator costs is an int -/
structure Task.LmCutOk (t : Task) : Prop where
  wf : t.WF
  axioms : t.axioms = []
  conds : ∀ o ∈ t.ops, ∀ e ∈ o.effects, e.conds = []
  pre : ∀ o ∈ t.ops, o.pre.Nodup
  goal : t.goal.Nodup
  cost : (t.ops.map (·.cost)).sum < 2 ^ 31

/-- what the landmarks for `s` mean: each is a set of operators of positive cost and a disjunctive action
landmark; together they charge no operator more than its cost; with the remaining costs h^max is 0 -/
structure Task.LandmarksOk (t : Task) (s : State) (ls : List CostedSet) : Prop where
  ops : ∀ l ∈ ls, l.1.Nodup ∧ ∀ x ∈ l.1, ∃ i o, x = some i ∧ t.ops[i]? = some o ∧ 0 < o.cost
  pos : ∀ l ∈ ls, 0 < l.2
  landmark : ∀ l ∈ ls, t.IsLandmark s l.1
  partition : ∀ i o, t.ops[i]? = some o → charged ls i ≤ o.cost
  rest : (t.withCosts (fun i => t.opCost i - charged ls i)).HmaxGoalLe s 0

end Verif
