import Verif.Spec.LinearProgram
import Verif.Spec.Potentials
import Verif.Spec.LmCut
import Verif.Spec.Pdb

/-
Operator counting: constraints on how often each operator is used that every plan satisfies.
`x i` is the number of uses of operator `i` (it may be a fraction).
-/
namespace Verif

/-- the tasks that the constraints of the state equation support: no axioms and conditional effects; preconditions and goals mention no
variable twice; no effect repeats a precondition -/
structure Task.CountingOk (t : Task) : Prop where
  wf : t.WF
  axioms : t.axioms = []
  conds : ∀ o ∈ t.ops, ∀ e ∈ o.effects, e.conds = []
  once : t.ConditionsOnce
  change : ∀ o ∈ t.ops, ∀ e ∈ o.effects, e.fact ∉ o.pre

/-- the operator has the fact as effect -/
def Operator.produces (o : Operator) (f : Fact) : Prop := ∃ e ∈ o.effects, e.fact = f

/-- the operator needs the fact and changes its variable -/
def Operator.consumes (o : Operator) (f : Fact) : Prop := f ∈ o.pre ∧ ∃ e ∈ o.effects, e.fact.var = f.var

instance (o : Operator) (f : Fact) : Decidable (o.produces f) := inferInstanceAs (Decidable (∃ e ∈ o.effects, _))
instance (o : Operator) (f : Fact) : Decidable (o.consumes f) := inferInstanceAs (Decidable (_ ∧ ∃ e ∈ o.effects, _))

/-- how often the fact is produced at most minus how often it is consumed, if operator `i` is used `x i` times -/
def Task.netChange (t : Task) (f : Fact) (x : Nat → Rat) : Rat :=
  (t.ops.zipIdx.map (fun o => if o.1.produces f then x o.2 else if o.1.consumes f then -x o.2 else 0)).sum

/-- the state equation: for every fact that some operator produces or consumes, the net change takes the state to the goal -/
def Task.StateEquation (t : Task) (s : State) (x : Nat → Rat) : Prop :=
  ∀ f, t.ValidFact f → (∃ o ∈ t.ops, o.produces f ∨ o.consumes f) →
    (if f ∈ t.goal then (1 : Rat) else 0) - (if f.holds s then 1 else 0) ≤ t.netChange f x

/-- one of the operators in the set is used -/
def LandmarkUsed (x : Nat → Rat) (l : List (Option Nat)) : Prop := 1 ≤ (l.map (fun i => (i.map x).getD 0)).sum

/-- the operators that have an effect on the pattern cost at least `h` together -/
def Task.RelevantCost (t : Task) (P : List Nat) (h : Nat) (x : Nat → Rat) : Prop :=
  (h : Rat) ≤ (t.ops.zipIdx.map (fun o => if ∃ e ∈ o.1.effects, e.fact.var ∈ P then (o.1.cost : Rat) * x o.2 else 0)).sum

/-- the total cost -/
def Task.countCost (t : Task) (x : Nat → Rat) : Rat := (t.ops.zipIdx.map (fun o => (o.1.cost : Rat) * x o.2)).sum

/-- how often the operators are used in a sequence -/
def occurrences (π : List Nat) (i : Nat) : Rat := (π.count i : Nat)

namespace LP

/-- the columns are never negative, and the coefficients of the objective are natural numbers -/
def Program.Counting (p : Program) : Prop := p.maximize = false ∧ ∀ c ∈ p.columns, c.lower = some 0 ∧ c.upper = none ∧ ∃ n : Nat, c.objective = n

/-- feasible, and integral if `int` -/
def Program.FeasibleInt (p : Program) (int : Bool) (x : Nat → Rat) : Prop := p.Feasible x ∧ (int = true → ∀ i < p.columns.length, ∃ z : Int, x i = z)

/-- the contract of an LP solver (a MIP solver if `int`) for such programs: it returns the value of an optimal solution up to an error of
`err`, and it returns one if there are feasible solutions -/
def MinSolver (err : Rat) (solve : Program → Bool → Option Rat) : Prop :=
  ∀ p int, p.Counting → p.WellFormed →
    (∀ v, solve p int = some v → (∃ x, p.FeasibleInt int x ∧ p.value x ≤ v + err) ∧ ∀ y, p.FeasibleInt int y → v ≤ p.value y + err) ∧
    (solve p int = none → ¬∃ x, p.FeasibleInt int x)

end LP

namespace Counting

/-- the constraint generators; for post-hoc optimisation the pattern generator is represented by the patterns it returns -/
inductive Gen where
  | stateEquation
  | lmcut
  | pho (patterns : List (List Nat))
deriving DecidableEq, Repr

/-- the task is supported by a generator of constraints -/
def Supports (t : Task) : Gen → Prop
  | .stateEquation => t.CountingOk
  | .lmcut => t.LmCutOk
  | .pho Ps => t.PdbOk ∧ ∀ P ∈ Ps, t.IsPattern P ∧ P.Pairwise (· < ·) ∧ t.numAbstractStates P < 2 ^ 31 ∧ ∃ C, (∀ i, t.opCost i ≤ C) ∧ t.numAbstractStates P * C < 2 ^ 31 - 1

/-- the generator recognises the state as a dead end -/
def Dead (t : Task) (s : State) : Gen → Prop
  | .stateEquation => False
  | .lmcut => ¬t.IsRelaxedPlan (fun _ => True) s
  | .pho Ps => ∃ P ∈ Ps, ∀ π, ¬(t.project P).SolvesFrom s π

/-- the constraints of the generator for the state; `ls` are landmarks -/
def Allows (t : Task) (s : State) (ls : List CostedSet) (x : Nat → Rat) : Gen → Prop
  | .stateEquation => t.StateEquation s x
  | .lmcut => ∀ l ∈ ls, LandmarkUsed x l.1
  | .pho Ps => ∀ P ∈ Ps, ∀ n, (t.project P).PerfectValue t.opCost s (some n) → t.RelevantCost P n x

/-- landmarks as computed by LM-cut: they are landmarks with a cost partitioning, and the sum is at least h^max -/
def LmOk (t : Task) (s : State) (ls : List CostedSet) : Prop := t.LandmarksOk s ls ∧ ∃ k, k ≤ (ls.map (·.2)).sum ∧ IsLeast? (t.HmaxGoalLe s) (some k)

/-- the constraints of all generators -/
def AllowsAll (t : Task) (s : State) (gs : List Gen) (lm : Nat → List CostedSet) (x : Nat → Rat) : Prop := ∀ j g, gs[j]? = some g → Allows t s (lm j) x g

/-- the values of the variables of the linear program (integer program if `int`): how often operators are used -/
def Counts (t : Task) (int : Bool) (x : Nat → Rat) : Prop := ∀ i < t.ops.length, 0 ≤ x i ∧ (int = true → ∃ z : Int, x i = z)

/-- the counts satisfy all constraints for the state -/
def Feasible (t : Task) (s : State) (gs : List Gen) (lm : Nat → List CostedSet) (int : Bool) (x : Nat → Rat) : Prop := Counts t int x ∧ AllowsAll t s gs lm x

/-- `v` is the cost of the cheapest counts that satisfy all constraints, up to an error of `err` -/
def IsMinimum (t : Task) (s : State) (gs : List Gen) (lm : Nat → List CostedSet) (int : Bool) (err v : Rat) : Prop :=
  (∃ x, Feasible t s gs lm int x ∧ t.countCost x ≤ v + err) ∧ ∀ y, Feasible t s gs lm int y → v ≤ t.countCost y + err

end Counting
end Verif
