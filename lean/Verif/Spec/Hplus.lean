import Verif.Spec.Relaxation
import Verif.Spec.OperatorCounting

/-
The optimal delete-relaxation heuristic h^+, and solvers for mixed integer programs.
-/
namespace Verif

/-- there is a relaxed plan whose operators cost at most `n` together (each operator is used once) -/
def Task.HplusLe (t : Task) (s : State) (n : Nat) : Prop :=
  ∃ R : List Nat, R.Nodup ∧ (∀ i ∈ R, i < t.ops.length) ∧ t.IsRelaxedPlan (· ∈ R) s ∧ (R.map t.opCost).sum ≤ n

/-- the values of the auxiliary variables of Imai and Fukunaga (2015): whether an operator is used, whether a fact is reached, whether an operator is the first to achieve a fact, and the times of operators and facts -/
structure IFVars where
  used : Nat → Rat
  reached : Fact → Rat
  first : Nat → Fact → Rat
  opTime : Nat → Rat
  factTime : Fact → Rat

/-- the constraints of Imai and Fukunaga (2015) for a state, where `x i` is the number of uses of operator `i`; the order of operators is only considered if `time` -/
structure Task.ImaiFukunaga (t : Task) (time : Bool) (s : State) (x : Nat → Rat) (y : IFVars) : Prop where
  /-- used operators are counted -/
  count : ∀ i < t.ops.length, 0 ≤ y.used i ∧ y.used i ≤ 1 ∧ y.used i ≤ x i
  reached01 : ∀ f, t.ValidFact f → 0 ≤ y.reached f ∧ y.reached f ≤ 1
  first01 : ∀ i < t.ops.length, ∀ f, t.ValidFact f → 0 ≤ y.first i f ∧ y.first i f ≤ 1
  /-- goals are reached -/
  goal : ∀ g ∈ t.goal, y.reached g = 1
  /-- facts that are reached and not true in the state have a first achiever -/
  achieved : ∀ f, t.ValidFact f → ¬f.holds s → y.reached f ≤ (t.ops.zipIdx.map (fun o => if o.1.produces f then y.first o.2 f else 0)).sum
  /-- first achievers are used -/
  firstUsed : ∀ i o f, t.ops[i]? = some o → o.produces f → y.first i f ≤ y.used i
  /-- preconditions of used operators are reached -/
  pre : ∀ i o, t.ops[i]? = some o → ∀ f ∈ o.pre, y.used i ≤ y.reached f
  opTime : time = true → ∀ i < t.ops.length, 0 ≤ y.opTime i ∧ y.opTime i ≤ t.ops.length
  factTime : time = true → ∀ f, t.ValidFact f → 0 ≤ y.factTime f ∧ y.factTime f ≤ t.ops.length
  /-- preconditions are reached before the operator is used -/
  preTime : time = true → ∀ i o, t.ops[i]? = some o → ∀ f ∈ o.pre, y.factTime f ≤ y.opTime i
  /-- first achievers are used before the fact is reached -/
  firstTime : time = true → ∀ i o f, t.ops[i]? = some o → o.produces f → y.opTime i + 1 ≤ y.factTime f + (t.ops.length + 1) * (1 - y.first i f)

/-- all values are integers -/
structure IFVars.Integral (t : Task) (time : Bool) (y : IFVars) : Prop where
  used : ∀ i < t.ops.length, ∃ z : Int, y.used i = z
  reached : ∀ f, t.ValidFact f → ∃ z : Int, y.reached f = z
  first : ∀ i < t.ops.length, ∀ f, t.ValidFact f → ∃ z : Int, y.first i f = z
  opTime : time = true → ∀ i < t.ops.length, ∃ z : Int, y.opTime i = z
  factTime : time = true → ∀ f, t.ValidFact f → ∃ z : Int, y.factTime f = z

/-- the counts satisfy the constraints for some values of the auxiliary variables -/
def Task.IFCounts (t : Task) (time intCounts intVars : Bool) (s : State) (x : Nat → Rat) : Prop :=
  (intCounts = true → ∀ i < t.ops.length, ∃ z : Int, x i = z) ∧ ∃ y : IFVars, t.ImaiFukunaga time s x y ∧ (intVars = true → y.Integral t time)

namespace LP

/-- feasible, and integral in the columns for which `int` says so -/
def Program.FeasibleMixed (p : Program) (int : Nat → Bool) (x : Nat → Rat) : Prop := p.Feasible x ∧ ∀ i < p.columns.length, int i = true → ∃ z : Int, x i = z

/-- the contract of a solver for mixed integer programs with minimisation, whose objectives are not negative: it returns the value of an optimal solution up to an error of `err`, and it returns one if there are feasible solutions -/
def MixedSolver (err : Rat) (solve : Program → (Nat → Bool) → Option Rat) : Prop :=
  ∀ p int, p.maximize = false → (∀ c ∈ p.columns, c.lower ≠ none ∧ 0 ≤ c.objective) → p.WellFormed →
    (∀ v, solve p int = some v → (∃ x, p.FeasibleMixed int x ∧ p.value x ≤ v + err) ∧ ∀ y, p.FeasibleMixed int y → v ≤ p.value y + err) ∧
    (solve p int = none → ¬∃ x, p.FeasibleMixed int x)

end LP
end Verif
