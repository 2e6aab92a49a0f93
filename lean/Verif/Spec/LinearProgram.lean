import Mathlib.Algebra.Order.Field.Rat

/-
Linear programs and what it means to solve them (src/search/lp/lp_solver.h).  Coefficients are rational numbers.
-/
namespace Verif.LP

/-- lp_solver.h:70 `LPVariable`; `none` is a bound that is infinite -/
structure Column where
  lower : Option Rat
  upper : Option Rat
  objective : Rat
deriving DecidableEq, Repr

/-- lp_solver.h:34 `LPConstraint`; the entries are pairs of a column and a coefficient -/
structure Row where
  lower : Option Rat
  upper : Option Rat
  entries : List (Nat × Rat)
deriving DecidableEq, Repr

/-- lp_solver.h:81 `LinearProgram` -/
structure Program where
  maximize : Bool
  columns : List Column
  rows : List Row
deriving DecidableEq, Repr

/-- `x` lies between the bounds -/
def Between (lower upper : Option Rat) (x : Rat) : Prop := (∀ l, lower = some l → l ≤ x) ∧ (∀ u, upper = some u → x ≤ u)

/-- the value of a row for the values `x` of the columns -/
def Row.value (r : Row) (x : Nat → Rat) : Rat := (r.entries.map (fun e => e.2 * x e.1)).sum

/-- the objective for the values `x` of the columns -/
def Program.value (p : Program) (x : Nat → Rat) : Rat := (p.columns.zipIdx.map (fun c => c.1.objective * x c.2)).sum

/-- the values `x` of the columns satisfy all bounds -/
structure Program.Feasible (p : Program) (x : Nat → Rat) : Prop where
  columns : ∀ i c, p.columns[i]? = some c → Between c.lower c.upper (x i)
  rows : ∀ r ∈ p.rows, Between r.lower r.upper (r.value x)

/-- The number `v` is the optimal value of the linear program (for maximisation), up to an error of `err`: no feasible
solution is better, and there are feasible solutions that are as good. -/
def Program.MaxValue (p : Program) (v err : Rat) : Prop :=
  (∀ x, p.Feasible x → p.value x ≤ v + err) ∧ ∀ ε > 0, ∃ x, p.Feasible x ∧ v ≤ p.value x + err + ε

/-- the linear program has feasible solutions, and their values are bounded -/
def Program.Solvable (p : Program) : Prop := (∃ x, p.Feasible x) ∧ ∃ b, ∀ x, p.Feasible x → p.value x ≤ b

/-- no row mentions a column twice (lp_solver.h:64), and all columns exist -/
def Program.WellFormed (p : Program) : Prop := ∀ r ∈ p.rows, (r.entries.map (·.1)).Nodup ∧ ∀ e ∈ r.entries, e.1 < p.columns.length

/-- `x` is an optimal solution (for maximisation) -/
def Program.Maximum (p : Program) (x : Nat → Rat) : Prop := p.Feasible x ∧ ∀ y, p.Feasible y → p.value y ≤ p.value x

/-- the contract of an LP solver for programs with maximisation: it returns an optimal solution, and finds one if the program has feasible
solutions and is bounded -/
def MaxSolver (solve : Program → Option (Nat → Rat)) : Prop :=
  ∀ p, p.maximize = true → p.WellFormed → (∀ x, solve p = some x → p.Maximum x) ∧ (solve p = none → ¬p.Solvable)

/-- `x` is between the bounds up to an error of `δ` -/
def NearlyBetween (δ : Rat) (lower upper : Option Rat) (x : Rat) : Prop := (∀ l, lower = some l → l - δ ≤ x) ∧ (∀ u, upper = some u → x ≤ u + δ)

/-- the values `x` of the columns satisfy all bounds up to an error of `δ` -/
structure Program.NearlyFeasible (p : Program) (δ : Rat) (x : Nat → Rat) : Prop where
  columns : ∀ i c, p.columns[i]? = some c → NearlyBetween δ c.lower c.upper (x i)
  rows : ∀ r ∈ p.rows, NearlyBetween δ r.lower r.upper (r.value x)

end Verif.LP
