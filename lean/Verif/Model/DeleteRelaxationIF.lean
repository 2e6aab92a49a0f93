import Verif.Spec.Hplus
import Verif.Model.OperatorCounting

/-
Model of the delete-relaxation constraints by Imai and Fukunaga for the operator-counting heuristic (src/search/operator_counting/delete_relaxation_if_constraints.cc).

Simplifications as in Model/OperatorCounting.lean.  The tables with the indices of columns and rows are lists of what the columns and rows stand for: an index is a position in the list.
-/
namespace Verif.CountingIF
open Verif.LP Verif.Counting

/-- what the new columns stand for: operator used, fact reached, operator is the first achiever of a fact, time of an operator, time of a fact -/
inductive Key where
  | used (i : Nat)
  | reached (f : Fact)
  | achiever (i : Nat) (f : Fact)
  | opTime (i : Nat)
  | factTime (f : Fact)
deriving DecidableEq

/-- all facts, in the order of the loops over variables and values -/
def facts (t : Task) : List Fact := t.vars.zipIdx.flatMap (fun v => (List.range v.1.domain).map (fun a => ⟨v.2, a⟩))

/-- delete_relaxation_if_constraints.cc:56-102 `create_auxiliary_variables`: the columns in the order in which they are added; `time` is use_time_vars -/
def keys (t : Task) (time : Bool) : List Key :=
  (List.range t.ops.length).map .used ++ (facts t).map .reached ++ (List.range t.ops.length).flatMap (fun i => (facts t).map (.achiever i)) ++
    (if time then (List.range t.ops.length).map .opTime ++ (facts t).map .factTime else [])

/-- lines 64-100: the upper bounds -/
def upper (t : Task) : Key → Rat
  | .opTime _ => t.ops.length
  | .factTime _ => t.ops.length
  | _ => 1

/-- lines 64-100 and 117-119: the lower bounds; goals are reached -/
def lower (t : Task) : Key → Rat
  | .reached f => if f ∈ t.goal then 1 else 0
  | _ => 0

/-- line 19: a new column -/
def column (t : Task) (k : Key) : Column := ⟨some (lower t k), some (upper t k), 0⟩

/-- lines 31-50: the index of a column; `base` is the number of columns before the first new one -/
def col (t : Task) (time : Bool) (base : Nat) (k : Key) : Nat := base + (keys t time).idxOf k

/-- lines 140-146: the operators with the fact as an effect (more than once, if there are several effects with the fact) -/
def achievers (t : Task) (f : Fact) : List Nat := t.ops.zipIdx.flatMap (fun o => (o.1.effects.filter (fun e => e.fact = f)).map (fun _ => o.2))

/-- a row for each effect of each operator -/
def overEffects (t : Task) (g : Nat → Fact → Row) : List Row := t.ops.zipIdx.flatMap (fun o => o.1.effects.map (fun e => g o.2 e.fact))

/-- a row for each precondition of each operator -/
def overPre (t : Task) (g : Nat → Fact → Row) : List Row := t.ops.zipIdx.flatMap (fun o => o.1.pre.map (fun f => g o.2 f))

/-- lines 121-146: a fact that is reached has a first achiever or is true in the state; `b` is the lower bound -/
def reachedRow (t : Task) (time : Bool) (base : Nat) (b : Rat) (f : Fact) : Row := ⟨some b, none, (col t time base (.reached f), -1) :: (achievers t f).map (fun i => (col t time base (.achiever i f), 1))⟩

/-- lines 148-160: first achievers are used -/
def usedRow (t : Task) (time : Bool) (base : Nat) (i : Nat) (f : Fact) : Row := ⟨some 0, none, [(col t time base (.used i), 1), (col t time base (.achiever i f), -1)]⟩

/-- lines 162-173: preconditions of used operators are reached -/
def preRow (t : Task) (time : Bool) (base : Nat) (i : Nat) (f : Fact) : Row := ⟨some 0, none, [(col t time base (.reached f), 1), (col t time base (.used i), -1)]⟩

/-- lines 176-187: preconditions are reached before the operator is used -/
def preTimeRow (t : Task) (time : Bool) (base : Nat) (i : Nat) (f : Fact) : Row := ⟨some 0, none, [(col t time base (.opTime i), 1), (col t time base (.factTime f), -1)]⟩

/-- lines 189-207: effects of first achievers are reached after the operator -/
def effectTimeRow (t : Task) (time : Bool) (base : Nat) (i : Nat) (f : Fact) : Row :=
  ⟨some (1 - ((t.ops.length : Rat) + 1)), none, [(col t time base (.factTime f), 1), (col t time base (.opTime i), -1), (col t time base (.achiever i f), -((t.ops.length : Rat) + 1))]⟩

/-- lines 210-219: used operators occur at least once -/
def countRow (t : Task) (time : Bool) (base : Nat) (i : Nat) : Row := ⟨some 0, none, [(i, 1), (col t time base (.used i), -1)]⟩

/-- lines 148-219: the rows after those for facts -/
def otherRows (t : Task) (time : Bool) (base : Nat) : List Row :=
  overEffects t (usedRow t time base) ++ overPre t (preRow t time base) ++
    (if time then overPre t (preTimeRow t time base) ++ overEffects t (effectTimeRow t time base) else []) ++ (List.range t.ops.length).map (countRow t time base)

/-- lines 222-227 `initialize_constraints`, with lines 104-220 `create_constraints` -/
def initConstraints (t : Task) (time : Bool) (p : Program) : Program :=
  { p with columns := p.columns ++ (keys t time).map (column t), rows := p.rows ++ (facts t).map (reachedRow t time p.columns.length 0) ++ otherRows t time p.columns.length }

/-- the generator: the number of rows before the first row for a fact, and `last_state` -/
structure Gen where
  first : Nat
  last : List Fact

/-- lines 52-54, and `set_constraint_lower_bound`, for several facts; `none` is an access outside of the tables -/
def setBounds (t : Task) (first : Nat) (b : Rat) : List Fact → Solver → Option Solver
  | [], S => some S
  | f :: fs, S => if f ∈ facts t then match S.setLower (first + (facts t).idxOf f) b with | none => none | some S => setBounds t first b fs S else none

/-- the facts of a state -/
def stateFacts (s : State) : List Fact := s.zipIdx.map (fun x => ⟨x.2, x.1⟩)

/-- lines 229-243 `update_constraints`: the bounds of the last state are reset, then those of the new state are set -/
def update (t : Task) (s : State) (g : Gen) (S : Solver) : Option (Gen × Solver) :=
  match setBounds t g.first 0 g.last S with
  | none => none
  | some S =>
    match setBounds t g.first (-1) (stateFacts s) S with
    | none => none
    | some S => some ({ g with last := stateFacts s }, S)

/-- operator_counting_heuristic.cc:22-39: the program before the constraints are added -/
def operatorProgram (t : Task) : Program := ⟨false, t.ops.map (fun o => ⟨some 0, none, o.cost⟩), []⟩

/-- which columns are integers: operator counts (use_integer_operator_counts), new columns (use_integer_vars) -/
def integral (t : Task) (intCounts intVars : Bool) (j : Nat) : Bool := if j < t.ops.length then intCounts else intVars

/-- operator_counting_heuristic.cc:15-41: the heuristic with these constraints only; `none` is exit with an error: integer variables with SoPlex (soplex_solver_interface.cc:63-68) -/
def create (t : Task) (kind : SolverType) (time intCounts intVars : Bool) : Option (Gen × Solver) :=
  if kind = .soplex ∧ (List.range (initConstraints t time (operatorProgram t)).columns.length).any (integral t intCounts intVars) = true then none
  else some (⟨(operatorProgram t).rows.length, []⟩, Solver.load kind (initConstraints t time (operatorProgram t)).columns (initConstraints t time (operatorProgram t)).rows)

/-- operator_counting_heuristic.cc:43-65 `compute_heuristic`; `none` as value is DEAD_END -/
def compute (t : Task) (solve : Program → (Nat → Bool) → Option Rat) (intCounts intVars : Bool) (s : State) (obj : Gen × Solver) : Option (Option Int × (Gen × Solver)) :=
  if obj.2.hasTemporary then none
  else
    match update t s obj.1 obj.2 with
    | none => none
    | some (g, S) =>
      match solve S.program (integral t intCounts intVars) with
      | none => some (none, (g, S.clearTemporary))
      | some v => if ⌈v - 1 / 100⌉ ≤ 2147483647 ∧ -2147483648 ≤ ⌈v - 1 / 100⌉ then some (some ⌈v - 1 / 100⌉, (g, S.clearTemporary)) else none

/-- the states that have been evaluated before -/
def computeAll (t : Task) (solve : Program → (Nat → Bool) → Option Rat) (intCounts intVars : Bool) : List State → Gen × Solver → Option (Gen × Solver)
  | [], obj => some obj
  | s :: ss, obj =>
    match compute t solve intCounts intVars s obj with
    | none => none
    | some (_, obj) => computeAll t solve intCounts intVars ss obj

end Verif.CountingIF
