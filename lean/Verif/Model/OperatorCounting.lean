import Verif.Spec.OperatorCounting
import Verif.Model.LmCut
import Verif.Model.PdbCollections
import Mathlib.Data.Rat.Floor

/-
Model of the operator-counting heuristic (src/search/operator_counting: operator_counting_heuristic.cc, state_equation_constraints.cc,
lm_cut_constraints.cc, pho_constraints.cc) and of the LP solver interfaces as far as rows are concerned (src/search/lp:
soplex_solver_interface.cc, cplex_solver_interface.cc).

Simplifications: numbers of type `double` are rational numbers; the LP solver itself is a function from linear programs to the value of
an optimal solution.  Names of rows and columns, and log output are not modelled.  `none` as result of a model function is undefined
behaviour or a failed assertion, unless the comment says otherwise.
-/
namespace Verif.Counting
open Verif.LP Verif.AdaptiveQueue

/-! ### LP solver interfaces -/

/-- lp_solver.h:17 `LPSolverType` -/
inductive SolverType where
  | cplex | soplex
deriving DecidableEq, Repr

/-- the rows of the program in the solver, `num_permanent_constraints`, and `num_temporary_constraints` (only used by the interface
for SoPlex) -/
structure Solver where
  kind : SolverType
  columns : List Column
  rows : List Row
  numPermanent : Nat
  numTemporary : Nat

/-- soplex_solver_interface.cc:62 and cplex_solver_interface.cc:310 `load_problem` -/
def Solver.load (kind : SolverType) (columns : List Column) (rows : List Row) : Solver := ⟨kind, columns, rows, rows.length, 0⟩

/-- soplex_solver_interface.cc:76-80 and cplex_solver_interface.cc:372-406 `add_temporary_constraints` -/
def Solver.addTemporary (S : Solver) (cs : List Row) : Solver := { S with rows := S.rows ++ cs, numTemporary := cs.length }

/-- soplex_solver_interface.cc:82-89 and cplex_solver_interface.cc:408-418 `clear_temporary_constraints`: the former removes as many rows as the
last call has added, the latter all rows that are not permanent -/
def Solver.clearTemporary (S : Solver) : Solver :=
  match S.kind with
  | .soplex => if S.numTemporary > 0 then { S with rows := S.rows.take S.numPermanent ++ S.rows.drop (S.numPermanent + S.numTemporary), numTemporary := 0 } else S
  | .cplex => { S with rows := S.rows.take S.numPermanent }

/-- soplex_solver_interface.cc:236 and cplex_solver_interface.cc:593 `has_temporary_constraints` -/
def Solver.hasTemporary (S : Solver) : Bool :=
  match S.kind with
  | .soplex => decide (S.numTemporary > 0)
  | .cplex => decide (S.rows.length > S.numPermanent)

/-- `set_constraint_lower_bound` -/
def Solver.setLower (S : Solver) (i : Nat) (b : Rat) : Option Solver :=
  match S.rows[i]? with
  | none => none
  | some r => some { S with rows := S.rows.set i { r with lower := some b } }

/-- the program that is solved; a minimisation problem -/
def Solver.program (S : Solver) : Program := ⟨false, S.columns, S.rows⟩

/-! ### State equation -/

/-- state_equation_constraints.h:18-22 `Proposition`, without the index of the row; operator ids are inserted in increasing order, which is
the order of the sets -/
structure Proposition where
  alwaysProduced : List Nat
  sometimesProduced : List Nat
  alwaysConsumed : List Nat

/-- `std::set::insert` for a number that is not less than those in the set -/
def insertId (l : List Nat) (i : Nat) : List Nat := if i ∈ l then l else l ++ [i]

/-- the table `propositions[var][value]` -/
abbrev Table := Nat → Nat → Proposition

/-- is `propositions[var][value]` inside of the vectors? -/
def inTable (t : Task) (var value : Nat) : Bool :=
  match t.vars[var]? with
  | none => false
  | some d => decide (value < d.domain)

def Table.update (T : Table) (var value : Nat) (f : Proposition → Proposition) : Table := fun v a => if v = var ∧ a = value then f (T v a) else T v a

/-- lines 36-40: `precondition[var]`, `none` for -1; later preconditions overwrite earlier ones -/
def preOf (o : Operator) (var : Nat) : Option Nat := ((o.pre.filter (fun f => f.var == var)).getLast?).map (·.val)

/-- lines 40-54: one effect; `none` also if the assertion `pre != post` fails -/
def buildEffect (t : Task) (o : Operator) (id : Nat) (T : Table) (e : Effect) : Option Table :=
  if inTable t e.fact.var e.fact.val then
    match preOf o e.fact.var with
    | some pre =>
      if pre = e.fact.val then none
      else if inTable t e.fact.var pre then
        some ((T.update e.fact.var e.fact.val (fun p => { p with alwaysProduced := insertId p.alwaysProduced id })).update e.fact.var pre
          (fun p => { p with alwaysConsumed := insertId p.alwaysConsumed id }))
      else none
    | none => some (T.update e.fact.var e.fact.val (fun p => { p with sometimesProduced := insertId p.sometimesProduced id }))
  else none

/-- lines 26-56 `build_propositions` -/
def buildPropositions (t : Task) : Option Table :=
  t.ops.zipIdx.foldlM (fun T o => o.1.effects.foldlM (buildEffect t o.1 o.2) T) (fun _ _ => ⟨[], [], []⟩)

/-- lines 62-68: the entries of the row for a proposition -/
def entries (p : Proposition) : List (Nat × Rat) :=
  p.alwaysProduced.map (·, 1) ++ p.sometimesProduced.map (·, 1) ++ p.alwaysConsumed.map (·, -1)

/-- all pairs of a variable and a value, in the order of the loops -/
def allFacts (t : Task) : List (Nat × Nat) := t.vars.zipIdx.flatMap (fun v => (List.range v.1.domain).map (fun a => (v.2, a)))

/-- lines 58-74 `add_constraints`: the rows, and the propositions with the index of their row (`prop.constraint_index`, `none` for -1) in the order of the loops -/
def addConstraints (T : Table) : List (Nat × Nat) → List Row → List ((Nat × Nat) × Option Nat) × List Row
  | [], rows => ([], rows)
  | f :: fs, rows =>
    if (entries (T f.1 f.2)).isEmpty then
      let r := addConstraints T fs rows
      ((f, none) :: r.1, r.2)
    else
      let r := addConstraints T fs (rows ++ [⟨none, none, entries (T f.1 f.2)⟩])
      ((f, some rows.length) :: r.1, r.2)

/-- lines 89-92: `goal_state[var]`; `none` for INT_MAX, which is not a value -/
def goalOf (t : Task) (var : Nat) : Option Nat := ((t.goal.filter (fun f => f.var == var)).getLast?).map (·.val)

/-- lines 104-114: the lower bound -/
def lowerBound (t : Task) (s : State) (f : Nat × Nat) : Rat :=
  (0 - (if s[f.1]? = some f.2 then 1 else 0)) + (if goalOf t f.1 = some f.2 then 1 else 0)

/-- lines 95-122 `update_constraints` -/
def updateStateEquation (t : Task) (s : State) : List ((Nat × Nat) × Option Nat) → Solver → Option Solver
  | [], S => some S
  | (_, none) :: l, S => updateStateEquation t s l S
  | (f, some i) :: l, S =>
    if f.1 < s.length then
      match S.setLower i (lowerBound t s f) with
      | none => none
      | some S => updateStateEquation t s l S
    else none

/-! ### LM-cut and post-hoc optimisation -/

/-- lm_cut_constraints.cc:34-39: the row for a landmark; `none` if an operator id is -1 -/
def landmarkRow (l : LmCut.Landmark) : Option Row := (l.1.mapM (fun (i : Option Nat) => i.map (fun i => (i, (1 : Rat))))).map (fun es => ⟨some 1, none, es⟩)

/-- pho_constraints.cc:44-52: the row for a pattern database -/
def phoRow (t : Task) (db : Pdb.Db) : Option Row :=
  (t.ops.zipIdx.mapM (fun o => (Pdb.isOperatorRelevant db.proj.pattern o.1.effects).map (fun b => if b then [(o.2, (o.1.cost : Rat))] else []))).map
    (fun es => ⟨some 0, none, es.flatten⟩)

/-- pho_constraints.cc:55-70 `update_constraints`; the first result says whether the state is a dead end; `id` is the number of the next row -/
def updatePho (s : State) : List Pdb.Db → Nat → Solver → Option (Bool × Solver)
  | [], _, S => some (false, S)
  | db :: dbs, id, S =>
    match db.value s with
    | none => none
    | some h =>
      if h = Dijkstra.inf then some (true, S)
      else
        match S.setLower id (h : Rat) with
        | none => none
        | some S => updatePho s dbs (id + 1) S

/-! ### The heuristic -/

/-- what the constraint generators store -/
inductive Data where
  | stateEquation (props : List ((Nat × Nat) × Option Nat))
  | lmcut (st : LmCut.St)
  | pho (dbs : List Pdb.Db) (offset : Nat)

/-- the pattern databases of a collection (pattern_collection_information.cc:58-74) -/
def buildPdbs (H : StdHeap Nat) (t : Task) : List (List Nat) → Pdb.Build (List Pdb.Db)
  | [] => .ok []
  | P :: Ps =>
    match Pdb.computePdb H t P [] with
    | .unsupported => .unsupported
    | .tooLarge => .tooLarge
    | .ub => .ub
    | .ok db =>
      match buildPdbs H t Ps with
      | .unsupported => .unsupported
      | .tooLarge => .tooLarge
      | .ub => .ub
      | .ok dbs => .ok (db :: dbs)

/-- `initialize_constraints` of the generators: what they store, and the rows.  `none` is also exit with an error (unsupported task). -/
def initGen (H : StdHeap Nat) (t : Task) (rows : List Row) : Gen → Option (Data × List Row)
  | .stateEquation =>
    if t.axioms = [] ∧ ∀ o ∈ t.ops, ∀ e ∈ o.effects, e.conds = [] then
      match buildPropositions t with
      | none => none
      | some T => some (.stateEquation (addConstraints T (allFacts t) rows).1, (addConstraints T (allFacts t) rows).2)
    else none
  | .lmcut => if t.axioms = [] ∧ ∀ o ∈ t.ops, ∀ e ∈ o.effects, e.conds = [] then some (.lmcut LmCut.St.init, rows) else none
  | .pho Ps =>
    match buildPdbs H t Ps with
    | .ok dbs =>
      match dbs.mapM (phoRow t) with
      | none => none
      | some rs => some (.pho dbs rows.length, rows ++ rs)
    | _ => none

/-- operator_counting_heuristic.cc:37-39: all generators -/
def initGens (H : StdHeap Nat) (t : Task) : List Gen → List Row → Option (List Data × List Row)
  | [], rows => some ([], rows)
  | g :: gs, rows =>
    match initGen H t rows g with
    | none => none
    | some (d, rows) => (initGens H t gs rows).map (fun r => (d :: r.1, r.2))

/-- the heuristic: what the generators store, and the solver -/
structure Object where
  gens : List Data
  solver : Solver

/-- operator_counting_heuristic.cc:15-41: the constructor.  `none` is also exit with an error: an empty list of generators, an unsupported task,
integer variables with SoPlex (soplex_solver_interface.cc:63-68) -/
def create (H : StdHeap Nat) (t : Task) (kind : SolverType) (int : Bool) (gens : List Gen) : Option Object :=
  if gens = [] ∨ (kind = .soplex ∧ int = true ∧ t.ops ≠ []) then none
  else (initGens H t gens []).map (fun r => ⟨r.1, Solver.load kind (t.ops.map (fun o => ⟨some 0, none, (o.cost : Rat)⟩)) r.2⟩)

/-- `update_constraints` of the generators -/
def updateGen (H : StdHeap Nat) (t : Task) (s : State) : Data → Solver → Option (Bool × Data × Solver)
  | .stateEquation props, S => (updateStateEquation t s props S).map (fun S => (false, .stateEquation props, S))
  | .lmcut st, S =>
    match LmCut.landmarks H t s st with
    | none => none
    | some (none, st) => some (true, .lmcut st, S)
    | some (some ls, st) => (ls.mapM landmarkRow).map (fun rs => (false, .lmcut st, S.addTemporary rs))
  | .pho dbs offset, S => (updatePho s dbs offset S).map (fun r => (r.1, .pho dbs offset, r.2))

/-- operator_counting_heuristic.cc:46-52: the loop over the generators; the first result says whether one of them has found a dead end -/
def updateGens (H : StdHeap Nat) (t : Task) (s : State) : List Data → Solver → Option (Bool × List Data × Solver)
  | [], S => some (false, [], S)
  | d :: ds, S =>
    match updateGen H t s d S with
    | none => none
    | some (true, d, S) => some (true, d :: ds, S)
    | some (false, d, S) => (updateGens H t s ds S).map (fun r => (r.1, d :: r.2.1, r.2.2))

/-- operator_counting_heuristic.cc:43-65 `compute_heuristic`: `none` as value is DEAD_END -/
def compute (H : StdHeap Nat) (t : Task) (solve : Program → Bool → Option Rat) (int : Bool) (s : State) (obj : Object) : Option (Option Int × Object) :=
  if obj.solver.hasTemporary then none
  else
    match updateGens H t s obj.gens obj.solver with
    | none => none
    | some (true, gens, S) => some (none, ⟨gens, S.clearTemporary⟩)
    | some (false, gens, S) =>
      match solve S.program int with
      | none => some (none, ⟨gens, S.clearTemporary⟩)
      | some v => if ⌈v - 1 / 100⌉ ≤ 2147483647 ∧ -2147483648 ≤ ⌈v - 1 / 100⌉ then some (some ⌈v - 1 / 100⌉, ⟨gens, S.clearTemporary⟩) else none

/-- the states that have been evaluated before -/
def computeAll (H : StdHeap Nat) (t : Task) (solve : Program → Bool → Option Rat) (int : Bool) : List State → Object → Option Object
  | [], obj => some obj
  | s :: ss, obj =>
    match compute H t solve int s obj with
    | none => none
    | some (_, obj) => computeAll H t solve int ss obj

end Verif.Counting
