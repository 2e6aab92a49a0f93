import Verif.Spec.Task
import Verif.Spec.LinearProgram
import Mathlib.Data.Rat.Floor

/-
Potential heuristics (src/search/potentials/potential_optimizer.cc, potential_function.cc, potential_heuristic.cc,
potential_max_heuristic.cc, diverse_potential_heuristics.cc).

Simplifications: values of type `double` are rational numbers.  `infinity` as bound of a column or row is `none`.  The calls of the LP solver
are one function that maps the current program to the solution it extracts (`none` if `has_optimal_solution` is false).  `none` as result of a
model function is undefined behaviour (an access outside of a vector, a conversion to `int` that does not fit) or a failed assertion, unless
the comment says otherwise.
-/
namespace Verif.Potentials

/-- potential_optimizer.cc:38-43 `initialize`: the numbers of the LP variables, for every value of every variable and for the value "undefined",
which comes last; `n` is `num_lp_vars` -/
def lpVarIds : List Variable → Nat → List (List Nat)
  | [], _ => []
  | d :: ds, n => List.range' n (d.domain + 1) :: lpVarIds ds (n + (d.domain + 1))

/-- `num_lp_vars` after `initialize` -/
def numLpVars (t : Task) : Nat := (t.vars.map (fun d => d.domain + 1)).sum

/-- `lp_var_ids[var][val]` -/
def lpVar (t : Task) (var val : Nat) : Option Nat := (((lpVarIds t.vars 0)[var]?).bind (·[val]?))

/-- potential_optimizer.cc:17 `get_undefined_value` -/
def undefinedValue (t : Task) (var : Nat) : Option Nat := (t.vars[var]?).map (·.domain)

/-- lines 117-120 and 128-134: `var_to_precondition` (later facts overwrite earlier ones), with the undefined value if there is no precondition -/
def preValue (t : Task) (o : Operator) (var : Nat) : Option Nat :=
  match (o.pre.filter (fun f => f.var == var)).getLast? with
  | some f => some f.val
  | none => undefinedValue t var

/-- lines 123-149: the coefficients for one effect -/
def effectCoefficients (t : Task) (o : Operator) (e : Effect) : Option (List (Nat × Int)) :=
  match preValue t o e.fact.var with
  | none => none
  | some pre =>
    match lpVar t e.fact.var pre, lpVar t e.fact.var e.fact.val with
    | some preLp, some postLp => some (if preLp ≠ postLp then [(preLp, 1), (postLp, -1)] else [])
    | _, _ => none

/-- `<` for pairs, negated -/
def pairLe (a b : Nat × Int) : Bool := decide (a.1 < b.1 ∨ (a.1 = b.1 ∧ a.2 ≤ b.2))

/-- lines 114-153: the constraint for an operator -/
def operatorRow (t : Task) (o : Operator) : Option LP.Row :=
  match o.effects.mapM (effectCoefficients t o) with
  | none => none
  | some cs => some ⟨none, some (o.cost : Rat), (cs.flatten.mergeSort pairLe).map (fun c => (c.1, (c.2 : Rat)))⟩

/-- lines 158-165: the value of a variable in the full goal state -/
def goalValue (t : Task) (var : Nat) : Option Nat :=
  match (t.goal.filter (fun f => f.var == var)).getLast? with
  | some f => some f.val
  | none => undefinedValue t var

/-- lines 182-192: the constraints `P_{V=v} <= P_{V=u}` for a variable -/
def undefinedRows (t : Task) (var : Nat) (d : Variable) : Option (List LP.Row) :=
  match lpVar t var d.domain with
  | none => none
  | some u => (List.range d.domain).mapM (fun val => (lpVar t var val).map (fun i => ⟨none, some 0, [(i, 1), (u, -1)]⟩))

/-- lines 177-180: the columns with the bounds for the goal value of a variable -/
def fixGoal (t : Task) (cols : List LP.Column) (var : Nat) : Option (List LP.Column) :=
  match goalValue t var with
  | none => none
  | some g =>
    match lpVar t var g with
    | none => none
    | some i =>
      match cols[i]? with
      | none => none
      | some c => some (cols.set i { c with lower := some 0, upper := some 0 })

/-- line 101 `construct_lp`; `maxPotential` is `none` if the potentials are not bounded -/
def constructLp (t : Task) (maxPotential : Option Rat) : Option LP.Program :=
  match t.ops.mapM (operatorRow t) with
  | none => none
  | some rows =>
    match (List.range t.vars.length).foldlM (fixGoal t) (List.replicate (numLpVars t) ⟨none, maxPotential, 1⟩) with
    | none => none
    | some cols =>
      match t.vars.zipIdx.mapM (fun v => undefinedRows t v.2 v.1) with
      | none => none
      | some undef => some ⟨true, cols, rows ++ undef.flatten⟩

/-- `coefficients[get_lp_var_id(fact)] += c` for the facts of a state (lines 85-87) -/
def addState (t : Task) (s : State) (coefs : List Rat) : Option (List Rat) :=
  s.zipIdx.foldlM (fun cs f => match lpVar t f.2 f.1 with
    | none => none
    | some i => match cs[i]? with
      | none => none
      | some c => some (cs.set i (c + 1))) coefs

/-- lines 83-88: the objective for a set of samples -/
def sampleCoefficients (t : Task) (samples : List State) : Option (List Rat) :=
  samples.foldlM (fun cs s => addState t s cs) (List.replicate (numLpVars t) 0)

/-- lines 70-74: the objective for all states -/
def allStatesCoefficients (t : Task) : Option (List Rat) :=
  (t.vars.zipIdx.flatMap (fun v => (List.range v.1.domain).map (fun val => (v.2, val, v.1.domain)))).foldlM
    (fun cs f => match lpVar t f.1 f.2.1 with
      | none => none
      | some i => if i < cs.length then some (cs.set i (1 / (f.2.2 : Rat))) else none) (List.replicate (numLpVars t) 0)

/-- `set_objective_coefficients` -/
def setObjective (p : LP.Program) (coefs : List Rat) : LP.Program :=
  { p with columns := List.zipWith (fun c q => { c with objective := q }) p.columns coefs }

/-- line 207 `extract_lp_solution`: the potentials of all facts -/
def extract (t : Task) (x : Nat → Rat) : List (List Rat) := (lpVarIds t.vars 0).map (fun ids => ids.dropLast.map x)

/-- the members of `PotentialOptimizer` that change: `fact_potentials`, and whether the LP solver has a solution -/
structure Optimizer where
  potentials : List (List Rat)
  solved : Bool
deriving DecidableEq, Repr

/-- `fact_potentials` after line 47: zero for every fact -/
def initialPotentials (t : Task) : List (List Rat) := t.vars.map (fun d => List.replicate d.domain 0)

/-- what can be optimised for -/
inductive Target where
  | samples (l : List State)
  | allStates
deriving DecidableEq, Repr

/-- results of `optimize_for_...` -/
inductive OptResult where
  | ok (opt : Optimizer)
  | inputError          -- line 68: `exit_with(SEARCH_INPUT_ERROR)`
  | abort               -- line 78
  | ub
deriving DecidableEq, Repr

/-- the objective -/
def coefficients (t : Task) : Target → Option (List Rat)
  | .samples l => sampleCoefficients t l
  | .allStates => allStatesCoefficients t

/-- lines 200-205 `solve_and_extract` -/
def solveAndExtract (t : Task) (solve : LP.Program → Option (Nat → Rat)) (p : LP.Program) (opt : Optimizer) : Optimizer :=
  match solve p with
  | none => { opt with solved := false }
  | some x => ⟨extract t x, true⟩

/-- lines 65-91 `optimize_for_all_states`, `optimize_for_samples` (`optimize_for_state` is the latter with one sample) -/
def optimize (t : Task) (maxPotential : Option Rat) (solve : LP.Program → Option (Nat → Rat)) (tg : Target) (opt : Optimizer) : OptResult :=
  if tg = .allStates ∧ maxPotential = none then .inputError
  else
    match constructLp t maxPotential, coefficients t tg with
    | some p, some cs =>
      if tg = .allStates ∧ (solveAndExtract t solve (setObjective p cs) opt).solved = false then .abort
      else .ok (solveAndExtract t solve (setObjective p cs) opt)
    | _, _ => .ub

/-- a sequence of optimisations, starting with a new object -/
def optimizeAll (t : Task) (maxPotential : Option Rat) (solve : LP.Program → Option (Nat → Rat)) : List Target → Optimizer → OptResult
  | [], opt => .ok opt
  | tg :: tgs, opt =>
    match optimize t maxPotential solve tg opt with
    | .ok opt => optimizeAll t maxPotential solve tgs opt
    | r => r

/-- potential_function.cc:19-25: the sum of the potentials of the facts of the state -/
def sumPotentials : List (List Rat) → State → Option Rat
  | _, [] => some 0
  | [], _ :: _ => none
  | p :: ps, x :: s =>
    match p[x]?, sumPotentials ps s with
    | some q, some r => some (q + r)
    | _, _ => none

/-- potential_function.cc:17 `PotentialFunction::get_value` -/
def getValue (pots : List (List Rat)) (s : State) : Option Int :=
  match sumPotentials pots s with
  | none => none
  | some q => if -2147483648 ≤ ⌈q - 1 / 100⌉ ∧ ⌈q - 1 / 100⌉ ≤ 2147483647 then some ⌈q - 1 / 100⌉ else none

/-- potential_heuristic.cc:18 `compute_heuristic` -/
def computeHeuristic (pots : List (List Rat)) (s : State) : Option Int := (getValue pots s).map (max 0)

/-- potential_max_heuristic.cc:18 `compute_heuristic` -/
def computeMaxHeuristic (funs : List (List (List Rat))) (s : State) : Option Int :=
  funs.foldlM (fun v f => (getValue f s).map (max v)) 0

/-! ### Diverse potential heuristics -/

/-- an entry of `SamplesToFunctionsMap`; the map is a list of entries in the order of iteration -/
abbrev Entry := State × List (List Rat)

/-- diverse_potential_heuristics.cc:30 `filter_samples_and_compute_functions` (the statistics are dropped); `map` and `dead` are
`samples_to_functions` and `dead_ends` -/
def filterSamples (t : Task) (mp : Option Rat) (solve : LP.Program → Option (Nat → Rat)) : List State → Optimizer → List Entry → List State → Option (Optimizer × List Entry)
  | [], opt, map, _ => some (opt, map)
  | s :: ss, opt, map, dead =>
    if s ∈ map.map (·.1) ∨ s ∈ dead then filterSamples t mp solve ss opt map dead
    else
      match optimize t mp solve (.samples [s]) opt with
      | .ok opt => if opt.solved then filterSamples t mp solve ss opt (map ++ [(s, opt.potentials)]) dead else filterSamples t mp solve ss opt map (s :: dead)
      | _ => none

/-- line 64 `remove_covered_samples`; `none` also if the assertion `h <= max_h` fails -/
def removeCovered (f : List (List Rat)) : List Entry → Option (List Entry)
  | [] => some []
  | e :: map =>
    match getValue e.2 e.1, getValue f e.1, removeCovered f map with
    | some maxH, some h, some map => if h ≤ maxH then some (if h = maxH then map else e :: map) else none
    | _, _, _ => none

/-- line 84 `find_function_and_remove_covered_samples`; `none` also if `get_potential_function` is called without a solution -/
def findFunction (t : Task) (mp : Option Rat) (solve : LP.Program → Option (Nat → Rat)) (opt : Optimizer) (map : List Entry) : Option (Optimizer × List (List Rat) × List Entry) :=
  match optimize t mp solve (.samples (map.map (·.1))) opt with
  | .ok opt =>
    if opt.solved then
      match removeCovered opt.potentials map with
      | none => none
      | some map' =>
        if map'.length = map.length then
          match map with
          | [] => none
          | e :: rest =>
            match removeCovered e.2 rest with
            | none => none
            | some rest' => some (opt, e.2, rest')
        else some (opt, opt.potentials, map')
    else none
  | _ => none

/-- line 113 `cover_samples`: the functions that are found; `k` is `max_num_heuristics` minus the number of functions found before -/
def coverSamples (t : Task) (mp : Option Rat) (solve : LP.Program → Option (Nat → Rat)) : Nat → Optimizer → List Entry → Option (List (List (List Rat)))
  | 0, _, _ => some []
  | k + 1, opt, map =>
    if map = [] then some []
    else
      match findFunction t mp solve opt map with
      | none => none
      | some (opt, f, map) => (coverSamples t mp solve k opt map).map (f :: ·)

/-- lines 138-143 of `find_functions`, for given samples; `order` is the order in which the entries of a hash map are stored -/
def findFunctions (t : Task) (mp : Option Rat) (solve : LP.Program → Option (Nat → Rat)) (order : List Entry → List Entry) (maxNum : Nat) (samples : List State) (opt : Optimizer) :
    Option (List (List (List Rat))) :=
  match filterSamples t mp solve samples opt [] [] with
  | none => none
  | some (opt, map) => coverSamples t mp solve maxNum opt (order map)

end Verif.Potentials
