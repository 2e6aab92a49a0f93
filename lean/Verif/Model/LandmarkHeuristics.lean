import Verif.Model.Landmarks
import Verif.Spec.LinearProgram

/-
Model of the heuristics that are based on landmarks
(src/search/landmarks/landmark_heuristic.cc, landmark_cost_partitioning_algorithms.cc, landmark_cost_partitioning_heuristic.cc,
landmark_sum_heuristic.cc).

The type `double` of the code is modelled by the rational numbers.  `numeric_limits<double>::max()` is only used as a mark for
dead ends and is modelled by a separate value.  An access outside of a vector and a failed assertion give `none`.
-/
namespace Verif.Landmarks

/-- a value of a heuristic: DEAD_END (heuristic.h:45), or an estimate -/
inductive HValue where
  | deadEnd
  | value (h : Int)
deriving DecidableEq, Repr

/-! ### Cycles of orderings -/

/-- how a depth-first search ends: with an access outside of a vector, not at all within the number of nested calls, or with
its result and the vectors `closed` and `visited` -/
inductive Dfs where
  | ub
  | loops
  | done (found : Bool) (closed visited : Bits)
deriving DecidableEq, Repr

/-- landmark_heuristic.cc:37-44: the loop over the children; `rec` is the recursive call -/
def dfsChildren (rec : Nat → Bits → Bits → Dfs) : List (Nat × OrderingType) → Bits → Bits → Dfs
  | [], closed, visited => .done false closed visited
  | c :: cs, closed, visited =>
    if c.2 = .reasonable then dfsChildren rec cs closed visited
    else
      match rec c.1 closed visited with
      | .ub => .ub
      | .loops => .loops
      | .done true closed visited => .done true closed visited
      | .done false closed visited => dfsChildren rec cs closed visited

/-- landmark_heuristic.cc:27 `depth_first_search_for_cycle_of_natural_orderings`.  The first argument bounds the number of
nested calls. -/
def dfsNode (g : Graph) : Nat → Nat → Bits → Bits → Dfs
  | 0, _, _, _ => .loops
  | fuel + 1, id, closed, visited =>
    match g[id]?, closed[id]?, visited[id]? with
    | some _, some true, _ => .done false closed visited
    | some _, some false, some true => .done true closed visited
    | some node, some false, some false =>
      match dfsChildren (dfsNode g fuel) node.children closed (visited.set id true) with
      | .ub => .ub
      | .loops => .loops
      | .done true closed visited => .done true closed visited
      | .done false closed visited => if id < closed.length then .done false (closed.set id true) visited else .ub
    | _, _, _ => .ub

/-- landmark_heuristic.cc:54-59: the loop over the nodes -/
def dfsAll (g : Graph) : List Nat → Bits → Bits → Dfs
  | [], closed, visited => .done false closed visited
  | id :: ids, closed, visited =>
    match dfsNode g (g.length + 1) id closed visited with
    | .ub => .ub
    | .loops => .loops
    | .done true closed visited => .done true closed visited
    | .done false closed visited => dfsAll g ids closed visited

/-- landmark_heuristic.cc:49 `landmark_graph_has_cycle_of_natural_orderings`; `none` if the search does not end properly -/
def hasCycleOfNaturalOrderings (g : Graph) : Option Bool :=
  match dfsAll g (List.range g.length) (List.replicate g.length false) (List.replicate g.length false) with
  | .done found _ _ => some found
  | _ => none

/-! ### Uniform cost partitioning

The line numbers in this part and in the next one refer to landmark_cost_partitioning_algorithms.cc. -/

/-- access to a vector with an operator id -/
def opAt {α : Type} (l : List α) (id : Int) : Option α := if id < 0 then none else l[id.toNat]?

/-- landmark_cost_partitioning_algorithms.cc:22 `get_achievers` -/
def getAchievers (l : Landmark) (past : Bool) : List Int := if past then l.possibleAchievers else l.firstAchievers

/-- `++landmarks_achieved_by_operator[op_id]` (line 61) and `--landmarks_achieved_by_operator[op_id]` (line 96) -/
def addAt (d : Int) (cnt : List Int) (op : Int) : Option (List Int) :=
  match opAt cnt op with
  | none => none
  | some x => some (cnt.set op.toNat (x + d))

/-- the variables of `first_pass` -/
structure Pass where
  cnt : List Int
  alm : List Bool
  cost : Nat
deriving DecidableEq, Repr

/-- lines 49-63: the achievers of a future landmark, if there are any -/
def firstPassNode (costs : List Nat) (useAlm : Bool) (achievers : List Int) (v : Pass) : Option Pass :=
  match useAlm, achievers with
  | true, [op] =>
    match opAt v.alm op, opAt costs op with
    | some true, _ => some v
    | some false, some c => some { v with alm := v.alm.set op.toNat true, cost := v.cost + c }
    | _, _ => none
  | _, _ => (achievers.foldlM (addAt 1) v.cnt).map (fun cnt => { v with cnt := cnt })

/-- the achievers of a landmark if the landmark is future, and `some none` otherwise (lines 43-45, 81-83) -/
def futureAchievers (past future : Bits) (x : Node × Nat) : Option (Option (List Int)) :=
  match future[x.2]? with
  | none => none
  | some false => some none
  | some true =>
    match past[x.2]? with
    | none => none
    | some p => some (some (getAchievers x.1.landmark p))

/-- line 37 `first_pass`; `some none` if there is a landmark without achievers -/
def firstPass (costs : List Nat) (useAlm : Bool) (past future : Bits) : List (Node × Nat) → Pass → Option (Option Pass)
  | [], v => some (some v)
  | x :: xs, v =>
    match futureAchievers past future x with
    | none => none
    | some none => firstPass costs useAlm past future xs v
    | some (some []) => some none
    | some (some (a :: as)) =>
      match firstPassNode costs useAlm (a :: as) v with
      | none => none
      | some v => firstPass costs useAlm past future xs v

/-- lines 84-91: is one of the achievers an action landmark? -/
def coveredByActionLandmark (alm : List Bool) : List Int → Option Bool
  | [] => some false
  | a :: as =>
    match opAt alm a with
    | none => none
    | some true => some true
    | some false => coveredByActionLandmark alm as

/-- line 74 `second_pass`: the numbers of landmarks achieved by the operators, and the achievers of the uncovered landmarks
(get_achievers returns the same set in all three passes) -/
def secondPass (alm : List Bool) (past future : Bits) : List (Node × Nat) → List Int → List (List Int) → Option (List Int × List (List Int))
  | [], cnt, uncovered => some (cnt, uncovered)
  | x :: xs, cnt, uncovered =>
    match futureAchievers past future x with
    | none => none
    | some none => secondPass alm past future xs cnt uncovered
    | some (some achievers) =>
      match coveredByActionLandmark alm achievers with
      | none => none
      | some true =>
        match achievers.foldlM (addAt (-1)) cnt with
        | none => none
        | some cnt => secondPass alm past future xs cnt uncovered
      | some false => secondPass alm past future xs cnt (uncovered ++ [achievers])

/-- lines 119-128: the minimum over the achievers; `some none` if there are no achievers (the code would use
`numeric_limits<double>::max()`) -/
def minPartitionedCost (costs : List Nat) (cnt : List Int) : List Int → Option (Option Rat)
  | [] => some none
  | op :: ops =>
    match opAt cnt op, opAt costs op with
    | some n, some c =>
      if n ≥ 1 then
        match minPartitionedCost costs cnt ops with
        | none => none
        | some none => some (some ((c : Rat) / n))
        | some (some m) => some (some (min ((c : Rat) / n) m))
      else none
    | _, _ => none

/-- line 107 `third_pass` -/
def thirdPass (costs : List Nat) (cnt : List Int) : List (List Int) → Rat → Option Rat
  | [], cost => some cost
  | as :: uncovered, cost =>
    match minPartitionedCost costs cnt as with
    | some (some m) => thirdPass costs cnt uncovered (cost + m)
    | _ => none

/-- line 134 `UniformCostPartitioningAlgorithm::get_cost_partitioned_heuristic_value`; `some none` for a dead end -/
def uniformValue (g : Graph) (costs : List Nat) (useAlm : Bool) (past future : Bits) : Option (Option Rat) :=
  match firstPass costs useAlm past future g.zipIdx ⟨List.replicate costs.length 0, List.replicate costs.length false, 0⟩ with
  | none => none
  | some none => some none
  | some (some v) =>
    match secondPass v.alm past future g.zipIdx v.cnt [] with
    | none => none
    | some (cnt, uncovered) =>
      match thirdPass costs cnt uncovered 0 with
      | none => none
      | some c => some (some ((v.cost : Rat) + c))

/-! ### Optimal cost partitioning -/

/-- line 211 `set_lp_bounds` with the initial values of line 186 -/
def lpVariables (future : Bits) : List LP.Column := future.map (fun b => ⟨some 0, if b then none else some 0, 1⟩)

/-- lines 193-197: the constraints before the first state -/
def initialConstraints (costs : List Nat) : List LP.Row := costs.map (fun (c : Nat) => ⟨some 0, some (c : Rat), []⟩)

/-- `lp_constraints[op_id].insert(id, 1.0)` (line 257) -/
def insertEntry (id : Nat) (cs : List LP.Row) (op : Int) : Option (List LP.Row) :=
  match opAt cs op with
  | none => none
  | some c => some (cs.set op.toNat { c with entries := c.entries ++ [(id, 1)] })

/-- line 231 `define_constraint_matrix`; `some none` for a dead end -/
def defineConstraintMatrix (past future : Bits) : List (Node × Nat) → List LP.Row → Option (Option (List LP.Row))
  | [], cs => some (some cs)
  | x :: xs, cs =>
    match futureAchievers past future x with
    | none => none
    | some none => defineConstraintMatrix past future xs cs
    | some (some []) => some none
    | some (some (a :: as)) =>
      match (a :: as).foldlM (insertEntry x.2) cs with
      | none => none
      | some cs => defineConstraintMatrix past future xs cs

/-- line 264 `OptimalCostPartitioningAlgorithm::get_cost_partitioned_heuristic_value` up to the call of the LP solver (line 292):
the linear program that is solved; `some none` for a dead end.  The bounds are set for as many columns as there are landmarks. -/
def optimalLp (g : Graph) (costs : List Nat) (past future : Bits) : Option (Option LP.Program) :=
  if future.length = g.length then
    match defineConstraintMatrix past future g.zipIdx ((initialConstraints costs).map (fun c => { c with entries := [] })) with
    | none => none
    | some none => some none
    | some (some cs) => some (some ⟨true, lpVariables future, cs.filter (fun c => !c.entries.isEmpty)⟩)
  else none

/-- landmark_cost_partitioning_heuristic.cc:66 `get_heuristic_value`: rounding of the value computed by the cost partitioning -/
def roundValue (h : Rat) : Int := Rat.ceil (h - 1 / 100)

/-- landmark_cost_partitioning_heuristic.cc:66 `get_heuristic_value` with uniform cost partitioning, within
landmark_heuristic.cc:184 `compute_heuristic` -/
def uniformHeuristic (g : Graph) (costs : List Nat) (useAlm : Bool) (st : Status) (s : State) : Option HValue :=
  match hasCycleOfNaturalOrderings g with
  | none => none
  | some true => some .deadEnd
  | some false =>
    match uniformValue g costs useAlm (st.past s) (st.future s) with
    | none => none
    | some none => some .deadEnd
    | some (some h) => some (.value (roundValue h))

/-- the same with optimal cost partitioning; `solver` gives the value that the LP solver returns -/
def optimalHeuristic (g : Graph) (costs : List Nat) (solver : LP.Program → Rat) (st : Status) (s : State) : Option HValue :=
  match hasCycleOfNaturalOrderings g with
  | none => none
  | some true => some .deadEnd
  | some false =>
    match optimalLp g costs (st.past s) (st.future s) with
    | none => none
    | some none => some .deadEnd
    | some (some lp) => some (.value (roundValue (solver lp)))

/-! ### Landmark sum -/

/-- the largest value of the type `int` -/
def intMax : Nat := 2 ^ 31 - 1

/-- util.cc:60 `get_operator_or_axiom`, and the cost of the operator -/
def costOfId (t : Task) (id : Int) : Option Nat :=
  if id < 0 then (t.axioms[(-id - 1).toNat]?).map (·.cost) else (t.ops[id.toNat]?).map (·.cost)

/-- landmark_sum_heuristic.cc:50 `get_min_cost_of_achievers` -/
def getMinCostOfAchievers (t : Task) : List Int → Nat → Option Nat
  | [], m => some m
  | id :: ids, m =>
    match costOfId t id with
    | none => none
    | some c => getMinCostOfAchievers t ids (min m c)

/-- task_properties.cc:77 `get_min_operator_cost` -/
def getMinOperatorCost (t : Task) : Nat := t.ops.foldl (fun m o => min m o.cost) intMax

/-- landmark_sum_heuristic.cc:70-82, the body of the loop: the minimal costs of the first and of all possible achievers -/
def landmarkCosts (t : Task) (l : Landmark) : Option (Nat × Nat) :=
  if l.isDerived then some (getMinOperatorCost t, getMinOperatorCost t)
  else
    match getMinCostOfAchievers t l.firstAchievers intMax, getMinCostOfAchievers t l.possibleAchievers intMax with
    | some a, some b => some (a, b)
    | _, _ => none

/-- landmark_sum_heuristic.cc:60 `compute_landmark_costs` -/
def computeLandmarkCosts (t : Task) (g : Graph) : Option (List (Nat × Nat)) := g.mapM (fun n => landmarkCosts t n.landmark)

/-- landmark_sum_heuristic.cc:91-103: the loop over the landmarks from number `id` on; an estimate that does not fit the type
`int` gives `none` -/
def sumLoop (past future : Bits) : List (Nat × Nat) → Nat → Nat → Option HValue
  | [], _, h => some (.value h)
  | c :: cs, id, h =>
    match future[id]? with
    | none => none
    | some false => sumLoop past future cs (id + 1) h
    | some true =>
      match past[id]? with
      | none => none
      | some p =>
        if (if p then c.2 else c.1) < intMax then
          if h + (if p then c.2 else c.1) ≤ intMax then sumLoop past future cs (id + 1) (h + (if p then c.2 else c.1)) else none
        else some .deadEnd

/-- landmark_sum_heuristic.cc:85 `get_heuristic_value` within landmark_heuristic.cc:184 `compute_heuristic` -/
def sumHeuristic (t : Task) (g : Graph) (st : Status) (s : State) : Option HValue :=
  match hasCycleOfNaturalOrderings g, computeLandmarkCosts t g with
  | some true, some _ => some .deadEnd
  | some false, some cs => sumLoop (st.past s) (st.future s) cs 0 0
  | _, _ => none

/-! ### Preferred operators -/

/-- landmark_heuristic.cc:129 `compute_landmarks_achieved_by_atom`: the entry of the atom in the map, in the unknown order of a
hash set; an atom without entry has no landmarks -/
def landmarksAchievedByAtom (g : Graph) (f : Fact) : List Nat :=
  (g.zipIdx.filter (fun x => x.1.landmark.type != .conjunctive && x.1.landmark.atoms.contains f)).map (·.2)

/-- landmark_heuristic.cc:159-163: is one of the landmarks future? -/
def someFuture (future : Bits) : List Nat → Option Bool
  | [] => some false
  | id :: ids =>
    match future[id]? with
    | none => none
    | some true => some true
    | some false => someFuture future ids

/-- landmark_heuristic.cc:151 `operator_is_preferred` -/
def operatorIsPreferred (g : Graph) (s : State) (future : Bits) : List Effect → Option Bool
  | [] => some false
  | e :: es =>
    match allTrue s e.conds with
    | none => none
    | some false => operatorIsPreferred g s future es
    | some true =>
      match someFuture future (landmarksAchievedByAtom g e.fact) with
      | none => none
      | some true => some true
      | some false => operatorIsPreferred g s future es

/-- landmark_heuristic.cc:169 `generate_preferred_operators`; `applicable` are the operators that the successor generator
yields (see the properties of the successor generator) -/
def generatePreferredOperators (t : Task) (g : Graph) (s : State) (future : Bits) : List Nat → Option (List Nat)
  | [] => some []
  | i :: is =>
    match t.ops[i]? with
    | none => none
    | some o =>
      match operatorIsPreferred g s future o.effects, generatePreferredOperators t g s future is with
      | some true, some l => some (i :: l)
      | some false, some l => some l
      | _, _ => none

end Verif.Landmarks
