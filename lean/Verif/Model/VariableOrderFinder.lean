import Verif.Model.PdbCollections
import Mathlib.Data.List.Perm.Basic
import Mathlib.Data.List.Dedup

/-
Model of src/search/task_utils/causal_graph.cc, src/search/task_utils/variable_order_finder.cc and src/search/pdbs/pattern_generator_greedy.cc.

Output is left out.  Operators and axioms are given by the operators of the task (Spec/Task.lean).
-/
namespace Verif.OrderFinder

/-! ### the causal graph -/

/-- causal_graph.cc:129-137: the arguments of the calls of handle_pre_eff_arc for preconditions, in order -/
def preArcs (o : Operator) : List (Nat × Nat) :=
  o.pre.flatMap (fun p => (o.effects.filter (fun e => p.var ≠ e.fact.var)).map (fun e => (p.var, e.fact.var)))

/-- causal_graph.cc:139-148: the same for effect conditions -/
def condArcs (o : Operator) : List (Nat × Nat) :=
  o.effects.flatMap (fun e => (e.conds.filter (fun c => c.var ≠ e.fact.var)).map (fun c => (c.var, e.fact.var)))

/-- causal_graph.cc:150-158: the arguments of the calls of handle_eff_eff_edge, in order -/
def effEdges : List Effect → List (Nat × Nat)
  | [] => []
  | e :: es => (es.filter (fun e' => e.fact.var ≠ e'.fact.var)).map (fun e' => (e.fact.var, e'.fact.var)) ++ effEdges es

/-- causal_graph.cc:89-103: the pairs added to the five relations -/
structure Builder where
  preEff : List (Nat × Nat)
  effPre : List (Nat × Nat)
  effEff : List (Nat × Nat)
  succ : List (Nat × Nat)
  pred : List (Nat × Nat)

/-- causal_graph.cc:108-114 handle_pre_eff_arc; the assertion holds because the callers check it -/
def handlePreEffArc (b : Builder) (a : Nat × Nat) : Builder :=
  { b with
    preEff := b.preEff ++ [(a.1, a.2)]
    succ := b.succ ++ [(a.1, a.2)]
    effPre := b.effPre ++ [(a.2, a.1)]
    pred := b.pred ++ [(a.2, a.1)] }

/-- causal_graph.cc:116-124 handle_eff_eff_edge -/
def handleEffEffEdge (b : Builder) (a : Nat × Nat) : Builder :=
  { b with
    effEff := b.effEff ++ [(a.1, a.2), (a.2, a.1)]
    succ := b.succ ++ [(a.1, a.2), (a.2, a.1)]
    pred := b.pred ++ [(a.1, a.2), (a.2, a.1)] }

/-- causal_graph.cc:126-159 handle_operator -/
def handleOperator (b : Builder) (o : Operator) : Builder :=
  (effEdges o.effects).foldl handleEffEffEdge ((condArcs o).foldl handlePreEffArc ((preArcs o).foldl handlePreEffArc b))

/-- causal_graph.cc:73-87: add_pair, undefined for numbers out of range, and compute_relation -/
def computeRelation (range : Nat) (pairs : List (Nat × Nat)) : Option (List (List Nat)) :=
  if pairs.all (fun a => decide (a.1 < range) && decide (a.2 < range)) then
    some ((List.range range).map (fun i => ((pairs.filter (fun a => a.1 == i)).map (·.2)).dedup.insertionSort (· ≤ ·)))
  else none

/-- causal_graph.h:60-66 -/
structure Graph where
  preToEff : List (List Nat)
  effToPre : List (List Nat)
  effToEff : List (List Nat)
  successors : List (List Nat)
  predecessors : List (List Nat)
deriving DecidableEq

/-- causal_graph.cc:174-179 -/
def finish (n : Nat) (b : Builder) : Option Graph :=
  match computeRelation n b.preEff, computeRelation n b.effPre, computeRelation n b.effEff, computeRelation n b.pred, computeRelation n b.succ with
  | some pe, some ep, some ee, some pd, some sc => some ⟨pe, ep, ee, sc, pd⟩
  | _, _, _, _, _ => none

/-- causal_graph.cc:162-183: the constructor; `none` is undefined behaviour -/
def causalGraph (t : Task) : Option Graph :=
  finish t.vars.length (t.axioms.foldl handleOperator (t.ops.foldl handleOperator ⟨[], [], [], [], []⟩))

/-! ### orders of the variables -/

/-- variable_order_finder.h:15-22 -/
inductive OrderType where
  | cgGoalLevel
  | cgGoalRandom
  | goalCgLevel
  | random
  | level
  | reverseLevel
deriving DecidableEq

/-- the result of a computation: undefined behaviour, exit with SEARCH_INPUT_ERROR, or a value -/
inductive Result (α : Type) where
  | ub
  | inputError
  | ok (a : α)
deriving DecidableEq

/-- variable_order_finder.h:33-38; `selected_vars` is never read -/
structure Finder where
  remaining : List Nat
  isGoal : List Bool
  isPred : List Bool
deriving DecidableEq

/-- variable_order_finder.cc:22-28 -/
def initialVars (τ : OrderType) (n : Nat) : List Nat :=
  match τ with
  | .reverseLevel => List.range n
  | _ => (List.range n).reverse

/-- variable_order_finder.cc:30-38: the result of shuffling is a parameter; it must be a permutation.  ABORT for a missing random number generator is left out. -/
def shuffled (τ : OrderType) (shuffle : List Nat → List Nat) (vars : List Nat) : Option (List Nat) :=
  match τ with
  | .cgGoalRandom | .random => if (shuffle vars).Perm vars then some (shuffle vars) else none
  | _ => some vars

/-- marking of an entry; an index out of range is undefined -/
def markAll : List Nat → List Bool → Option (List Bool)
  | [], marks => some marks
  | v :: vs, marks => if v < marks.length then markAll vs (marks.set v true) else none

/-- variable_order_finder.cc:17-44: the constructor -/
def create (τ : OrderType) (shuffle : List Nat → List Nat) (t : Task) : Option Finder :=
  match shuffled τ shuffle (initialVars τ t.vars.length), markAll (t.goal.map (·.var)) (List.replicate t.vars.length false) with
  | some vars, some goals => some ⟨vars, goals, List.replicate t.vars.length false⟩
  | _, _ => none

/-- variable_order_finder.cc:46-54 select_next -/
def selectNext (G : Graph) (F : Finder) (position v : Nat) : Option Finder :=
  match G.effToPre[v]? with
  | none => none
  | some newVars =>
    match markAll newVars F.isPred with
    | none => none
    | some marks => some { F with remaining := F.remaining.eraseIdx position, isPred := marks }

/-- variable_order_finder.cc:65-71 and similar loops: the first remaining variable that is marked, with its position; `some none` if there is none -/
def findMarked (marks : List Bool) : Nat → List Nat → Option (Option (Nat × Nat))
  | _, [] => some none
  | i, v :: vs =>
    match marks[v]? with
    | none => none
    | some true => some (some (i, v))
    | some false => findMarked marks (i + 1) vs

/-- variable_order_finder.cc:68-69: select the variable and return it -/
def selected (G : Graph) (F : Finder) (position v : Nat) : Result (Nat × Finder) :=
  match selectNext G F position v with
  | none => .ub
  | some F' => .ok (v, F')

/-- variable_order_finder.cc:64-79, 81-96: two runs over the remaining variables, with lines 104-105 if both fail -/
def twoRuns (G : Graph) (F : Finder) (first second : List Bool) : Result (Nat × Finder) :=
  match findMarked first 0 F.remaining with
  | none => .ub
  | some (some (i, v)) => selected G F i v
  | some none =>
    match findMarked second 0 F.remaining with
    | none => .ub
    | some (some (i, v)) => selected G F i v
    | some none => .inputError

/-- variable_order_finder.cc:60-106 next -/
def next (τ : OrderType) (G : Graph) (F : Finder) : Result (Nat × Finder) :=
  match F.remaining with
  | [] => .ub
  | v :: _ =>
    match τ with
    | .cgGoalLevel | .cgGoalRandom => twoRuns G F F.isPred F.isGoal
    | .goalCgLevel => twoRuns G F F.isGoal F.isPred
    | .random | .level | .reverseLevel => selected G F 0 v

/-- the use of the class by merge_tree_factory_linear.cc:32-37: call next() until done(); `k` bounds the number of calls -/
def collect (τ : OrderType) (G : Graph) : Nat → Finder → Result (List Nat)
  | 0, F => if F.remaining = [] then .ok [] else .ub
  | k + 1, F =>
    match F.remaining with
    | [] => .ok []
    | _ :: _ =>
      match next τ G F with
      | .ub => .ub
      | .inputError => .inputError
      | .ok (v, F') =>
        match collect τ G k F' with
        | .ub => .ub
        | .inputError => .inputError
        | .ok vs => .ok (v :: vs)

/-- all variables in the order found; every call removes a variable, so the number of variables is a sufficient bound -/
def variableOrder (τ : OrderType) (shuffle : List Nat → List Nat) (t : Task) : Result (List Nat) :=
  match causalGraph t, create τ shuffle t with
  | some G, some F => collect τ G F.remaining.length F
  | _, _ => .ub

/-! ### the greedy pattern generator -/

/-- pattern_generator_greedy.cc:37-50; `k` bounds the number of iterations; is_product_within_limit is modelled in Model/Pdb.lean -/
def greedyLoop (t : Task) (maxStates : Nat) (G : Graph) : Nat → Finder → Nat → List Nat → Result (List Nat)
  | 0, F, _, pattern => if F.remaining = [] then .ok pattern else .ub
  | k + 1, F, size, pattern =>
    match F.remaining with
    | [] => .ok pattern
    | _ :: _ =>
      match next .goalCgLevel G F with
      | .ub => .ub
      | .inputError => .inputError
      | .ok (v, F') =>
        match t.vars[v]? with
        | none => .ub
        | some d =>
          if Pdb.isProductWithinLimit size d.domain maxStates then greedyLoop t maxStates G k F' (size * d.domain) (pattern ++ [v])
          else .ok pattern

/-- pattern_generator_greedy.cc:52, pattern_information.cc:15: the pattern is normalized; the exit with SEARCH_CRITICAL_ERROR is not expected and counts as undefined -/
def normalized (t : Task) (pattern : List Nat) : Result (List Nat) :=
  match Pdb.normalize t.vars.length (pattern.map Int.ofNat) with
  | none => .ub
  | some p => .ok p

/-- pattern_generator_greedy.cc:29-53 compute_pattern -/
def greedyPattern (t : Task) (maxStates : Nat) : Result (List Nat) :=
  match causalGraph t, create .goalCgLevel id t with
  | some G, some F =>
    match greedyLoop t maxStates G F.remaining.length F 1 [] with
    | .ub => .ub
    | .inputError => .inputError
    | .ok pattern => normalized t pattern
  | _, _ => .ub

end Verif.OrderFinder
