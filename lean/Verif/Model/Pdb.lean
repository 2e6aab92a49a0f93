import Verif.Model.Dijkstra
import Verif.Spec.Task
import Mathlib.Data.List.Sort

/-
Model of pattern databases: src/search/pdbs/pattern_database.cc, pattern_database_factory.cc, match_tree.cc, pdb_heuristic.cc.

A pattern is a list of variables.  Facts of the projection are pairs (position in the pattern, value).  `none` and `.ub` are undefined
behaviour (index out of range, division by zero, integer overflow); asserts are not modelled (they are not part of release builds).
-/
namespace Verif.Pdb
open Verif.AdaptiveQueue

/-- the outcome of a construction: a result, or the planner ends with an error message, or undefined behaviour -/
inductive Build (α : Type) where
  | ok (a : α)
  | unsupported
  | tooLarge
  | ub

/-- pattern_database.h:16-20: members of Projection -/
structure Proj where
  pattern : List Nat
  doms : List Nat
  mults : List Nat
  n : Nat

/-- utils/math.cc:10-15 is_product_within_limit, for non-negative factors -/
def isProductWithinLimit (factor1 factor2 limit : Nat) : Bool := factor2 = 0 || factor1 ≤ limit / factor2

/-- pattern_database.cc:24-38: the loop over the pattern -/
def projLoop (t : Task) : List Nat → Proj → Build Proj
  | [], p => .ok p
  | v :: vs, p =>
    match t.vars[v]? with
    | none => .ub
    | some d =>
      if isProductWithinLimit p.n d.domain (2 ^ 31 - 1) then
        projLoop t vs ⟨p.pattern, p.doms ++ [d.domain], p.mults ++ [p.n], p.n * d.domain⟩
      else .tooLarge

/-- pattern_database.cc:15-39: the constructor of Projection -/
def project (t : Task) (pattern : List Nat) : Build Proj :=
  if t.axioms ≠ [] then .unsupported
  else if t.ops.any (fun o => o.effects.any (fun e => e.conds ≠ [])) then .unsupported
  else projLoop t pattern ⟨pattern, [], [], 1⟩

/-- pattern_database.cc:41-47 rank: the loop over the pattern with the multipliers; the products are ints, the sum is a size_t (64 bits)
which must fit into the int that is returned -/
def rankLoop (s : State) : List Nat → List Nat → Nat → Option Nat
  | [], _, index => if index < 2 ^ 31 then some index else none
  | _ :: _, [], _ => none
  | v :: vs, m :: ms, index =>
    match s[v]? with
    | none => none
    | some x => if m * x < 2 ^ 31 then rankLoop s vs ms ((index + m * x) % 2 ^ 64) else none

/-- pattern_database.cc:41-47 -/
def Proj.rank (p : Proj) (s : State) : Option Nat := rankLoop s p.pattern p.mults 0

/-- pattern_database.cc:49-52 -/
def Proj.unrank (p : Proj) (index var : Nat) : Option Nat :=
  match p.mults[var]?, p.doms[var]? with
  | some m, some d => if m = 0 ∨ d = 0 then none else some (index / m % d)
  | _, _ => none

/-- abstract_operator.h:20-43 -/
structure AbsOp where
  opId : Nat
  cost : Nat
  pre : List (Nat × Nat)
  effect : Int

/-- pattern_database_factory.cc:110-115 compute_variable_to_index, after the loop has reached position `i`; `none` is -1 -/
def toIndexLoop : List Nat → Nat → (Nat → Option Nat) → Nat → Option Nat
  | [], _, f => f
  | v :: vs, i, f => toIndexLoop vs (i + 1) (Relax.upd f v (some i))

/-- pattern_database_factory.cc:110-115 -/
def toIndex (pattern : List Nat) : Nat → Option Nat := toIndexLoop pattern 0 (fun _ => none)

/-- the value is an int -/
def isInt (x : Int) : Bool := -(2 ^ 31) ≤ x ∧ x < 2 ^ 31

/-- pattern_database_factory.cc:130-140: the loop over pre_pairs and eff_pairs -/
def hashEffect (p : Proj) : List (Nat × Nat) → List (Nat × Nat) → Int → Option Int
  | [], _, acc => some acc
  | _ :: _, [], _ => none
  | (v, new) :: pre, (_, old) :: eff, acc =>
    match p.mults[v]? with
    | none => none
    | some m =>
      if isInt (((new : Int) - old) * m) && isInt (acc + ((new : Int) - old) * m) then hashEffect p pre eff (acc + ((new : Int) - old) * m)
      else none

/-- abstract_task.h FactPair::operator< (by variable, then by value) -/
def factLe (a b : Nat × Nat) : Prop := a.1 < b.1 ∨ (a.1 = b.1 ∧ a.2 ≤ b.2)

instance : DecidableRel factLe := fun a b => inferInstanceAs (Decidable (a.1 < b.1 ∨ (a.1 = b.1 ∧ a.2 ≤ b.2)))

/-- pattern_database_factory.cc:117-143 build_abstract_operator; the result of std::sort is determined by the order -/
def buildAbstractOperator (p : Proj) (opId cost : Nat) (prev pre eff : List (Nat × Nat)) : Option AbsOp :=
  match hashEffect p pre eff 0 with
  | none => none
  | some e => some ⟨opId, cost, (prev ++ eff).insertionSort factLe, e⟩

/-- the results of a loop whose body appends to a list -/
def collect {α β : Type} (f : α → Option (List β)) : List α → Option (List β)
  | [] => some []
  | a :: as =>
    match f a with
    | none => none
    | some l =>
      match collect f as with
      | none => none
      | some l' => some (l ++ l')

/-- pattern_database_factory.cc:145-180 multiply_out; the first list contains the effects without precondition that are still to be
treated -/
def multiplyOut (t : Task) (p : Proj) (opId cost : Nat) : List (Nat × Nat) → List (Nat × Nat) → List (Nat × Nat) → List (Nat × Nat) → Option (List AbsOp)
  | [], prev, pre, eff =>
    if eff ≠ [] then
      match buildAbstractOperator p opId cost prev pre eff with
      | none => none
      | some a => some [a]
    else some []
  | (v, x) :: rest, prev, pre, eff =>
    match (p.pattern[v]?).bind (fun var => t.vars[var]?) with
    | none => none
    | some d =>
      collect (fun i =>
        if i ≠ x then multiplyOut t p opId cost rest prev (pre ++ [(v, i)]) (eff ++ [(v, x)])
        else multiplyOut t p opId cost rest (prev ++ [(v, i)]) pre eff) (List.range d.domain)

/-- has_precondition_on_var (pattern_database_factory.cc:197-201) -/
def hasPre (o : Operator) (v : Nat) : Bool := o.pre.any (fun f => f.var == v)

/-- has_precond_and_effect_on_var for a variable of the pattern (pattern_database_factory.cc:196, 203-210) -/
def hasPreAndEff (o : Operator) (v : Nat) : Bool := hasPre o v && o.effects.any (fun e => e.fact.var == v)

/-- eff_pairs (pattern_database_factory.cc:203-215) -/
def effPairs (idx : Nat → Option Nat) (o : Operator) : List (Nat × Nat) :=
  o.effects.filterMap (fun e => if hasPre o e.fact.var then (idx e.fact.var).map (fun k => (k, e.fact.val)) else none)

/-- effects_without_pre (pattern_database_factory.cc:203-215) -/
def effsWithoutPre (idx : Nat → Option Nat) (o : Operator) : List (Nat × Nat) :=
  o.effects.filterMap (fun e => if hasPre o e.fact.var then none else (idx e.fact.var).map (fun k => (k, e.fact.val)))

/-- pre_pairs (pattern_database_factory.cc:216-227) -/
def prePairs (idx : Nat → Option Nat) (o : Operator) : List (Nat × Nat) :=
  o.pre.filterMap (fun f => if hasPreAndEff o f.var then (idx f.var).map (fun k => (k, f.val)) else none)

/-- prev_pairs (pattern_database_factory.cc:216-227) -/
def prevPairs (idx : Nat → Option Nat) (o : Operator) : List (Nat × Nat) :=
  o.pre.filterMap (fun f => if hasPreAndEff o f.var then none else (idx f.var).map (fun k => (k, f.val)))

/-- pattern_database_factory.cc:182-229 build_abstract_operators_for_op -/
def buildForOp (t : Task) (p : Proj) (idx : Nat → Option Nat) (opId : Nat) (o : Operator) (cost : Nat) : Option (List AbsOp) :=
  multiplyOut t p opId cost (effsWithoutPre idx o) (prevPairs idx o) (prePairs idx o) (effPairs idx o)

/-- pattern_database_factory.cc:231-242 compute_abstract_operators -/
def abstractOperators (t : Task) (p : Proj) (idx : Nat → Option Nat) (costs : List Nat) : Option (List AbsOp) :=
  collect (fun q : Operator × Nat =>
    if costs = [] then buildForOp t p idx q.2 q.1 q.1.cost
    else
      match costs[q.2]? with
      | none => none
      | some c => buildForOp t p idx q.2 q.1 c) t.ops.zipIdx

/-- match_tree.cc:15-46: a node of the match tree or a null pointer: applicable_operator_ids, var_id with var_domain_size
(`none` for a leaf), successors, star_successor -/
inductive MTree where
  | null
  | node (ids : List Nat) (var : Option (Nat × Nat)) (succ : Nat → MTree) (star : MTree)

/-- match_tree.cc:76-126 insert_recursive on a null pointer: only new nodes are created -/
def chain (dom : Nat → Option Nat) (id : Nat) : List (Nat × Nat) → Option MTree
  | [] => some (.node [id] none (fun _ => .null) .null)
  | (v, x) :: pre =>
    match dom v with
    | none => none
    | some d =>
      if x < d then
        match chain dom id pre with
        | none => none
        | some c => some (.node [] (some (v, d)) (Relax.upd (fun _ => .null) x c) .null)
      else none

/-- match_tree.cc:76-126 insert_recursive; `dom` is the domain size of a variable of the pattern (lines 89-92) -/
def MTree.insert (dom : Nat → Option Nat) (id : Nat) : MTree → List (Nat × Nat) → Option MTree
  | .null, pre => chain dom id pre
  | .node ids var succ star, [] => some (.node (ids ++ [id]) var succ star)
  | .node ids none _ star, (v, x) :: pre =>
    match dom v with
    | none => none
    | some d =>
      if x < d then
        match chain dom id pre with
        | none => none
        | some c => some (.node ids (some (v, d)) (Relax.upd (fun _ => .null) x c) star)
      else none
  | .node ids (some (w, d')) succ star, (v, x) :: pre =>
    match dom v with
    | none => none
    | some d =>
      if w > v then
        if x < d then
          match chain dom id pre with
          | none => none
          | some c => some (.node [] (some (v, d)) (Relax.upd (fun _ => .null) x c) (.node ids (some (w, d')) succ star))
        else none
      else if w = v then
        if x < d' then
          match (succ x).insert dom id pre with
          | none => none
          | some c => some (.node ids (some (w, d')) (Relax.upd succ x c) star)
        else none
      else
        match star.insert dom id ((v, x) :: pre) with
        | none => none
        | some c => some (.node ids (some (w, d')) succ c)

/-- match_tree.cc:133-168 get_applicable_operator_ids; `val` unranks a variable of the pattern -/
def MTree.lookup (val : Nat → Option Nat) : MTree → Option (List Nat)
  | .null => some []
  | .node ids none _ _ => some ids
  | .node ids (some (v, d)) succ star =>
    match val v with
    | none => none
    | some x =>
      if x < d then
        match (succ x).lookup val with
        | none => none
        | some l₁ =>
          match star.lookup val with
          | none => none
          | some l₂ => some (ids ++ (l₁ ++ l₂))
      else none

/-- pattern_database_factory.cc:248-251: the loop over the abstract operators -/
def treeLoop (dom : Nat → Option Nat) : List (AbsOp × Nat) → MTree → Option MTree
  | [], m => some m
  | (a, i) :: l, m =>
    match m.insert dom i a.pre with
    | none => none
    | some m => treeLoop dom l m

/-- the domain size of a variable of the pattern (match_tree.cc:89-92) -/
def domOf (t : Task) (p : Proj) (v : Nat) : Option Nat := ((p.pattern[v]?).bind (fun var => t.vars[var]?)).map (·.domain)

/-- pattern_database_factory.cc:244-252 compute_match_tree -/
def matchTree (t : Task) (p : Proj) (ops : List AbsOp) : Option MTree := treeLoop (domOf t p) ops.zipIdx .null

/-- pattern_database_factory.cc:254-262 compute_abstract_goals -/
def abstractGoals (t : Task) (idx : Nat → Option Nat) : List (Nat × Nat) := t.goal.filterMap (fun f => (idx f.var).map (fun k => (k, f.val)))

/-- pattern_database_factory.cc:264-273 is_goal_state -/
def isGoal (p : Proj) (index : Nat) : List (Nat × Nat) → Option Bool
  | [] => some true
  | (v, x) :: gs =>
    match p.unrank index v with
    | none => none
    | some y => if y ≠ x then some false else isGoal p index gs

/-- pattern_database_factory.cc:282-290: the loop over the abstract states -/
def initLoop (H : StdHeap Nat) (p : Proj) (goals : List (Nat × Nat)) : List Nat → Dijkstra.DSt → Option Dijkstra.DSt
  | [], st => some st
  | i :: is, st =>
    match isGoal p i goals with
    | none => none
    | some true =>
      match st.queue.push H 0 i with
      | none => none
      | some q => initLoop H p goals is ⟨Relax.upd st.dist i 0, q⟩
    | some false => initLoop H p goals is ⟨Relax.upd st.dist i Dijkstra.inf, st.queue⟩

/-- pattern_database_factory.cc:320-321: the predecessor and the cost of an abstract operator -/
def edge (ops : List AbsOp) (index : Nat) (id : Nat) : Option (Int × Nat) :=
  match ops[id]? with
  | none => none
  | some a => if isInt (index + a.effect) then some (index + a.effect, a.cost) else none

/-- the results of a loop with one result for each element -/
def mapAll {α β : Type} (f : α → Option β) : List α → Option (List β)
  | [] => some []
  | a :: as =>
    match f a with
    | none => none
    | some b =>
      match mapAll f as with
      | none => none
      | some bs => some (b :: bs)

/-- pattern_database_factory.cc:315-321: the abstract transitions to a state -/
def regress (p : Proj) (ops : List AbsOp) (tree : MTree) (index : Nat) : Option (List (Int × Nat)) :=
  match tree.lookup (p.unrank index) with
  | none => none
  | some ids => mapAll (edge ops index) ids

/-- pattern_database_factory.cc:275-332 compute_distances; the distances before the first loop are not read -/
def computeDistances (H : StdHeap Nat) (p : Proj) (ops : List AbsOp) (tree : MTree) (goals : List (Nat × Nat)) : Option (Nat → Nat) :=
  match initLoop H p goals (List.range p.n) ⟨fun _ => Dijkstra.inf, Queue.new⟩ with
  | none => none
  | some st =>
    match Dijkstra.loop H p.n (regress p ops tree) st with
    | none => none
    | some st => some st.dist

/-- pattern_database.h:46-52: a pattern database -/
structure Db where
  proj : Proj
  dist : Nat → Nat

/-- pattern_database_factory.cc:396-416 with compute_plan = false, and 418-425 compute_pdb; `costs` is operator_costs (empty: the costs of the task) -/
def computePdb (H : StdHeap Nat) (t : Task) (pattern : List Nat) (costs : List Nat) : Build Db :=
  match project t pattern with
  | .unsupported => .unsupported
  | .tooLarge => .tooLarge
  | .ub => .ub
  | .ok p =>
    match abstractOperators t p (toIndex pattern) costs with
    | none => .ub
    | some ops =>
      match matchTree t p ops with
      | none => .ub
      | some tree =>
        match computeDistances H p ops tree (abstractGoals t (toIndex pattern)) with
        | none => .ub
        | some dist => .ok ⟨p, dist⟩

/-- pattern_database.cc:59-61 get_value -/
def Db.value (db : Db) (s : State) : Option Nat :=
  match db.proj.rank s with
  | none => none
  | some i => if i < db.proj.n then some (db.dist i) else none

/-- pdb_heuristic.cc:29-35 compute_heuristic: `some none` is DEAD_END -/
def Db.heuristic (db : Db) (s : State) : Option (Option Nat) :=
  match db.value s with
  | none => none
  | some h => if h = Dijkstra.inf then some none else some (some h)

end Verif.Pdb
