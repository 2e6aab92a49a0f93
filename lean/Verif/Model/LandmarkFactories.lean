import Verif.Model.LandmarkExploration

/-
Model of the construction of landmark graphs: landmark_graph.cc, landmark_factory.cc, and the landmark factories of Zhu and Givan
(landmark_factory_zhu_givan.cc), of exhaustive search (landmark_factory_rpg_exhaust.cc) and for merged graphs
(landmark_factory_merged.cc) in src/search/landmarks.

Nodes are numbered in the order of their creation (landmark_graph.cc:170 `set_landmark_ids`), and pointers to nodes are these numbers.
The maps from atoms to nodes are modelled by a search for the first suitable node: the assertion of `add_landmark` makes sure that
there is at most one.  An access outside of a vector and a failed assertion give `none`.
-/
namespace Verif.Landmarks

/-! ### Landmark graphs -/

/-- `Landmark landmark({atom}, ATOMIC, is_true_in_goal)` -/
def atomicLandmark (f : Fact) (isTrueInGoal : Bool) : Landmark := ⟨[f], .atomic, isTrueInGoal, false, [], []⟩

/-- landmark_graph.cc:46 `contains_atomic_landmark` and :28 `get_atomic_landmark_node` -/
def Graph.findAtomic (g : Graph) (f : Fact) : Option Nat := g.findIdx? (fun n => n.landmark.type == .atomic && n.landmark.atoms == [f])

/-- landmark_graph.cc:50 `contains_disjunctive_landmark` and :36 `get_disjunctive_landmark_node` -/
def Graph.findDisjunctive (g : Graph) (f : Fact) : Option Nat := g.findIdx? (fun n => n.landmark.type == .disjunctive && n.landmark.atoms.contains f)

/-- landmark_graph.cc:78 `contains_landmark` -/
def Graph.containsLandmark (g : Graph) (f : Fact) : Bool := (g.findAtomic f).isSome || (g.findDisjunctive f).isSome

/-- landmark_graph.cc:91 `add_landmark` -/
def Graph.addLandmark (g : Graph) (l : Landmark) : Option Graph :=
  if l.type = .conjunctive ∨ l.atoms.all (fun f => !g.containsLandmark f) then some (g ++ [⟨l, [], []⟩]) else none

/-- landmark_graph.h:16: larger numbers are stronger -/
def OrderingType.strength : OrderingType → Nat
  | .necessary => 3
  | .greedyNecessary => 2
  | .natural => 1
  | .reasonable => 0

/-- `unordered_map::find` -/
def lookupOrdering (l : List (Nat × OrderingType)) (i : Nat) : Option OrderingType := (l.find? (fun x => x.1 == i)).map (·.2)

/-- landmark_factory.cc:58 `weaker_ordering_exists` -/
def weakerOrderingExists (a b : Node) (src dst : Nat) (ty : OrderingType) : Bool :=
  match if a.children.length < b.parents.length then lookupOrdering a.children dst else lookupOrdering b.parents src with
  | none => false
  | some old => decide (old.strength < ty.strength)

/-- landmark_factory.cc:75 `remove_ordering` -/
def removeOrdering (g : Graph) (src dst : Nat) : Graph :=
  (g.modify src (fun n => { n with children := n.children.filter (fun x => x.1 != dst) })).modify dst
    (fun n => { n with parents := n.parents.filter (fun x => x.1 != src) })

/-- landmark_factory.cc:82 `add_ordering`, the insertions -/
def insertOrdering (g : Graph) (src dst : Nat) (ty : OrderingType) : Graph :=
  (g.modify src (fun n => { n with children := n.children ++ [(dst, ty)] })).modify dst
    (fun n => { n with parents := n.parents ++ [(src, ty)] })

/-- landmark_factory.cc:100-102 -/
def addOrderingIfMissing (g : Graph) (src dst : Nat) (ty : OrderingType) : Option Graph :=
  match g[src]?, g[dst]? with
  | some a, some b =>
    match lookupOrdering a.children dst, lookupOrdering b.parents src with
    | none, none => some (insertOrdering g src dst ty)
    | some _, some _ => some g
    | _, _ => none
  | _, _ => none

/-- landmark_factory.cc:95 `add_or_replace_ordering_if_stronger` -/
def addOrReplaceOrdering (g : Graph) (src dst : Nat) (ty : OrderingType) : Option Graph :=
  match g[src]?, g[dst]? with
  | some a, some b =>
    if weakerOrderingExists a b src dst ty then
      match lookupOrdering a.children dst, lookupOrdering b.parents src with
      | some _, some _ => addOrderingIfMissing (removeOrdering g src dst) src dst ty
      | _, _ => none
    else addOrderingIfMissing g src dst ty
  | _, _ => none

/-! ### Zhu and Givan (line numbers of landmark_factory_zhu_givan.cc) -/

/-- the order in which the elements of hash sets are visited -/
structure HashOrder where
  facts : List Fact → List Fact
  ids : List Int → List Int

/-- zhu_givan.h:23 `PropositionLayer`: the labels of all facts -/
abbrev Layer := Fact → List Fact

/-- zhu_givan.h:17 `reached` -/
def Layer.reached (l : Layer) (f : Fact) : Bool := !(l f).isEmpty

/-- line 275 `compute_triggers` and line 293 `add_operator_to_triggers`: the indices are in range -/
def triggersDefined (t : Task) : Bool :=
  (opsAndAxioms t).all (fun x => x.2.pre.all (hasFact t) && x.2.effects.all (fun e => e.conds.all (hasFact t)))

/-- lines 293-306: the entry of a fact in `triggers` -/
def triggersOf (t : Task) (f : Fact) : List Int :=
  (opsAndAxioms t).flatMap (fun x =>
    (x.2.pre.filter (· == f)).map (fun _ => x.1) ++ x.2.effects.flatMap (fun e => (e.conds.filter (· == f)).map (fun _ => x.1)))

/-- lines 307-309: `operators_without_preconditions` -/
def operatorsWithoutPreconditions (t : Task) : List Int := ((opsAndAxioms t).filter (fun x => x.2.pre.isEmpty)).map (·.1)

/-- line 114 `initialize_relaxed_plan_graph`: the labels -/
def initialLayer (t : Task) : Layer := fun f => if f.holds t.init then [f] else []

/-- line 114 `initialize_relaxed_plan_graph` and lines 176-178: the operators that are triggered -/
def initialTriggers (t : Task) : List Int :=
  insertAll (t.init.zipIdx.foldl (fun l x => insertAll l (triggersOf t ⟨x.2, x.1⟩)) []) (operatorsWithoutPreconditions t)

/-- line 185 `operator_is_applicable` and line 196 `conditional_effect_fires` -/
def allReached (l : Layer) (fs : List Fact) : Bool := fs.all l.reached

/-- line 208 `union_of_condition_labels` -/
def unionOfConditionLabels (conds : List Fact) (cur : Layer) : List Fact := conds.foldl (fun r q => insertAll r (cur q)) []

/-- line 219 `propagate_labels`: the labels afterwards -/
def propagateLabels (labels new : List Fact) (atom : Fact) : List Fact :=
  insertSet (if labels.isEmpty then new else labels.filter (fun f => new.contains f)) atom

/-- lines 255-271: the loop over the effects; `changed` is the result of the function -/
def applyEffects (t : Task) (cur : Layer) (preLabels : List Fact) : List Effect → Layer × List Fact → Option (Layer × List Fact)
  | [], r => some r
  | e :: es, (next, changed) =>
    if hasFact t e.fact then
      if (next e.fact).length = 1 then applyEffects t cur preLabels es (next, changed)
      else if allReached cur e.conds then
        if (next e.fact).length = 0 ∨ (propagateLabels (next e.fact) (insertAll (unionOfConditionLabels e.conds cur) preLabels) e.fact).length ≤ (next e.fact).length then
          applyEffects t cur preLabels es
            (fun f => if f = e.fact then propagateLabels (next e.fact) (insertAll (unionOfConditionLabels e.conds cur) preLabels) e.fact else next f,
             if (next e.fact).length = (propagateLabels (next e.fact) (insertAll (unionOfConditionLabels e.conds cur) preLabels) e.fact).length then changed
             else insertSet changed e.fact)
        else none
      else applyEffects t cur preLabels es (next, changed)
    else none

/-- the variables `next_layer`, `next_triggers` and `changes` -/
structure Round where
  next : Layer
  triggers : List Int
  changes : Bool

/-- lines 142-154: the loop over the operators that have been triggered.  The order in which the facts in `changed` are visited does
not matter. -/
def propagateOps (t : Task) (cur : Layer) : List Int → Round → Option Round
  | [], r => some r
  | id :: ids, r =>
    match getOperatorOrAxiom t id with
    | none => none
    | some o =>
      if allReached cur o.pre then
        match applyEffects t cur (unionOfConditionLabels o.pre cur) o.effects (r.next, []) with
        | none => none
        | some (next, []) => propagateOps t cur ids { r with next := next }
        | some (next, c :: cs) =>
          propagateOps t cur ids ⟨next, (c :: cs).foldl (fun l f => insertAll l (triggersOf t f)) r.triggers, true⟩
      else propagateOps t cur ids r

/-- line 134 `propagate_labels_until_fixed_point_reached`.  The first argument bounds the number of iterations. -/
def propagateLoop (t : Task) (ord : HashOrder) : Nat → List Int → Layer → Option Layer
  | 0, _, _ => none
  | n + 1, triggered, cur =>
    match propagateOps t cur (ord.ids triggered) ⟨cur, [], false⟩ with
    | none => none
    | some r => if r.changes then propagateLoop t ord n r.triggers r.next else some r.next

/-- line 162 `build_relaxed_plan_graph_with_labels`.  Every iteration of the loop but the last one reaches a fact or removes a label. -/
def buildLabels (t : Task) (ord : HashOrder) : Option Layer :=
  if triggersDefined t then propagateLoop t ord (numFacts t * (numFacts t + 1) + 1) (initialTriggers t) (initialLayer t) else none

/-- lines 44-54 `goal_is_reachable`: the first goal that is not reached -/
def unreachedGoal (l : Layer) (goals : List Fact) : Option Fact := goals.find? (fun f => !l.reached f)

/-- line 58 `create_goal_landmark`: the graph and the node -/
def createGoalLandmark (g : Graph) (goal : Fact) : Option (Graph × Nat) :=
  match g.findAtomic goal with
  | some i => some (g.modify i (fun n => { n with landmark := { n.landmark with isTrueInGoal := true } }), i)
  | none => (g.addLandmark (atomicLandmark goal true)).map (fun g' => (g', g.length))

/-- lines 83-88: the node of a label -/
def nodeOfLabel (g : Graph) (f : Fact) : Option (Graph × Nat) :=
  match g.findAtomic f with
  | some i => some (g, i)
  | none => (g.addLandmark (atomicLandmark f false)).map (fun g' => (g', g.length))

/-- lines 89-94: the ordering between a label and the goal -/
def orderLabel (useOrders : Bool) (g : Graph) (i goalNode : Nat) : Option Graph :=
  if useOrders then
    match g[i]?, g[goalNode]? with
    | some a, some b =>
      match lookupOrdering a.parents goalNode, lookupOrdering b.children i with
      | none, none => addOrReplaceOrdering g i goalNode .natural
      | _, _ => none
    | _, _ => none
  else some g

/-- line 71 `extract_landmarks_and_orderings_from_goal_labels`, the loop -/
def extractLabels (useOrders : Bool) (goal : Fact) (goalNode : Nat) : List Fact → Graph → Option Graph
  | [], g => some g
  | f :: fs, g =>
    if f = goal then extractLabels useOrders goal goalNode fs g
    else
      match nodeOfLabel g f with
      | none => none
      | some (g, i) =>
        match orderLabel useOrders g i goalNode with
        | none => none
        | some g => extractLabels useOrders goal goalNode fs g

/-- line 99 `extract_landmarks`, the loop over the goals -/
def extractGoals (ord : HashOrder) (useOrders : Bool) (l : Layer) : List Fact → Graph → Option Graph
  | [], g => some g
  | goal :: goals, g =>
    match createGoalLandmark g goal with
    | none => none
    | some (g, i) =>
      match extractLabels useOrders goal i (ord.facts (l goal)) g with
      | none => none
      | some g => extractGoals ord useOrders l goals g

/-- line 99 `extract_landmarks` -/
def extractLandmarks (t : Task) (ord : HashOrder) (useOrders : Bool) (l : Layer) : Option Graph :=
  if t.goal.all (hasFact t) then
    match unreachedGoal l t.goal with
    | some f => Graph.addLandmark [] (atomicLandmark f true)
    | none => extractGoals ord useOrders l t.goal []
  else none

/-- line 24 `generate_relaxed_landmarks`, within landmark_factory_relaxation.cc:17 `generate_landmarks` -/
def zhuGivan (t : Task) (ord : HashOrder) (useOrders : Bool) : Option Graph :=
  match buildLabels t ord with
  | none => none
  | some l =>
    match extractLandmarks t ord useOrders l with
    | none => none
    | some g => calcAchievers t g

/-! ### Exhaustive search (line numbers of landmark_factory_rpg_exhaust.cc) -/

/-- line 32 `relaxed_task_solvable` -/
def relaxedTaskSolvable (t : Task) (unary : Bool) (atoms : List Fact) : Option Bool :=
  match computeRelaxedReachability t atoms unary with
  | none => none
  | some reached => conditionIsReachable t reached t.goal

/-- line 46 `generate_goal_landmarks` -/
def generateGoalLandmarks : List Fact → Graph → Option Graph
  | [], g => some g
  | f :: fs, g =>
    match g.addLandmark (atomicLandmark f true) with
    | none => none
    | some g => generateGoalLandmarks fs g

/-- the facts in the order of the two loops in `generate_all_atomic_landmarks` -/
def allFacts (t : Task) : List Fact := t.vars.zipIdx.flatMap (fun x => (List.range x.1.domain).map (fun v => ⟨x.2, v⟩))

/-- line 54 `generate_all_atomic_landmarks` -/
def generateAtomicLandmarks (t : Task) (unary : Bool) : List Fact → Graph → Option Graph
  | [], g => some g
  | f :: fs, g =>
    if (g.findAtomic f).isSome then generateAtomicLandmarks t unary fs g
    else
      match relaxedTaskSolvable t unary [f] with
      | none => none
      | some true => generateAtomicLandmarks t unary fs g
      | some false =>
        match g.addLandmark (atomicLandmark f false) with
        | none => none
        | some g => generateAtomicLandmarks t unary fs g

/-- line 73 `generate_relaxed_landmarks`, within landmark_factory_relaxation.cc:17 `generate_landmarks` -/
def exhaust (t : Task) (unary : Bool) : Option Graph :=
  match generateGoalLandmarks t.goal [] with
  | none => none
  | some g =>
    match generateAtomicLandmarks t unary (allFacts t) g with
    | none => none
    | some g => calcAchievers t g

/-! ### Merged graphs (line numbers of landmark_factory_merged.cc) -/

/-- how the construction of a merged graph ends -/
inductive Merged where
  | ub
  /-- the program ends with SEARCH_UNSUPPORTED -/
  | unsupported
  | graph (g : Graph)
deriving DecidableEq, Repr

/-- landmark_graph.cc:60 `contains_superset_disjunctive_landmark`, and the node -/
def Graph.findSuperset (g : Graph) (atoms : List Fact) : Option Nat :=
  match atoms with
  | [] => none
  | f :: fs =>
    match g.findDisjunctive f with
    | none => none
    | some i => if fs.all (fun f' => g.findDisjunctive f' == some i) then some i else none

/-- line 26 `get_matching_landmark`, for landmarks that are not conjunctive: the outer `none` for a failed assertion -/
def getMatchingLandmark (g : Graph) (l : Landmark) : Option (Option Nat) :=
  match l.type, l.atoms with
  | .disjunctive, [] => none
  | .disjunctive, fs =>
    match g.findSuperset fs with
    | none => some none
    | some i => if fs.any (fun f => (g.findAtomic f).isSome) then none else some (some i)
  | _, [f] => some (g.findAtomic f)
  | _, _ => none

/-- line 67 `add_atomic_landmarks`; `nodes` are the nodes of all graphs -/
def addAtomicLandmarks : List Node → Graph → Merged
  | [], g => .graph g
  | n :: ns, g =>
    match n.landmark.type, n.landmark.atoms with
    | .conjunctive, _ => .unsupported
    | .disjunctive, _ => addAtomicLandmarks ns g
    | .atomic, [f] =>
      if g.containsLandmark f then addAtomicLandmarks ns g
      else
        match g.addLandmark n.landmark with
        | none => .ub
        | some g => addAtomicLandmarks ns g
    | .atomic, _ => .ub

/-- line 93 `add_disjunctive_landmarks` -/
def addDisjunctiveLandmarks : List Node → Graph → Option Graph
  | [], g => some g
  | n :: ns, g =>
    if n.landmark.type = .disjunctive then
      if n.landmark.atoms.any g.containsLandmark then addDisjunctiveLandmarks ns g
      else
        match g.addLandmark n.landmark with
        | none => none
        | some g => addDisjunctiveLandmarks ns g
    else addDisjunctiveLandmarks ns g

/-- lines 134-144: the loop over the children of a node; `old` is the graph the node belongs to -/
def addChildOrderings (old : Graph) (src : Nat) : List (Nat × OrderingType) → Graph → Option Graph
  | [], g => some g
  | c :: cs, g =>
    match old[c.1]? with
    | none => none
    | some dst =>
      match getMatchingLandmark g dst.landmark with
      | none => none
      | some none => addChildOrderings old src cs g
      | some (some i) =>
        match addOrReplaceOrdering g src i c.2 with
        | none => none
        | some g => addChildOrderings old src cs g

/-- lines 130-148: the loop over the nodes of a graph -/
def addOrderingsOf (old : Graph) : List Node → Graph → Option Graph
  | [], g => some g
  | n :: ns, g =>
    match getMatchingLandmark g n.landmark with
    | none => none
    | some none => addOrderingsOf old ns g
    | some (some i) =>
      match addChildOrderings old i n.children g with
      | none => none
      | some g => addOrderingsOf old ns g

/-- line 124 `add_landmark_orderings` -/
def addLandmarkOrderings : List Graph → Graph → Option Graph
  | [], g => some g
  | old :: olds, g =>
    match addOrderingsOf old old g with
    | none => none
    | some g => addLandmarkOrderings olds g

/-- line 153 `generate_landmarks`, from the graphs of the other factories -/
def mergeGraphs (gs : List Graph) : Merged :=
  match addAtomicLandmarks gs.flatten [] with
  | .ub => .ub
  | .unsupported => .unsupported
  | .graph g =>
    match addDisjunctiveLandmarks gs.flatten g with
    | none => .ub
    | some g =>
      match addLandmarkOrderings gs g with
      | none => .ub
      | some g => .graph g

end Verif.Landmarks
