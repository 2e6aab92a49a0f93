import Verif.Spec.Landmarks

/-
Model of landmark graphs and of the tracking of landmarks along paths
(src/search/landmarks/landmark.{h,cc}, landmark_graph.h, landmark_status_manager.{h,cc}).

Landmark nodes are numbered (`set_landmark_ids`, landmark_graph.cc:170); the pointers to nodes in the code are these numbers.
An access outside of a vector, a bit set or a state and a failed assertion give `none`.
-/
namespace Verif.Landmarks

/-- landmark.h:27 `Landmark`; the sets of achievers are lists of operator ids (axioms have negative ids, util.cc:69) in the
unknown order of the hash set -/
structure Landmark where
  atoms : List Fact
  type : LandmarkType
  isTrueInGoal : Bool
  isDerived : Bool
  firstAchievers : List Int
  possibleAchievers : List Int
deriving DecidableEq, Repr

/-- landmark_graph.h:30 `LandmarkNode`; the id is the position in the graph -/
structure Node where
  landmark : Landmark
  parents : List (Nat × OrderingType)
  children : List (Nat × OrderingType)
deriving DecidableEq, Repr

/-- landmark_graph.h:65 `LandmarkGraph` -/
abbrev Graph := List Node

/-- landmark.cc:9-11, the lambda function -/
def atomTrue (s : State) (f : Fact) : Option Bool :=
  match s[f.var]? with
  | none => none
  | some x => some (x == f.val)

/-- `ranges::any_of(atoms, …)` -/
def anyTrue (s : State) : List Fact → Option Bool
  | [] => some false
  | f :: fs =>
    match atomTrue s f with
    | none => none
    | some true => some true
    | some false => anyTrue s fs

/-- `ranges::all_of(atoms, …)` -/
def allTrue (s : State) : List Fact → Option Bool
  | [] => some true
  | f :: fs =>
    match atomTrue s f with
    | none => none
    | some true => allTrue s fs
    | some false => some false

/-- landmark.cc:8 `Landmark::is_true_in_state` -/
def Landmark.isTrueInState (l : Landmark) (s : State) : Option Bool :=
  if l.type = .disjunctive then anyTrue s l.atoms else allTrue s l.atoms

/-- the bit set of a state (per_state_bitset.h; see `Verif.Model.Bitset` for the bit sets themselves) -/
abbrev Bits := List Bool

/-- per_state_bitset.cc `BitsetView::set` and `BitsetView::reset` of one bit -/
def Bits.write (l : Bits) (i : Nat) (b : Bool) : Option Bits := if i < l.length then some (l.set i b) else none

/-- landmark_status_manager.h:12: the members of `LandmarkStatusManager` that do not change -/
structure Manager where
  graph : Graph
  goalLandmarks : List Nat
  greedyNecessaryChildren : List (Nat × List Nat)
  reasonableParents : List (Nat × List Nat)

/-- the members `past_landmarks` and `future_landmarks`.  A state is identified by its values (see the properties of the state
registry); the entry of a state that was never accessed is the default entry. -/
structure Status where
  past : State → Bits
  future : State → Bits

/-- landmark_status_manager.cc:11 `get_goal_landmarks` -/
def getGoalLandmarks (g : Graph) : List Nat := (g.zipIdx.filter (fun x => x.1.landmark.isTrueInGoal)).map (·.2)

/-- landmark_status_manager.cc:22 `get_greedy_necessary_children` -/
def getGreedyNecessaryChildren (g : Graph) : List (Nat × List Nat) :=
  (g.zipIdx.map (fun x => (x.2, (x.1.children.filter (fun c => c.2 == .greedyNecessary)).map (·.1)))).filter (fun x => !x.2.isEmpty)

/-- landmark_status_manager.cc:39 `get_reasonable_parents` -/
def getReasonableParents (g : Graph) : List (Nat × List Nat) :=
  (g.zipIdx.map (fun x => (x.2, (x.1.parents.filter (fun c => c.2 == .reasonable)).map (·.1)))).filter (fun x => !x.2.isEmpty)

/-- landmark_status_manager.cc:56 the constructor of `LandmarkStatusManager` -/
def Manager.new (g : Graph) (progressGoals progressGn progressR : Bool) : Manager where
  graph := g
  goalLandmarks := if progressGoals then getGoalLandmarks g else []
  greedyNecessaryChildren := if progressGn then getGreedyNecessaryChildren g else []
  reasonableParents := if progressR then getReasonableParents g else []

/-- landmark_status_manager.cc:74-80: the status of all states at the beginning -/
def Status.new (g : Graph) : Status where
  past _ := List.replicate g.length true
  future _ := List.replicate g.length false

/-- writing the bit sets of one state -/
def Status.write (st : Status) (s : State) (past future : Bits) : Status where
  past x := if x = s then past else st.past x
  future x := if x = s then future else st.future x

/-- landmark_status_manager.cc:122-125: is there a parent that does not hold in the state? -/
def someParentFalse (g : Graph) (s : State) : List (Nat × OrderingType) → Option Bool
  | [] => some false
  | p :: ps =>
    match g[p.1]? with
    | none => none
    | some node =>
      match node.landmark.isTrueInState s with
      | none => none
      | some false => some true
      | some true => someParentFalse g s ps

/-- landmark_status_manager.cc:105-132, the body of the loop -/
def progressInitialNode (g : Graph) (s : State) (b : Bits × Bits) (x : Node × Nat) : Option (Bits × Bits) :=
  match x.1.landmark.isTrueInState s with
  | none => none
  | some true =>
    if b.1[x.2]? = some true then
      match someParentFalse g s x.1.parents with
      | none => none
      | some true => (Bits.write b.2 x.2 true).map (fun f => (b.1, f))
      | some false => some b
    else none
  | some false =>
    match Bits.write b.1 x.2 false, Bits.write b.2 x.2 true with
    | some p, some f => some (p, f)
    | _, _ => none

/-- landmark_status_manager.cc:101 `progress_initial_state` -/
def progressInitialState (m : Manager) (st : Status) (s : State) : Option Status :=
  match m.graph.zipIdx.foldlM (progressInitialNode m.graph s) (st.past s, st.future s) with
  | none => none
  | some (p, f) => some (st.write s p f)

/-- landmark_status_manager.cc:166-190, the body of the loop -/
def progressNode (parentPast parentFuture : Bits) (parent s : State) (b : Bits × Bits) (x : Node × Nat) : Option (Bits × Bits) :=
  match parentFuture[x.2]? with
  | none => none
  | some false => some b
  | some true =>
    match x.1.landmark.isTrueInState s with
    | none => none
    | some false =>
      match Bits.write b.2 x.2 true, parentPast[x.2]? with
      | some f, some true => some (b.1, f)
      | some f, some false => (Bits.write b.1 x.2 false).map (fun p => (p, f))
      | _, _ => none
    | some true =>
      match x.1.landmark.isTrueInState parent with
      | none => none
      | some false => some b
      | some true =>
        if parentPast[x.2]? = some true then (Bits.write b.2 x.2 true).map (fun f => (b.1, f)) else none

/-- landmark_status_manager.cc:162 `progress_landmarks` -/
def progressLandmarks (g : Graph) (parentPast parentFuture : Bits) (parent : State) (past future : Bits) (s : State) : Option (Bits × Bits) :=
  g.zipIdx.foldlM (progressNode parentPast parentFuture parent s) (past, future)

/-- landmark_status_manager.cc:195-199, the body of the loop -/
def progressGoal (g : Graph) (s : State) (future : Bits) (id : Nat) : Option Bits :=
  match g[id]? with
  | none => none
  | some node =>
    match node.landmark.isTrueInState s with
    | none => none
    | some true => some future
    | some false => Bits.write future id true

/-- landmark_status_manager.cc:193 `progress_goals` -/
def progressGoals (g : Graph) (goals : List Nat) (s : State) (future : Bits) : Option Bits := goals.foldlM (progressGoal g s) future

/-- landmark_status_manager.cc:207-213, the loop over the children.  The landmark is evaluated at most once per child. -/
def progressGnChildren (tail : Landmark) (s : State) (past : Bits) : List Nat → Option Bool
  | [] => some false
  | c :: cs =>
    match past[c]? with
    | none => none
    | some true => progressGnChildren tail s past cs
    | some false =>
      match tail.isTrueInState s with
      | none => none
      | some true => progressGnChildren tail s past cs
      | some false => some true

/-- landmark_status_manager.cc:204-214, the body of the loop -/
def progressGnTail (g : Graph) (s : State) (past : Bits) (future : Bits) (x : Nat × List Nat) : Option Bits :=
  match g[x.1]? with
  | none => none
  | some node =>
    match progressGnChildren node.landmark s past x.2 with
    | none => none
    | some true => Bits.write future x.1 true
    | some false => some future

/-- landmark_status_manager.cc:202 `progress_greedy_necessary_orderings` -/
def progressGreedyNecessaryOrderings (g : Graph) (gn : List (Nat × List Nat)) (s : State) (past future : Bits) : Option Bits :=
  gn.foldlM (progressGnTail g s past) future

/-- landmark_status_manager.cc:221-226, the loop over the parents -/
def someNotPast (past : Bits) : List Nat → Option Bool
  | [] => some false
  | p :: ps =>
    match past[p]? with
    | none => none
    | some true => someNotPast past ps
    | some false => some true

/-- landmark_status_manager.cc:219-227, the body of the loop -/
def progressReasonableHead (past : Bits) (future : Bits) (x : Nat × List Nat) : Option Bits :=
  match someNotPast past x.2 with
  | none => none
  | some true => Bits.write future x.1 true
  | some false => some future

/-- landmark_status_manager.cc:217 `progress_reasonable_orderings` -/
def progressReasonableOrderings (rp : List (Nat × List Nat)) (past future : Bits) : Option Bits :=
  rp.foldlM (progressReasonableHead past) future

/-- landmark_status_manager.cc:135 `progress` -/
def progress (m : Manager) (st : Status) (parent s : State) : Option Status :=
  if s = parent then some st
  else
    match progressLandmarks m.graph (st.past parent) (st.future parent) parent (st.past s) (st.future s) s with
    | none => none
    | some (p, f) =>
      match progressGoals m.graph m.goalLandmarks s f with
      | none => none
      | some f =>
        match progressGreedyNecessaryOrderings m.graph m.greedyNecessaryChildren s p f with
        | none => none
        | some f =>
          match progressReasonableOrderings m.reasonableParents p f with
          | none => none
          | some f => some (st.write s p f)

/-- landmark_heuristic.cc:219 `notify_initial_state` and :223 `notify_state_transition` (without the cache of estimates) -/
def notify (init : State) (m : Manager) (st : Status) : Event → Option Status
  | .initial => progressInitialState m st init
  | .transition p _ s => progress m st p s

/-- the status after the search has reported the events -/
def observe (init : State) (m : Manager) (es : List Event) : Option Status := es.foldlM (notify init m) (Status.new m.graph)

end Verif.Landmarks
