import Verif.Model.StubbornSets

/-
Model of Cartesian abstractions: src/search/cartesian_abstractions/{cartesian_set,abstract_state,refinement_hierarchy,transition_system,abstraction}.

Simplifications: a vector of bitsets is its characteristic function (bitsets themselves are modelled in Model/Bitset.lean).  Vectors that are indexed by
numbers of abstract states (incoming, outgoing, loops) are functions; that the numbers are in range is part of the theorems.  num_loops and num_non_loops are not modelled: they are only used
for the limits.  unordered_set is a list (only membership matters).  `none` is undefined behaviour.
-/
namespace Verif.Cart
open Verif.Stubborn (sortFacts)

/-- the values of each variable -/
abbrev CSet := Nat → Nat → Bool

/-- utils.cc:74-79 get_domain_sizes -/
def domainSizes (t : Task) : List Nat := t.vars.map (·.domain)

/-- cartesian_set.cc:8-15: all values of all variables -/
def CSet.full (dom : List Nat) : CSet := fun v x =>
  match dom[v]? with
  | some d => decide (x < d)
  | none => false

/-- cartesian_set.cc:17-19 -/
def CSet.add (c : CSet) (v x : Nat) : CSet := fun u y => if u = v ∧ y = x then true else c u y

/-- cartesian_set.cc:21-23 -/
def CSet.remove (c : CSet) (v x : Nat) : CSet := fun u y => if u = v ∧ y = x then false else c u y

/-- cartesian_set.cc:30-32 -/
def CSet.addAll (dom : List Nat) (c : CSet) (v : Nat) : CSet := fun u y => if u = v then CSet.full dom u y else c u y

/-- cartesian_set.cc:34-36 -/
def CSet.removeAll (c : CSet) (v : Nat) : CSet := fun u y => if u = v then false else c u y

/-- cartesian_set.cc:25-28 -/
def CSet.setSingle (c : CSet) (v x : Nat) : CSet := (c.removeAll v).add v x

/-- cartesian_set.cc:42-44 -/
def CSet.intersects (dom : List Nat) (c c' : CSet) (v : Nat) : Bool := (List.range ((dom[v]?).getD 0)).any (fun x => c v x && c' v x)

/-- abstract_state.cc:26-52 split_domain -/
def CSet.split (c : CSet) (v : Nat) (wanted : List Nat) : CSet × CSet :=
  (wanted.foldl (fun c x => c.remove v x) c, wanted.foldl (fun c x => c.add v x) (c.removeAll v))

/-- abstract_state.cc:54-65 regress -/
def CSet.regress (dom : List Nat) (c : CSet) (o : Operator) : CSet :=
  o.pre.foldl (fun c f => c.setSingle f.var f.val) (o.effects.foldl (fun c e => c.addAll dom e.fact.var) c)

/-- abstract_state.cc:72-78: includes(state) -/
def CSet.includesState (c : CSet) (s : State) : Bool := s.zipIdx.all (fun p => c p.2 p.1)

/-- abstract_state.cc:80-86: includes(facts) -/
def CSet.includesFacts (c : CSet) (fs : List Fact) : Bool := fs.all (fun f => c f.var f.val)

/-- refinement_hierarchy.h: a node is split, or it is the node of an abstract state -/
inductive Node where
  | leaf (state : Nat)
  | split (var value left right : Nat)
deriving DecidableEq, Repr

/-- refinement_hierarchy.cc:70-74: the loop over the values; `helper` is the node that is split next -/
def splitLoop (var leftState right : Nat) : List Nat → Nat → List Node → Option (List Node × Nat)
  | [], helper, nodes => some (nodes, helper)
  | x :: xs, helper, nodes =>
    if helper < nodes.length then splitLoop var leftState right xs nodes.length ((nodes ++ [Node.leaf leftState]).set helper (Node.split var x nodes.length right))
    else none

/-- refinement_hierarchy.cc:65-76 split: the new nodes and the numbers of the nodes of the two states -/
def splitNode (nodes : List Node) (node var : Nat) (values : List Nat) (leftState rightState : Nat) : Option (List Node × Nat × Nat) :=
  (splitLoop var leftState nodes.length values node (nodes ++ [.leaf rightState])).map (fun r => (r.1, r.2, nodes.length))

/-- refinement_hierarchy.cc:56-63 get_node_id, 78-82 get_abstract_state_id -/
def lookup (nodes : List Node) (s : State) (id : Nat) : Option Nat :=
  match nodes[id]? with
  | none => none
  | some (.leaf i) => some i
  | some (.split v x l r) =>
    match s[v]? with
    | none => none
    | some y => if y = x then lookup nodes s r else lookup nodes s l
partial_fixpoint

/-- transition.h -/
structure Trans where
  op : Nat
  target : Nat
deriving DecidableEq, Repr

/-- a transition that is added; with equal states, a loop -/
structure Edge where
  src : Nat
  op : Nat
  target : Nat
deriving DecidableEq, Repr

/-- transition_system.cc:59-69 lookup_value -/
def lookupValue : List Fact → Nat → Option Nat
  | [], _ => none
  | f :: fs, v => if f.var = v then some f.val else if f.var > v then none else lookupValue fs v

/-- assignment to an element of std::map (in increasing order of variables) -/
def mapSet : List Fact → Fact → List Fact
  | [], f => [f]
  | g :: m, f => if f.var < g.var then f :: g :: m else if f.var = g.var then f :: m else g :: mapSet m f

/-- transition_system.cc:18-29, 88-90 get_precondition_value -/
def preValue (t : Task) (op v : Nat) : Option Nat := lookupValue (sortFacts (((t.ops[op]?).map (·.pre)).getD [])) v

/-- transition_system.cc:31-47 get_postconditions -/
def postconditions (o : Operator) : List Fact := o.effects.foldl (fun m e => mapSet m e.fact) (o.pre.foldl mapSet [])

/-- transition_system.cc:92-94 get_postcondition_value -/
def postValue (t : Task) (op v : Nat) : Option Nat := lookupValue (((t.ops[op]?).map postconditions).getD []) v

/-- transition_system.h:23-28 -/
structure TS where
  incoming : Nat → List Trans
  outgoing : Nat → List Trans
  loops : Nat → List Nat

/-- push_back to an element of a vector of vectors -/
def snoc {α : Type} (f : Nat → List α) (i : Nat) (a : α) : Nat → List α := fun j => if j = i then f j ++ [a] else f j

/-- transition_system.cc:112-117 add_transition, 119-123 add_loop -/
def TS.add (ts : TS) (e : Edge) : TS :=
  if e.src = e.target then { ts with loops := snoc ts.loops e.src e.op }
  else { ts with outgoing := snoc ts.outgoing e.src ⟨e.op, e.target⟩, incoming := snoc ts.incoming e.target ⟨e.op, e.src⟩ }

/-- transition_system.cc:80-86, 103-110: the trivial abstraction -/
def TS.trivial (t : Task) : TS := ⟨fun _ => [], fun _ => [], fun i => if i = 0 then List.range t.ops.length else []⟩

/-- transition_system.cc:71-78 remove_transitions_with_given_target, for the elements of a vector whose numbers are the targets of `l` (133-140, 178-185; removing the transitions again, if
the target occurs again, has no effect) -/
def removeTarget (f : Nat → List Trans) (l : List Trans) (v : Nat) : Nat → List Trans := fun u => if u ∈ l.map (·.target) then (f u).filter (fun tr => decide (tr.target ≠ v)) else f u

/-- an abstract state: its number in the hierarchy and its Cartesian set (abstract_state.h:24-29; state_id is the position in the vector of states) -/
structure AState where
  node : Nat
  set : CSet

/-- transition_system.cc:143-167: the transitions that replace the transition with operator `op` from `u` to the split state -/
def incomingEdges (t : Task) (u : CSet) (uid op : Nat) (s1 s2 : CSet) (v1 v2 var : Nat) : List Edge :=
  match postValue t op var with
  | none =>
    if u.intersects (domainSizes t) s1 var then
      if u.intersects (domainSizes t) s2 var then [⟨uid, op, v1⟩, ⟨uid, op, v2⟩] else [⟨uid, op, v1⟩]
    else [⟨uid, op, v2⟩]
  | some post => if s1 var post then [⟨uid, op, v1⟩] else [⟨uid, op, v2⟩]

/-- transition_system.cc:188-218: the transitions that replace the transition with operator `op` from the split state to `w` -/
def outgoingEdges (t : Task) (w : CSet) (wid op : Nat) (s1 s2 : CSet) (v1 v2 var : Nat) : List Edge :=
  match postValue t op var, preValue t op var with
  | none, _ =>
    if s1.intersects (domainSizes t) w var then
      if s2.intersects (domainSizes t) w var then [⟨v1, op, wid⟩, ⟨v2, op, wid⟩] else [⟨v1, op, wid⟩]
    else [⟨v2, op, wid⟩]
  | some _, none => [⟨v1, op, wid⟩, ⟨v2, op, wid⟩]
  | some _, some pre => if s1 var pre then [⟨v1, op, wid⟩] else [⟨v2, op, wid⟩]

/-- transition_system.cc:229-272: the transitions that replace a loop -/
def loopEdges (t : Task) (op : Nat) (s1 s2 : CSet) (v1 v2 var : Nat) : Option (List Edge) :=
  match preValue t op var, postValue t op var with
  | none, none => some [⟨v1, op, v1⟩, ⟨v2, op, v2⟩]
  | none, some post => if s2 var post then some [⟨v1, op, v2⟩, ⟨v2, op, v2⟩] else some [⟨v1, op, v1⟩, ⟨v2, op, v1⟩]
  | some _, none => none
  | some pre, some post =>
    if s1 var pre then
      if s1 var post then some [⟨v1, op, v1⟩] else some [⟨v1, op, v2⟩]
    else
      if s1 var post then some [⟨v2, op, v1⟩] else some [⟨v2, op, v2⟩]

/-- transition_system.cc:276-299 rewire, with 125-168, 170-219 and 221-274 -/
def TS.rewire (t : Task) (ts : TS) (states : List AState) (v : Nat) (s1 s2 : CSet) (v1 v2 var : Nat) : Option TS :=
  match (ts.incoming v).mapM (fun tr => (states[tr.target]?).map (fun u => incomingEdges t u.set tr.target tr.op s1 s2 v1 v2 var)),
    (ts.outgoing v).mapM (fun tr => (states[tr.target]?).map (fun w => outgoingEdges t w.set tr.target tr.op s1 s2 v1 v2 var)),
    (ts.loops v).mapM (fun op => loopEdges t op s1 s2 v1 v2 var) with
  | some ein, some eout, some eloop =>
    let cleared : TS := ⟨fun u => if u = v then [] else ts.incoming u, fun u => if u = v then [] else ts.outgoing u, fun u => if u = v then [] else ts.loops u⟩
    let ts1 : TS := ein.flatten.foldl TS.add { cleared with outgoing := removeTarget cleared.outgoing (ts.incoming v) v1 }
    let ts2 : TS := eout.flatten.foldl TS.add { ts1 with incoming := removeTarget ts1.incoming (ts.outgoing v) v1 }
    some (eloop.flatten.foldl TS.add ts2)
  | _, _, _ => none

/-- abstraction.h:29-45 -/
structure Abs where
  ts : TS
  states : List AState
  init : Nat
  goals : List Nat
  nodes : List Node

/-- abstraction.cc:21-30, 67-74: the trivial abstraction -/
def Abs.trivial (t : Task) : Abs := ⟨TS.trivial t, [⟨0, CSet.full (domainSizes t)⟩], 0, [0], [.leaf 0]⟩

/-- abstraction.cc:104-116: the new number of the initial state -/
def newInit (t : Task) (a : Abs) (v v2 : Nat) (s1 : CSet) : Nat := if v = a.init then (if s1.includesState t.init then v else v2) else a.init

/-- abstraction.cc:117-128: the new goal states -/
def newGoals (t : Task) (a : Abs) (v v2 : Nat) (s1 s2 : CSet) : List Nat :=
  if v ∈ a.goals then
    (if s2.includesFacts t.goal then [v2] else []) ++ ((if s1.includesFacts t.goal then [v] else []) ++ a.goals.filter (fun i => decide (i ≠ v)))
  else a.goals

/-- abstraction.cc:76-137 refine -/
def Abs.refine (t : Task) (a : Abs) (v var : Nat) (wanted : List Nat) : Option Abs :=
  match a.states[v]? with
  | none => none
  | some st =>
    match splitNode a.nodes st.node var wanted v a.states.length with
    | none => none
    | some (nodes, n1, n2) =>
      match a.ts.rewire t a.states v (st.set.split var wanted).1 (st.set.split var wanted).2 v a.states.length var with
      | none => none
      | some ts =>
        some ⟨ts, a.states.set v ⟨n1, (st.set.split var wanted).1⟩ ++ [⟨n2, (st.set.split var wanted).2⟩], newInit t a v a.states.length (st.set.split var wanted).1,
          newGoals t a v a.states.length (st.set.split var wanted).1 (st.set.split var wanted).2, nodes⟩

/-- abstraction.cc:60-65 mark_all_states_as_goals -/
def Abs.markAll (a : Abs) : Abs := { a with goals := List.range a.states.length }

/-- refinement_hierarchy.cc:78-82: the number of the abstract state of a state -/
def Abs.stateOf (a : Abs) (s : State) : Option Nat := lookup a.nodes s 0

end Verif.Cart
