import Verif.Model.CostSaturation
import Verif.Model.TaskWorld

/-
Model of the refinement loop for Cartesian abstractions: src/search/cartesian_abstractions/{cegar,abstract_search,utils}.cc.

The limits (time, memory, number of transitions), the strategies for the selection of splits and random numbers are not modelled: the theorems quantify over schedules that decide when
the loops are left and which split is selected.  `none` is undefined behaviour or an infinite loop.
-/
namespace Verif.Cart
open Verif.AdaptiveQueue

/-! ### A* search in the abstraction -/

/-- abstract_search.h:20-66: g values, incoming transitions (`none` is UNDEFINED) and the open queue.  The h values are kept across searches and do not change during a search. -/
structure SSt where
  g : Nat → Nat
  parent : Nat → Option Trans
  queue : Queue Nat

/-- abstract_search.cc:113-135: the loop over the transitions of the state `s` with g value `g`; `n` is the number of states -/
def expand (H : StdHeap Nat) (n : Nat) (costs : List Nat) (h : Nat → Nat) (s g : Nat) : List Trans → SSt → Option SSt
  | [], st => some st
  | tr :: trs, st =>
    match costs[tr.op]? with
    | none => none
    | some c =>
      if tr.target < n then
        if c = infinite then expand H n costs h s g trs st
        else if g + c < 2 ^ 31 then
          if g + c < st.g tr.target then
            if h tr.target = infinite then expand H n costs h s g trs { st with g := Relax.upd st.g tr.target (g + c) }
            else if g + c + h tr.target < 2 ^ 31 then
              match st.queue.push H (g + c + h tr.target) tr.target with
              | none => none
              | some q => expand H n costs h s g trs ⟨Relax.upd st.g tr.target (g + c), Relax.upd st.parent tr.target (some ⟨tr.op, s⟩), q⟩
            else none
          else expand H n costs h s g trs st
        else none
      else none

/-- abstract_search.cc:95-138 astar_search: the goal that is found, and the state of the search -/
def astar (H : StdHeap Nat) (n : Nat) (costs : List Nat) (h : Nat → Nat) (trans : Nat → List Trans) (goals : List Nat) (st : SSt) : Option (Option Nat × SSt) :=
  if st.queue.empty then some (none, st)
  else
    match st.queue.pop H with
    | none => none
    | some (q, f, s) =>
      if st.g s + h s < 2 ^ 31 then
        if st.g s + h s < f then astar H n costs h trans goals { st with queue := q }
        else if s ∈ goals then some (some s, { st with queue := q })
        else
          match expand H n costs h s (st.g s) (trans s) { st with queue := q } with
          | none => none
          | some st => astar H n costs h trans goals st
      else none
partial_fixpoint

/-- abstract_search.cc:24-36 extract_solution -/
def extract (init : Nat) (parent : Nat → Option Trans) (cur : Nat) (sol : List Trans) : Option (List Trans) :=
  if cur = init then some sol
  else
    match parent cur with
    | none => none
    | some p => extract init parent p.target (⟨p.op, cur⟩ :: sol)
partial_fixpoint

/-- abstract_search.cc:61-64: the cost of the solution -/
def solutionCost (costs : List Nat) : List Trans → Nat → Option Nat
  | [], acc => some acc
  | tr :: trs, acc =>
    match costs[tr.op]? with
    | none => none
    | some c => if acc + c < 2 ^ 31 then solutionCost costs trs (acc + c) else none

/-- abstract_search.cc:65-71: the new h values -/
def raiseH (h g : Nat → Nat) (cost : Nat) : Nat → Nat := fun i => if g i < infinite then max (h i) (cost - g i) else h i

/-- abstract_search.cc:74-93 find_solution: the solution, the h values and the (empty) queue -/
def findSolution (H : StdHeap Nat) (n : Nat) (costs : List Nat) (h : Nat → Nat) (queue : Queue Nat) (trans : Nat → List Trans) (init : Nat) (goals : List Nat) : Option (Option (List Trans) × (Nat → Nat) × Queue Nat) :=
  match queue.clear with
  | none => none
  | some q0 =>
    match q0.push H (h init) init with
    | none => none
    | some q1 =>
      match astar H n costs h trans goals ⟨Relax.upd (fun _ => infinite) init 0, fun _ => none, q1⟩ with
      | none => none
      | some (none, st) => (st.queue.clear).map (fun q => (none, Relax.upd h init infinite, q))
      | some (some goal, st) =>
        match st.queue.clear, extract init st.parent goal [] with
        | some q, some sol => (solutionCost costs sol 0).map (fun c => (some sol, raiseH h st.g c, q))
        | _, _ => none

/-! ### Flaws -/

/-- cegar.cc:25-33 get_cartesian_set -/
def CSet.ofConds (dom : List Nat) (fs : List Fact) : CSet := fs.foldl (fun c f => c.setSingle f.var f.val) (CSet.full dom)

/-- cegar.cc:35-50; the abstract state is given by its number -/
structure Flaw where
  concrete : State
  current : Nat
  desired : CSet

/-- the result of find_flaw: a plan has been found (the null pointer; `plan` is the part of the solution that has been traced), or a flaw -/
inductive Check where
  | plan (π : List Nat)
  | flaw (f : Flaw)

/-- cegar.cc:290-301: the trace `π` has been followed to the state `s` in the abstract state `cur` -/
def finalCheck (t : Task) (cur : Nat) (s : State) (π : List Nat) : Option Check :=
  match Search.isGoalState s t.goal with
  | none => none
  | some true => some (.plan π)
  | some false => some (.flaw ⟨s, cur, CSet.ofConds (domainSizes t) t.goal⟩)

/-- cegar.cc:244-302 find_flaw; the loop is left if the memory padding has been released, after the number of steps that is given by the first argument.  task_properties::is_applicable is the
same loop as is_goal_state. -/
def findFlaw (t : Task) (a : Abs) : Option Nat → List Trans → Nat → State → List Nat → Option Check
  | _, [], cur, s, π => finalCheck t cur s π
  | some 0, _ :: _, cur, s, π => finalCheck t cur s π
  | cut, step :: sol, cur, s, π =>
    match t.ops[step.op]?, a.states[step.target]? with
    | some o, some next =>
      match Search.isGoalState s o.pre with
      | none => none
      | some false => some (.flaw ⟨s, cur, CSet.ofConds (domainSizes t) o.pre⟩)
      | some true =>
        match Registry.unregisteredSuccessor t s o with
        | none => none
        | some s' =>
          if next.set.includesState s' then findFlaw t a (cut.map (· - 1)) sol step.target s' (π ++ [step.op])
          else some (.flaw ⟨s, cur, next.set.regress (domainSizes t) o⟩)
    | _, _ => none

/-- cegar.cc:52-79 get_possible_splits -/
def possibleSplits (t : Task) (s : State) (current desired : CSet) : List (Nat × List Nat) :=
  (s.zipIdx.filter (fun p => !desired p.2 p.1)).map (fun p => (p.2, (List.range (((domainSizes t)[p.2]?).getD 0)).filter (fun x => current p.2 x && desired p.2 x)))

/-- split_selector.cc:109-134 pick_split: one of the splits -/
def pickSplit (splits : List (Nat × List Nat)) (choice : Nat) : Option (Nat × List Nat) := splits[choice % splits.length]?

/-! ### Facts that are reachable before the goal -/

/-- insertion into a hash set -/
def insertFact (fs : List Fact) (f : Fact) : List Fact := if f ∈ fs then fs else f :: fs

/-- utils.cc:48-58: one operator -/
def pbStep (last : Fact) (fs : List Fact) (o : Operator) : List Fact :=
  if o.effects.any (fun e => decide (e.fact = last)) then fs
  else if o.pre.all (fun f => decide (f ∈ fs)) then o.effects.foldl (fun fs e => insertFact fs e.fact) fs
  else fs

/-- utils.cc:46-59: the loop -/
def pbLoop (t : Task) (last : Fact) (fs : List Fact) (lastNum : Nat) : Option (List Fact) :=
  if lastNum = fs.length then some fs else pbLoop t last (t.ops.foldl (pbStep last) fs) fs.length
partial_fixpoint

/-- utils.cc:30-61 compute_possibly_before_facts, 63-69 get_relaxed_possible_before -/
def relaxedPossibleBefore (t : Task) (last : Fact) : Option (List Fact) :=
  (pbLoop t last ((t.init.zipIdx.map (fun p => (⟨p.2, p.1⟩ : Fact))).foldl insertFact []) 0).map (fun fs => insertFact fs last)

/-! ### The refinement loop -/

/-- cegar.cc:131-137 -/
def unreachableValues (t : Task) (facts : List Fact) (v : Nat) : List Nat :=
  (List.range (((domainSizes t)[v]?).getD 0)).filter (fun x => decide ((⟨v, x⟩ : Fact) ∉ facts))

/-- cegar.cc:127-142: the loop over the variables; may_keep_refining (cegar.cc:145-171) returns false if there are `maxStates` states, and after `limit` calls.  The result tells if the loop was
completed. -/
def separateLoop (t : Task) (maxStates : Nat) (facts : List Fact) : Nat → List Nat → Abs → Option (Abs × Bool)
  | _, [], a => some (a, true)
  | 0, _ :: _, a => some (a, false)
  | limit + 1, v :: vs, a =>
    if a.states.length ≥ maxStates then some (a, false)
    else if unreachableValues t facts v = [] then separateLoop t maxStates facts limit vs a
    else
      match a.refine t a.init v (unreachableValues t facts v) with
      | none => none
      | some a => separateLoop t maxStates facts limit vs a

/-- cegar.cc:120-143 separate_facts_unreachable_before_goal -/
def separate (t : Task) (maxStates limit : Nat) (goal : Fact) : Option (Abs × Bool) :=
  match relaxedPossibleBefore t goal with
  | none => none
  | some facts => (separateLoop t maxStates facts limit (List.range t.vars.length) (Abs.trivial t)).map (fun r => (r.1.markAll, r.2))

/-- the limits and choices: the number of times that may_keep_refining returns true in separate_facts_unreachable_before_goal (if there are not too many states), and for each call in the
loop, the step of find_flaw in which the memory padding is released and the selected split.  The limits, once reached, remain reached. -/
structure Schedule where
  separate : Nat
  steps : List (Option Nat × Nat)

/-- how the refinement ends -/
inductive Outcome where
  | limit
  | unsolvable
  | solved (π : List Nat)
deriving DecidableEq, Repr

/-- abstract_search.cc:150-155 copy_h_value_to_children; the state keeps its number, the new state has the number `v2` -/
def copyH (h : Nat → Nat) (v v2 : Nat) : Nat → Nat := Relax.upd h v2 (h v)

/-- cegar.cc:210-220: the split for a flaw -/
def applyFlaw (t : Task) (a : Abs) (f : Flaw) (choice : Nat) : Option Abs :=
  match a.states[f.current]? with
  | none => none
  | some st =>
    match pickSplit (possibleSplits t f.concrete st.set f.desired) choice with
    | none => none
    | some (v, wanted) => a.refine t f.current v wanted

/-- cegar.cc:186-231: the loop -/
def refinementLoop (H : StdHeap Nat) (t : Task) (costs : List Nat) (maxStates : Nat) : List (Option Nat × Nat) → Abs → (Nat → Nat) → Queue Nat → Option (Abs × Outcome)
  | [], a, _, _ => some (a, .limit)
  | (cut, choice) :: steps, a, h, q =>
    if a.states.length ≥ maxStates then some (a, .limit)
    else
      match findSolution H a.states.length costs h q a.ts.outgoing a.init a.goals with
      | none => none
      | some (none, _, _) => some (a, .unsolvable)
      | some (some sol, h, q) =>
        match findFlaw t a cut sol a.init t.init [] with
        | none => none
        | some (.plan π) => some (a, .solved π)
        | some (.flaw f) =>
          match applyFlaw t a f choice with
          | none => none
          | some a' => if cut.isSome then some (a', .limit) else refinementLoop H t costs maxStates steps a' (copyH h f.current a.states.length) q

/-- cegar.cc:173-242 refinement_loop, 81-112: the abstraction for the task with the given operator costs -/
def cegar (H : StdHeap Nat) (t : Task) (maxStates : Nat) (sched : Schedule) (costs : List Nat) : Option (Abs × Outcome) :=
  match t.goal with
  | [g] =>
    match separate t maxStates sched.separate g with
    | none => none
    | some (a, false) => some (a, .limit)
    | some (a, true) => refinementLoop H t costs maxStates sched.steps a (fun _ => 0) Queue.new
  | _ => refinementLoop H t costs maxStates sched.steps (Abs.trivial t) (fun _ => 0) Queue.new

end Verif.Cart
