import Verif.Spec.Task

/-
Model of the pruning methods in src/search/pruning.

Simplifications: vectors of marks (stubborn, active_ops, written_vars, nes_computed, marked_producers, ...) are functions; their indices are numbers of operators and facts of the task, so they are
in range by construction.  Relations between operators which the code computes on demand and caches (interference_relation, conflicting_and_disabling, disabled, reachability_map) are computed each time.
`none` is undefined behaviour (an index of a state out of range, a missing unsatisfied condition) or an endless loop.
-/
namespace Verif.Stubborn

/-- setting a mark -/
def mark {α : Type} [DecidableEq α] (m : α → Bool) (a : α) : α → Bool := fun b => if b = a then true else m b

/-- task_proxy.h FactPair::operator<, as "less or equal" -/
def factLe (a b : Fact) : Bool := decide (a.var < b.var ∨ a.var = b.var ∧ a.val ≤ b.val)

def insertFact (a : Fact) : List Fact → List Fact
  | [] => [a]
  | b :: l => if factLe a b then a :: b :: l else b :: insertFact a l

/-- utils::sorted: std::sort; as only identical facts are equal in the order, the result of sorting is unique -/
def sortFacts : List Fact → List Fact
  | [] => []
  | a :: l => insertFact a (sortFacts l)

/-- stubborn_sets.cc:28-44: sorted_op_preconditions -/
def pre (t : Task) (i : Nat) : List Fact := sortFacts (((t.ops[i]?).map (·.pre)).getD [])

/-- stubborn_sets.cc:28-44: sorted_op_effects -/
def eff (t : Task) (i : Nat) : List Fact := sortFacts (((t.ops[i]?).map (fun o => o.effects.map (·.fact))).getD [])

/-- stubborn_sets.cc:46-58: achievers; the operators with a number from `i` on -/
def achieversFrom (f : Fact) : Nat → List Operator → List Nat
  | _, [] => []
  | i, o :: os => (o.effects.filter (fun e => decide (e.fact = f))).map (fun _ => i) ++ achieversFrom f (i + 1) os

def achievers (t : Task) (f : Fact) : List Nat := achieversFrom f 0 t.ops

/-- stubborn_sets.h:65-72: find_unsatisfied_condition; `some none` is no_fact -/
def findUnsatisfied (s : State) : List Fact → Option (Option Fact)
  | [] => some none
  | f :: fs =>
    match s[f.var]? with
    | none => none
    | some x => if x ≠ f.val then some (some f) else findUnsatisfied s fs

/-- stubborn_sets_action_centric.cc:7-24: the loop for a fixed first fact `a`; `next` is the loop for the following first facts -/
def conflictGo (next : List Fact → Bool) (a : Fact) : List Fact → Bool
  | [] => false
  | b :: bs => if a.var < b.var then next (b :: bs) else if a.var > b.var then conflictGo next a bs else if a.val ≠ b.val then true else next bs

/-- stubborn_sets_action_centric.cc:7-24: contain_conflicting_fact -/
def containConflicting : List Fact → List Fact → Bool
  | [] => fun _ => false
  | a :: as => conflictGo (containConflicting as) a

/-- stubborn_sets_action_centric.cc:45-48 -/
def canDisable (t : Task) (i j : Nat) : Bool := containConflicting (eff t i) (pre t j)

/-- stubborn_sets_action_centric.cc:51-54 -/
def canConflict (t : Task) (i j : Nat) : Bool := containConflicting (eff t i) (eff t j)

/-- the loops "while (!queue.empty())": `pop` removes the last element of the queue -/
def loop {W α : Type} (pop : W → Option (α × W)) (handle : W → α → Option W) (w : W) : Option W :=
  match pop w with
  | none => some w
  | some (a, w') =>
    match handle w' a with
    | none => none
    | some w'' => loop pop handle w''
partial_fixpoint

/-- stubborn_sets.cc:60-75 prune, given the marked operators -/
def keep (stubborn : Nat → Bool) (ops : List Nat) : List Nat := ops.filter stubborn

/-! ### Simple stubborn sets -/

/-- stubborn and stubborn_queue; the back of the vector is the head of the list -/
structure Work where
  stubborn : Nat → Bool
  queue : List Nat

/-- stubborn_sets_action_centric.cc:56-63 enqueue_stubborn_operator -/
def Work.enqueue (w : Work) (i : Nat) : Work := if w.stubborn i then w else ⟨mark w.stubborn i, i :: w.queue⟩

def Work.pop (w : Work) : Option (Nat × Work) :=
  match w.queue with
  | [] => none
  | i :: q => some (i, { w with queue := q })

/-- stubborn_sets_simple.h:18-21 -/
def interfere (t : Task) (i j : Nat) : Bool := canDisable t i j || canConflict t i j || canDisable t j i

/-- stubborn_sets_simple.cc:22-40 get_interfering_operators -/
def interfering (t : Task) (i : Nat) : List Nat := (List.range t.ops.length).filter (fun j => decide (i ≠ j) && interfere t i j)

/-- stubborn_sets_simple.cc:42-47 add_necessary_enabling_set -/
def addNes (t : Task) (w : Work) (f : Fact) : Work := (achievers t f).foldl Work.enqueue w

/-- stubborn_sets_simple.cc:49-53 add_interfering -/
def addInterfering (t : Task) (w : Work) (i : Nat) : Work := (interfering t i).foldl Work.enqueue w

/-- stubborn_sets_simple.cc:62-77 handle_stubborn_operator -/
def handleSimple (t : Task) (s : State) (w : Work) (i : Nat) : Option Work :=
  match findUnsatisfied s (pre t i) with
  | none => none
  | some none => some (addInterfering t w i)
  | some (some f) => some (addNes t w f)

/-- stubborn_sets_simple.cc:55-60 initialize_stubborn_set; it is an error if all goals hold -/
def initSimple (t : Task) (s : State) : Option Work :=
  match findUnsatisfied s (sortFacts t.goal) with
  | some (some g) => some (addNes t ⟨fun _ => false, []⟩ g)
  | _ => none

/-- stubborn_sets_action_centric.cc:31-42 compute_stubborn_set -/
def computeSimple (t : Task) (s : State) : Option Work :=
  match initSimple t s with
  | none => none
  | some w => loop Work.pop (handleSimple t s) w

/-- stubborn_sets.cc:60-75 prune, for stubborn_sets_simple -/
def pruneSimple (t : Task) (s : State) (ops : List Nat) : Option (List Nat) := (computeSimple t s).map (fun w => keep w.stubborn ops)

/-! ### Stubborn sets which dominate the expansion core -/

/-- the last precondition on a variable (stubborn_sets_ec.cc:46-49, 130-142: later ones overwrite earlier ones); `none` is -1 -/
def preOn (o : Operator) (v : Nat) : Option Nat := ((o.pre.filter (fun f => decide (f.var = v))).getLast?).map (·.val)

/-- stubborn_sets_ec.cc:24-70 build_dtgs: the successors of value `d` in the graph of variable `v` -/
def dtg (t : Task) (v d : Nat) : List Nat :=
  (t.ops.map (fun o => (o.effects.filter (fun e => decide (e.fact.var = v) && ((preOn o v).isNone || decide (preOn o v = some d)))).map (·.fact.val))).flatten

/-- stubborn_sets_ec.cc:72-80 recurse_forwards -/
def recurseForwards (succ : Nat → List Nat) (cur : Nat) (reachable : Nat → Bool) : Option (Nat → Bool) :=
  if reachable cur then some reachable
  else (succ cur).foldlM (fun r x => recurseForwards succ x r) (mark reachable cur)
partial_fixpoint

/-- stubborn_sets_ec.cc:144-158: reachability_map[var][value] -/
def reachableFrom (t : Task) (v d : Nat) : Option (Nat → Bool) := recurseForwards (dtg t v) d (fun _ => false)

/-- stubborn_sets_ec.cc:164-175: the loop over the preconditions -/
def preActive (t : Task) (s : State) : List Fact → Option Bool
  | [] => some true
  | p :: ps =>
    match s[p.var]? with
    | none => none
    | some x =>
      match reachableFrom t p.var x with
      | none => none
      | some r => if r p.val then preActive t s ps else some false

/-- stubborn_sets_ec.cc:160-181 compute_active_operators -/
def activeOps (t : Task) (s : State) : Option (List Bool) := (List.range t.ops.length).mapM (fun i => preActive t s (pre t i))

/-- stubborn, stubborn_queue, written_vars and nes_computed -/
structure EC extends Work where
  written : Nat → Bool
  nes : Fact → Bool

def EC.pop (w : EC) : Option (Nat × EC) :=
  match w.queue with
  | [] => none
  | i :: q => some (i, { w with queue := q })

/-- stubborn_sets_ec.cc:220-228 enqueue_stubborn_operator_and_remember_written_vars -/
def EC.enqueue (t : Task) (s : State) (w : EC) (i : Nat) : Option EC :=
  if w.stubborn i then some w
  else
    match findUnsatisfied s (pre t i) with
    | none => none
    | some none => some { w with stubborn := mark w.stubborn i, queue := i :: w.queue, written := fun v => w.written v || (eff t i).any (fun e => decide (e.var = v)) }
    | some (some _) => some { w with stubborn := mark w.stubborn i, queue := i :: w.queue }

/-- enqueue all active operators of a list -/
def EC.enqueueActive (t : Task) (s : State) (active : Nat → Bool) : EC → List Nat → Option EC
  | w, [] => some w
  | w, i :: is =>
    if active i then
      match w.enqueue t s i with
      | none => none
      | some w' => w'.enqueueActive t s active is
    else w.enqueueActive t s active is

/-- stubborn_sets_ec.cc:232-242 add_nes_for_fact -/
def EC.addNes (t : Task) (s : State) (active : Nat → Bool) (w : EC) (f : Fact) : Option EC :=
  match w.enqueueActive t s active (achievers t f) with
  | none => none
  | some w' => some { w' with nes := mark w'.nes f }

/-- stubborn_sets_ec.cc:183-199 get_conflicting_and_disabling -/
def conflictingAndDisabling (t : Task) (i : Nat) : List Nat := (List.range t.ops.length).filter (fun j => decide (i ≠ j) && (canConflict t i j || canDisable t j i))

/-- stubborn_sets_ec.cc:201-213 get_disabled -/
def disabledOps (t : Task) (i : Nat) : List Nat := (List.range t.ops.length).filter (fun j => decide (j ≠ i) && canDisable t i j)

/-- stubborn_sets_ec.cc:83-102: like `conflictGo` -/
def conflictVarsGo (next : List Fact → List Nat) (a : Fact) : List Fact → List Nat
  | [] => []
  | b :: bs => if a.var < b.var then next (b :: bs) else if a.var > b.var then conflictVarsGo next a bs else if b.val ≠ a.val then b.var :: next bs else next bs

/-- stubborn_sets_ec.cc:83-102 get_conflicting_vars -/
def conflictVars : List Fact → List Fact → List Nat
  | [] => fun _ => []
  | a :: as => conflictVarsGo (conflictVars as) a

/-- stubborn_sets_ec.cc:265-272: the first unsatisfied precondition on a written variable -/
def writtenUnsatisfied (s : State) (written : Nat → Bool) : List Fact → Option (Option Fact)
  | [] => some none
  | f :: fs =>
    match s[f.var]? with
    | none => none
    | some x => if x ≠ f.val ∧ written f.var = true then some (some f) else writtenUnsatisfied s written fs

/-- stubborn_sets_ec.cc:267-269, 277-279 -/
def EC.addNesOnce (t : Task) (s : State) (active : Nat → Bool) (w : EC) (f : Fact) : Option EC := if w.nes f then some w else w.addNes t s active f

/-- stubborn_sets_ec.cc:262-280 apply_s5 -/
def EC.applyS5 (t : Task) (s : State) (active : Nat → Bool) (w : EC) (i : Nat) : Option EC :=
  match writtenUnsatisfied s w.written (pre t i) with
  | none => none
  | some (some f) => w.addNesOnce t s active f
  | some none =>
    match findUnsatisfied s (pre t i) with
    | some (some f) => w.addNesOnce t s active f
    | _ => none

/-- stubborn_sets_ec.cc:16-22, 306-317: is_v_applicable for one of the variables -/
def anyVApplicable (t : Task) (s : State) (j : Nat) : List Nat → Option Bool
  | [] => some false
  | v :: vs =>
    match (t.ops[j]?).bind (fun o => preOn o v) with
    | none => some true
    | some x =>
      match s[v]? with
      | none => none
      | some y => if x = y then some true else anyVApplicable t s j vs

/-- stubborn_sets_ec.cc:302-326: the loop over the disabled operators -/
def EC.handleDisabled (t : Task) (s : State) (active : Nat → Bool) (i : Nat) : EC → List Nat → Option EC
  | w, [] => some w
  | w, j :: js =>
    if active j then
      match conflictVars (eff t i) (pre t j) with
      | [] => w.handleDisabled t s active i js
      | v :: vs =>
        match anyVApplicable t s j (v :: vs) with
        | none => none
        | some true =>
          match w.enqueue t s j with
          | none => none
          | some w' => w'.handleDisabled t s active i js
        | some false =>
          match w.applyS5 t s active j with
          | none => none
          | some w' => w'.handleDisabled t s active i js
    else w.handleDisabled t s active i js

/-- stubborn_sets_ec.cc:296-331 handle_stubborn_operator -/
def EC.handle (t : Task) (s : State) (active : Nat → Bool) (w : EC) (i : Nat) : Option EC :=
  match findUnsatisfied s (pre t i) with
  | none => none
  | some none =>
    match w.enqueueActive t s active (conflictingAndDisabling t i) with
    | none => none
    | some w' => w'.handleDisabled t s active i (disabledOps t i)
  | some (some _) => w.applyS5 t s active i

/-- stubborn_sets_ec.cc:282-294 initialize_stubborn_set -/
def initEC (t : Task) (s : State) (active : Nat → Bool) : Option EC :=
  match findUnsatisfied s (sortFacts t.goal) with
  | some (some g) => EC.addNes t s active ⟨⟨fun _ => false, []⟩, fun _ => false, fun _ => false⟩ g
  | _ => none

/-- stubborn_sets_action_centric.cc:31-42 compute_stubborn_set -/
def computeEC (t : Task) (s : State) (active : Nat → Bool) : Option EC :=
  match initEC t s active with
  | none => none
  | some w => loop EC.pop (EC.handle t s active) w

/-- stubborn_sets.cc:60-75 prune, for stubborn_sets_ec -/
def pruneEC (t : Task) (s : State) (ops : List Nat) : Option (List Nat) :=
  match activeOps t s with
  | none => none
  | some l => (computeEC t s (fun i => (l[i]?).getD false)).map (fun w => keep w.stubborn ops)

/-! ### Atom-centric stubborn sets -/

/-- stubborn_sets_atom_centric.h:7-8, 31-38: marked_*_variables -/
inductive Mark where
  | none
  | all
  | value (d : Nat)

/-- stubborn_sets_atom_centric.h:11-16 -/
inductive Strategy where
  | fastDownward | quickSkip | staticSmall | dynamicSmall
deriving DecidableEq

/-- the marks and queues of stubborn_sets_atom_centric.h:25-41; P for producers, C for consumers -/
structure AC where
  stubborn : Nat → Bool
  markedP : Fact → Bool
  markedC : Fact → Bool
  varP : Nat → Mark
  varC : Nat → Mark
  queueP : List Fact
  queueC : List Fact

/-- stubborn_sets_atom_centric.cc:42-61 compute_consumers -/
def consumersFrom (f : Fact) : Nat → List Operator → List Nat
  | _, [] => []
  | i, o :: os => (o.pre.filter (fun p => decide (p = f))).map (fun _ => i) ++ consumersFrom f (i + 1) os

def consumers (t : Task) (f : Fact) : List Nat := consumersFrom f 0 t.ops

/-- consumers[var].size() (stubborn_sets_atom_centric.cc:43-46) -/
def domainOf (t : Task) (v : Nat) : Nat := ((t.vars[v]?).map (·.domain)).getD 0

/-- stubborn_sets_atom_centric.cc:68-73 enqueue_producers -/
def AC.enqueueP (w : AC) (f : Fact) : AC := if w.markedP f then w else { w with markedP := mark w.markedP f, queueP := f :: w.queueP }

/-- stubborn_sets_atom_centric.cc:75-80 enqueue_consumers -/
def AC.enqueueC (w : AC) (f : Fact) : AC := if w.markedC f then w else { w with markedC := mark w.markedC f, queueC := f :: w.queueC }

/-- the facts of the variable with other values -/
def siblings (t : Task) (f : Fact) : List Fact := ((List.range (domainOf t f.var)).filter (fun d => decide (d ≠ f.val))).map (fun d => ⟨f.var, d⟩)

def setMark (m : Nat → Mark) (v : Nat) (x : Mark) : Nat → Mark := fun u => if u = v then x else m u

/-- stubborn_sets_atom_centric.cc:82-111 enqueue_sibling_producers -/
def AC.enqueueSiblingP (t : Task) (shortcut : Bool) (w : AC) (f : Fact) : AC :=
  match (if shortcut then w.varP f.var else .none) with
  | .none =>
    let w' := (siblings t f).foldl AC.enqueueP w
    if shortcut then { w' with varP := setMark w'.varP f.var (.value f.val) } else w'
  | .value d =>
    if d ≠ f.val then
      let w' := w.enqueueP ⟨f.var, d⟩
      { w' with varP := setMark w'.varP f.var .all }
    else w
  | .all => w

/-- stubborn_sets_atom_centric.cc:113-130 enqueue_sibling_consumers -/
def AC.enqueueSiblingC (t : Task) (shortcut : Bool) (w : AC) (f : Fact) : AC :=
  match (if shortcut then w.varC f.var else .none) with
  | .none =>
    let w' := (siblings t f).foldl AC.enqueueC w
    if shortcut then { w' with varC := setMark w'.varC f.var (.value f.val) } else w'
  | .value d =>
    if d ≠ f.val then
      let w' := w.enqueueC ⟨f.var, d⟩
      { w' with varC := setMark w'.varC f.var .all }
    else w
  | .all => w

/-- stubborn_sets_atom_centric.cc:137-151: QUICK_SKIP; `acc` is the fact found so far -/
def quickSkip (s : State) (marked : Fact → Bool) : List Fact → Option Fact → Option (Option Fact)
  | [], acc => some acc
  | f :: fs, acc =>
    match s[f.var]? with
    | none => none
    | some x =>
      if x ≠ f.val then
        if marked f then some (some f)
        else if acc.isNone then quickSkip s marked fs (some f)
        else quickSkip s marked fs acc
      else quickSkip s marked fs acc

/-- stubborn_sets_atom_centric.cc:152-179: STATIC_SMALL and DYNAMIC_SMALL with different counts; `best` is fact and min_count -/
def smallest (s : State) (count : Fact → Nat) : List Fact → Option Fact → Nat → Option (Option Fact)
  | [], acc, _ => some acc
  | f :: fs, acc, best =>
    match s[f.var]? with
    | none => none
    | some x =>
      if x ≠ f.val then
        if count f < best then smallest s count fs (some f) (count f)
        else smallest s count fs acc best
      else smallest s count fs acc best

/-- stubborn_sets_atom_centric.cc:132-184 select_fact -/
def AC.select (t : Task) (s : State) (st : Strategy) (w : AC) (fs : List Fact) : Option (Option Fact) :=
  match st with
  | .fastDownward => findUnsatisfied s fs
  | .quickSkip => quickSkip s w.markedP fs none
  | .staticSmall => smallest s (fun f => (achievers t f).length) fs none (2 ^ 31 - 1)
  | .dynamicSmall => smallest s (fun f => ((achievers t f).filter (fun i => !w.stubborn i)).length) fs none (2 ^ 31 - 1)

/-- stubborn_sets_atom_centric.cc:191-203 enqueue_interferers -/
def AC.enqueueInterferers (t : Task) (shortcut : Bool) (w : AC) (i : Nat) : AC :=
  (eff t i).foldl (fun w f => (w.enqueueSiblingP t shortcut f).enqueueSiblingC t shortcut f) ((pre t i).foldl (AC.enqueueSiblingP t shortcut) w)

/-- stubborn_sets_atom_centric.cc:186-189, 242-252 handle_stubborn_operator -/
def AC.handleOp (t : Task) (s : State) (shortcut : Bool) (st : Strategy) (w : AC) (i : Nat) : Option AC :=
  if w.stubborn i then some w
  else
    let w := { w with stubborn := mark w.stubborn i }
    match findUnsatisfied s (pre t i) with
    | none => none
    | some none => some (w.enqueueInterferers t shortcut i)
    | some (some _) =>
      match w.select t s st (pre t i) with
      | some (some f) => some (w.enqueueP f)
      | _ => none

/-- stubborn_sets_atom_centric.cc:225-239: producers come first -/
def AC.pop (w : AC) : Option ((Bool × Fact) × AC) :=
  match w.queueP, w.queueC with
  | f :: q, _ => some ((true, f), { w with queueP := q })
  | [], f :: q => some ((false, f), { w with queueC := q })
  | [], [] => none

/-- stubborn_sets_atom_centric.cc:225-239: the body of the loop -/
def AC.handle (t : Task) (s : State) (shortcut : Bool) (st : Strategy) (w : AC) (x : Bool × Fact) : Option AC :=
  (if x.1 then achievers t x.2 else consumers t x.2).foldlM (AC.handleOp t s shortcut st) w

/-- stubborn_sets.cc:62, stubborn_sets_atom_centric.cc:206-219: resetting the data structures -/
def AC.empty : AC := ⟨fun _ => false, fun _ => false, fun _ => false, fun _ => .none, fun _ => .none, [], []⟩

/-- stubborn_sets_atom_centric.cc:205-240 compute_stubborn_set -/
def computeAC (t : Task) (s : State) (shortcut : Bool) (st : Strategy) : Option AC :=
  match AC.empty.select t s st (sortFacts t.goal) with
  | some (some g) => loop AC.pop (AC.handle t s shortcut st) (AC.empty.enqueueP g)
  | _ => none

/-- stubborn_sets.cc:60-75 prune, for atom_centric_stubborn_sets -/
def pruneAC (t : Task) (shortcut : Bool) (st : Strategy) (s : State) (ops : List Nat) : Option (List Nat) :=
  (computeAC t s shortcut st).map (fun w => keep w.stubborn ops)

/-- the pruning methods that have no state of their own; `null` is null_pruning_method.h:8-9 -/
inductive Method where
  | null | simple | ec | atomCentric (shortcut : Bool) (st : Strategy)

def Method.prune (t : Task) (m : Method) (s : State) (ops : List Nat) : Option (List Nat) :=
  match m with
  | .null => some ops
  | .simple => pruneSimple t s ops
  | .ec => pruneEC t s ops
  | .atomCentric shortcut st => pruneAC t shortcut st s ops

/-! ### Limited pruning -/

/-- limited_pruning.h, pruning_method.h: num_pruning_calls, is_pruning_disabled, num_successors_before_pruning, num_successors_after_pruning -/
structure Limited where
  calls : Nat
  disabled : Bool
  before : Nat
  after : Nat

/-- limited_pruning.cc:28-56 prune: the decision whether pruning is switched off; the comparison of floating-point numbers is the parameter `low`, which includes "min_required_pruning_ratio > 0" -/
def Limited.check (low : Nat → Nat → Bool) (limit : Nat) (l : Limited) : Limited := if l.calls = limit ∧ low l.before l.after = true then { l with disabled := true } else l

/-- pruning_method.cc:26-44 prune_operators with limited_pruning.cc:28-56; `inner` is the pruning method it limits.  Note that the call in which pruning is switched off still prunes. -/
def Limited.prune (low : Nat → Nat → Bool) (limit : Nat) (inner : State → List Nat → Option (List Nat)) (l : Limited) (s : State) (ops : List Nat) : Option (List Nat × Limited) :=
  if l.disabled then some (ops, { l with before := l.before + ops.length, after := l.after + ops.length })
  else
    match inner s ops with
    | none => none
    | some os =>
      let l' := l.check low limit
      some (os, { l' with calls := l'.calls + 1, before := l'.before + ops.length, after := l'.after + os.length })

/-- a new object (limited_pruning.cc:10-20, pruning_method.cc:19-24) -/
def Limited.start : Limited := ⟨0, false, 0, 0⟩

/-- a sequence of calls of prune_operators -/
def Limited.run (low : Nat → Nat → Bool) (limit : Nat) (inner : State → List Nat → Option (List Nat)) : Limited → List (State × List Nat) → Option (List (List Nat))
  | _, [] => some []
  | l, (s, ops) :: calls =>
    match l.prune low limit inner s ops with
    | none => none
    | some (os, l') => (Limited.run low limit inner l' calls).map (os :: ·)

end Verif.Stubborn
