import Verif.Model.Relaxation
import Verif.Spec.LmCut

/-
Model of src/search/heuristics/lm_cut_landmarks.{h,cc} and lm_cut_heuristic.cc.

Propositions (pointers in the code) are numbers: the fact ids of Model/Relaxation.lean, then the artificial
precondition and the artificial goal.  Relaxed operators are numbered in the order of the vector; -1
as operator id is `none`.  Costs and h^max costs are non-negative; `none` is undefined behaviour (integer
overflow, null pointers, index out of range, pop from an empty queue) or an operator cost that becomes
negative (an assertion in enqueue_if_necessary).  Other assertions are not modelled.
-/
namespace Verif.LmCut
open Verif.AdaptiveQueue Verif.Relax

/-- lm_cut_landmarks.h:17-22 -/
inductive Status where
  | unreached | reached | goalZone | beforeGoalZone
deriving DecidableEq, Repr

/-- lm_cut_landmarks.h:24-28: what does not change -/
structure ROp where
  pre : List Nat
  eff : List Nat
  opId : Option Nat
  base : Nat
deriving DecidableEq, Repr

/-- lm_cut_landmarks.h:59-63: what does not change -/
structure LTask where
  numProps : Nat
  artPre : Nat
  artGoal : Nat
  ops : List ROp

/-- lm_cut_landmarks.cc:74-83 -/
def mkOp (artPre : Nat) (pre eff : List Nat) (id : Option Nat) (base : Nat) : ROp :=
  ⟨if pre.isEmpty then [artPre] else pre, eff, id, base⟩

/-- lm_cut_landmarks.cc:61-72 -/
def buildOp (t : Task) (artPre : Nat) (o : Operator) (i : Nat) : ROp :=
  mkOp artPre (o.pre.map (propId t)) (o.effects.map (fun e => propId t e.fact)) (some i) o.cost

/-- lm_cut_landmarks.cc:13-59 -/
def LTask.ofTask (t : Task) : LTask where
  numProps := countFacts t + 2
  artPre := countFacts t
  artGoal := countFacts t + 1
  ops := t.ops.zipIdx.map (fun p => buildOp t (countFacts t) p.1 p.2) ++ [mkOp (countFacts t) (t.goal.map (propId t)) [countFacts t + 1] none 0]

/-- lm_cut_landmarks.cc:53-56: precondition_of -/
def LTask.precondOf (T : LTask) (p : Nat) : List Nat := T.ops.zipIdx.flatMap (fun x => (x.1.pre.filter (· == p)).map (fun _ => x.2))

/-- lm_cut_landmarks.cc:57-58: effect_of -/
def LTask.effectOf (T : LTask) (p : Nat) : List Nat := T.ops.zipIdx.flatMap (fun x => (x.1.eff.filter (· == p)).map (fun _ => x.2))

/-- the members that change: status and h_max_cost of propositions, cost, unsatisfied_preconditions,
h_max_supporter and h_max_supporter_cost of operators, the queue -/
structure St where
  status : Nat → Status
  h : Nat → Nat
  cost : Nat → Nat
  unsat : Nat → Int
  supp : Nat → Option Nat
  suppCost : Nat → Nat
  queue : Queue Nat

section
variable (H : StdHeap Nat) (T : LTask)

/-- lm_cut_landmarks.h:79-86 -/
def St.enqueue (st : St) (p c : Nat) : Option St :=
  if p < T.numProps then
    if st.status p = .unreached ∨ st.h p > c then
      (st.queue.push H c p).map (fun q => { st with status := upd st.status p .reached, h := upd st.h p c, queue := q })
    else some st
  else none

/-- the loops over effects or facts that call enqueue_if_necessary -/
def St.enqueueAll (c : Nat) : List Nat → St → Option St
  | [], st => some st
  | p :: ps, st =>
    match st.enqueue H T p c with
    | none => none
    | some st => St.enqueueAll c ps st

/-- lm_cut_landmarks.cc:93-110 -/
def setup (st : St) : Option St :=
  st.queue.clear.map (fun q =>
    { st with status := fun _ => .unreached, unsat := fun i => (((T.ops[i]?).map (fun o => o.pre.length)).getD 0 : Nat), supp := fun _ => none, suppCost := fun _ => 2 ^ 31 - 1, queue := q })

/-- lm_cut_landmarks.cc:134-145: the loop over the operators `is` triggered by the proposition `p` with cost `c` -/
def trigger1 (p c : Nat) : List Nat → St → Option St
  | [], st => some st
  | i :: is, st =>
    match T.ops[i]? with
    | none => none
    | some o =>
      if st.unsat i - 1 = 0 then
        if c + st.cost i < 2 ^ 31 then
          match St.enqueueAll H T (c + st.cost i) o.eff { st with unsat := upd st.unsat i (st.unsat i - 1), supp := upd st.supp i (some p), suppCost := upd st.suppCost i c } with
          | none => none
          | some st => trigger1 p c is st
        else none
      else trigger1 p c is { st with unsat := upd st.unsat i (st.unsat i - 1) }

/-- lm_cut_landmarks.cc:123-147: the loop -/
def explore1 (st : St) : Option St :=
  if st.queue.empty then some st
  else
    match st.queue.pop H with
    | none => none
    | some (q, d, p) =>
      if st.h p < d then explore1 { st with queue := q }
      else
        match trigger1 H T p (st.h p) (T.precondOf p) { st with queue := q } with
        | none => none
        | some st => explore1 st
partial_fixpoint

/-- lm_cut_landmarks.cc:112-148; `facts` are the propositions of the state -/
def first (facts : List Nat) (st : St) : Option St :=
  match setup T st with
  | none => none
  | some st =>
    match St.enqueueAll H T 0 (facts ++ [T.artPre]) st with
    | none => none
    | some st => explore1 H T st

/-- lm_cut_landmarks.h:111-116: the new supporter, starting with `q` -/
def newSupporter (h : Nat → Nat) (q : Nat) (pre : List Nat) : Nat := pre.foldl (fun s r => if h r > h s then r else s) q

/-- lm_cut_landmarks.cc:176-191: the loop over the operators `is` for the proposition `p` with cost `c` -/
def trigger2 (p c : Nat) : List Nat → St → Option St
  | [], st => some st
  | i :: is, st =>
    match T.ops[i]? with
    | none => none
    | some o =>
      if st.supp i = some p ∧ st.suppCost i > c then
        if st.h (newSupporter st.h p o.pre) ≠ st.suppCost i then
          if st.h (newSupporter st.h p o.pre) + st.cost i < 2 ^ 31 then
            match St.enqueueAll H T (st.h (newSupporter st.h p o.pre) + st.cost i) o.eff
              { st with supp := upd st.supp i (some (newSupporter st.h p o.pre)), suppCost := upd st.suppCost i (st.h (newSupporter st.h p o.pre)) } with
            | none => none
            | some st => trigger2 p c is st
          else none
        else trigger2 p c is { st with supp := upd st.supp i (some (newSupporter st.h p o.pre)), suppCost := upd st.suppCost i (st.h (newSupporter st.h p o.pre)) }
      else trigger2 p c is st

/-- lm_cut_landmarks.cc:165-193: the loop -/
def explore2 (st : St) : Option St :=
  if st.queue.empty then some st
  else
    match st.queue.pop H with
    | none => none
    | some (q, d, p) =>
      if st.h p < d then explore2 { st with queue := q }
      else
        match trigger2 H T p (st.h p) (T.precondOf p) { st with queue := q } with
        | none => none
        | some st => explore2 st
partial_fixpoint

/-- lm_cut_landmarks.cc:160-164 -/
def enqueueCut : List Nat → St → Option St
  | [], st => some st
  | i :: is, st =>
    match T.ops[i]? with
    | none => none
    | some o =>
      if st.suppCost i + st.cost i < 2 ^ 31 then
        match St.enqueueAll H T (st.suppCost i + st.cost i) o.eff st with
        | none => none
        | some st => enqueueCut is st
      else none

/-- lm_cut_landmarks.cc:150-194 -/
def incremental (cut : List Nat) (st : St) : Option St :=
  match enqueueCut H T cut { st with queue := st.queue.addVirtualPushes T.numProps } with
  | none => none
  | some st => explore2 H T st

mutual
/-- lm_cut_landmarks.cc:244-255; only the status of propositions changes -/
def markPlateau (cost : Nat → Nat) (supp : Nat → Option Nat) (p : Nat) (status : Nat → Status) : Option (Nat → Status) :=
  if status p = .goalZone then some status
  else markAchievers cost supp (T.effectOf p) (upd status p .goalZone)
partial_fixpoint
/-- lm_cut_landmarks.cc:251-253: the loop -/
def markAchievers (cost : Nat → Nat) (supp : Nat → Option Nat) (is : List Nat) (status : Nat → Status) : Option (Nat → Status) :=
  match is with
  | [] => some status
  | i :: is =>
    if cost i = 0 then
      match supp i with
      | none => markAchievers cost supp is status
      | some q => markPlateau cost supp q status >>= fun status => markAchievers cost supp is status
    else markAchievers cost supp is status
partial_fixpoint
end

/-- status of propositions, second_exploration_queue (the last element is the head), cut -/
structure Second where
  status : Nat → Status
  stack : List Nat
  cut : List Nat

/-- lm_cut_landmarks.cc:232-239 -/
def pushEffects : List Nat → Second → Second
  | [], x => x
  | e :: es, x =>
    if x.status e ≠ .beforeGoalZone then pushEffects es { x with status := upd x.status e .beforeGoalZone, stack := e :: x.stack }
    else pushEffects es x

/-- lm_cut_landmarks.cc:219-241: the loop over the operators for the proposition `p` -/
def trigger3 (supp : Nat → Option Nat) (p : Nat) : List Nat → Second → Option Second
  | [], x => some x
  | i :: is, x =>
    if supp i = some p then
      match T.ops[i]? with
      | none => none
      | some o =>
        if o.eff.any (fun e => x.status e = .goalZone) then trigger3 supp p is { x with cut := x.cut ++ [i] }
        else trigger3 supp p is (pushEffects o.eff x)
    else trigger3 supp p is x

/-- lm_cut_landmarks.cc:214-242: the loop -/
def explore3 (supp : Nat → Option Nat) (x : Second) : Option Second :=
  match x.stack with
  | [] => some x
  | p :: ps =>
    match trigger3 T supp p (T.precondOf p) { x with stack := ps } with
    | none => none
    | some x => explore3 supp x
partial_fixpoint

/-- lm_cut_landmarks.cc:196-212: the beginning of second_exploration -/
def startSecond : List Nat → Second → Second
  | [], x => x
  | p :: ps, x => startSecond ps { x with status := upd x.status p .beforeGoalZone, stack := p :: x.stack }

/-- lm_cut_landmarks.cc:196-242 -/
def second (facts : List Nat) (supp : Nat → Option Nat) (status : Nat → Status) : Option Second :=
  explore3 T supp (startSecond (T.artPre :: facts) ⟨status, [], []⟩)

/-- lm_cut_landmarks.cc:306-308 -/
def cutCost (cost : Nat → Nat) (cut : List Nat) : Nat := cut.foldl (fun m i => min m (cost i)) (2 ^ 31 - 1)

/-- lm_cut_landmarks.cc:309-310 -/
def reduce (m : Nat) : List Nat → (Nat → Nat) → Option (Nat → Nat)
  | [], cost => some cost
  | i :: is, cost => if m ≤ cost i then reduce m is (upd cost i (cost i - m)) else none

/-- lm_cut_landmarks.cc:333-340 -/
def resetStatus (status : Nat → Status) (p : Nat) : Status :=
  if p = T.artGoal ∨ p = T.artPre then .reached
  else if status p = .goalZone ∨ status p = .beforeGoalZone then .reached else status p

/-- a landmark as passed to the callbacks: operator ids and cost -/
abbrev Landmark := CostedSet

/-- lm_cut_landmarks.cc:301-341: one round; the landmark and the members afterwards -/
def round (facts : List Nat) (st : St) : Option (Landmark × St) :=
  match markPlateau T st.cost st.supp T.artGoal st.status with
  | none => none
  | some status =>
    match second T facts st.supp status with
    | none => none
    | some x =>
      match reduce (cutCost st.cost x.cut) x.cut st.cost with
      | none => none
      | some cost =>
        match incremental H T x.cut { st with status := x.status, cost := cost } with
        | none => none
        | some st' => some ((x.cut.map (fun i => (T.ops[i]?).bind (·.opId)), cutCost st.cost x.cut), { st' with status := resetStatus T st'.status })

/-- lm_cut_landmarks.cc:301-342: the loop; `ls` are the landmarks found so far -/
def rounds (facts : List Nat) (ls : List Landmark) (st : St) : Option (List Landmark × St) :=
  if st.h T.artGoal = 0 then some (ls, st)
  else
    match round H T facts st with
    | none => none
    | some (l, st) => rounds facts (ls ++ [l]) st
partial_fixpoint

/-- lm_cut_landmarks.cc:281-344: `none` as landmarks for a dead end -/
def computeLandmarks (facts : List Nat) (st : St) : Option (Option (List Landmark) × St) :=
  match first H T facts { st with cost := fun i => ((T.ops[i]?).map (·.base)).getD 0 } with
  | none => none
  | some st =>
    if st.status T.artGoal = .unreached then some (none, st)
    else (rounds H T facts [] st).map (fun r => (some r.1, r.2))

end

/-- lm_cut_heuristic.cc:28: the cost callback for the landmarks `ls` -/
def sumLandmarks : List Landmark → Nat → Option Nat
  | [], total => some total
  | l :: ls, total => if total + l.2 < 2 ^ 31 then sumLandmarks ls (total + l.2) else none

/-- lm_cut_landmarks.cc:281-344 for a state of the task; `st` is what previous evaluations left in the members -/
def landmarks (H : StdHeap Nat) (t : Task) (s : State) (st : St) : Option (Option (List Landmark) × St) :=
  computeLandmarks H (LTask.ofTask t) (factsOf t s) st

/-- lm_cut_heuristic.cc:24-34: `none` as value for DEAD_END -/
def lmcut (H : StdHeap Nat) (t : Task) (s : State) (st : St) : Option (Option Nat × St) :=
  match landmarks H t s st with
  | none => none
  | some (none, st) => some (none, st)
  | some (some ls, st) => (sumLandmarks ls 0).map (fun v => (some v, st))

/-- the members before the first evaluation -/
def St.init : St := ⟨fun _ => .unreached, fun _ => 0, fun _ => 0, fun _ => 0, fun _ => none, fun _ => 0, Queue.new⟩

/-- consecutive evaluations by the same object: each starts with the members as the previous
ones left them -/
def evalAll {α : Type} (f : State → St → Option (α × St)) : List State → St → Option (List α)
  | [], _ => some []
  | s :: ss, st =>
    match f s st with
    | none => none
    | some (a, st) => (evalAll f ss st).map (a :: ·)

end Verif.LmCut
