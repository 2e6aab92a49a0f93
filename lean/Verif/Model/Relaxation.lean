import Verif.Spec.Task
import Verif.Model.AdaptiveQueue
import Mathlib.Data.List.Sort

/-
Model of src/search/heuristics/relaxation_heuristic.{h,cc}, max_heuristic.{h,cc},
additive_heuristic.{h,cc} and ff_heuristic.cc.

The task is the one passed to the constructor of Heuristic (relaxation_heuristic.cc:54-57): if there are
axioms, it contains the axioms added by DefaultValueAxiomsTask.  h^max and h^add have
separate code which differs in the computation of the cost of a unary operator (`accum`); h^max does not
store `reached_by`.  Vectors indexed by propositions or unary operators are functions, with an
explicit check of the index.  `none` is undefined behaviour: integer overflow (costs are
non-negative ints) or an index out of range.  The width of `reached_by` (30 bits) is not
modelled.  Assertions are not modelled, as in a release build.
-/
namespace Verif.Relax
open Verif.AdaptiveQueue

/-- relaxation_heuristic.h:40-52: the part of a unary operator that does not change; `opNo` is
`none` for an axiom (-1) -/
structure UnaryOp where
  pre : List Nat
  eff : Nat
  opNo : Option Nat
  base : Nat
deriving DecidableEq, Repr

/-- relaxation_heuristic.cc:61-68: proposition_offsets -/
def offset (t : Task) (v : Nat) : Nat := ((t.vars.take v).map (·.domain)).sum

/-- task_properties.cc:85-90: the number of propositions -/
def countFacts (t : Task) : Nat := (t.vars.map (·.domain)).sum

/-- relaxation_heuristic.cc:114-120 -/
def propId (t : Task) (f : Fact) : Nat := offset t f.var + f.val

/-- std::unique -/
def unique : List Nat → List Nat
  | a :: b :: l => if a = b then unique (b :: l) else a :: unique (b :: l)
  | l => l

/-- collections.h:14-17 -/
def sortUnique (l : List Nat) : List Nat := unique (l.insertionSort (· ≤ ·))

/-- relaxation_heuristic.cc:136-165 -/
def buildUnaryOperators (t : Task) (opNo : Option Nat) (cost : Nat) (op : Operator) : List UnaryOp :=
  op.effects.map (fun e => ⟨sortUnique (op.pre.map (propId t) ++ e.conds.map (propId t)), propId t e.fact, opNo, cost⟩)

/-- relaxation_heuristic.cc:79-84; axioms have cost 0 -/
def allUnaryOperators (t : Task) : List UnaryOp :=
  t.ops.zipIdx.flatMap (fun p => buildUnaryOperators t (some p.2) p.1.cost p.1) ++ t.axioms.flatMap (buildUnaryOperators t none 0)

/-- lexicographic comparison of pairs -/
def pairLt (a b : Nat × Nat) : Bool := decide (a.1 < b.1) || (a.1 == b.1 && decide (a.2 < b.2))

/-- relaxation_heuristic.cc:225-245: unary_operator_index after the operators `os` with the ids
from `i`; the key is precondition and effect, the value is cost and id -/
def buildIndex : List UnaryOp → Nat → (List Nat × Nat → Option (Nat × Nat)) → (List Nat × Nat → Option (Nat × Nat))
  | [], _, m => m
  | o :: os, i, m =>
    buildIndex os (i + 1) (fun k =>
      if k = (o.pre, o.eff) then
        match m k with
        | none => some (o.base, i)
        | some old => if pairLt (o.base, i) old then some (o.base, i) else some old
      else m k)

/-- relaxation_heuristic.cc:299-303 -/
def subset (mask : Nat) (pre : List Nat) : List Nat := (pre.zipIdx.filter (fun p => mask.testBit p.2)).map (·.1)

/-- relaxation_heuristic.cc:257-314 -/
def isDominated (index : List Nat × Nat → Option (Nat × Nat)) (o : UnaryOp) (i : Nat) : Bool :=
  if ((index (o.pre, o.eff)).getD (0, 0)).2 ≠ i then true
  else if o.pre.length > 5 then false
  else (List.range (2 ^ o.pre.length - 1)).any (fun mask =>
    match index (subset mask o.pre, o.eff) with
    | none => false
    | some v => decide (v.1 ≤ o.base))

/-- relaxation_heuristic.cc:167-322 -/
def simplify (os : List UnaryOp) : List UnaryOp :=
  (os.zipIdx.filter (fun p => !isDominated (buildIndex os 0 (fun _ => none)) p.1 p.2)).map (·.1)

/-- what RelaxationHeuristic stores and does not change during the evaluation of states -/
structure RTask where
  numProps : Nat
  ops : List UnaryOp
  goals : List Nat

/-- relaxation_heuristic.cc:50-108 -/
def RTask.ofTask (t : Task) : RTask := ⟨countFacts t, simplify (allUnaryOperators t), t.goal.map (propId t)⟩

/-- relaxation_heuristic.cc:93-99: `precondition_of` of a proposition -/
def RTask.precondOf (R : RTask) (p : Nat) : List Nat := R.ops.zipIdx.flatMap (fun x => (x.1.pre.filter (· == p)).map (fun _ => x.2))

/-- the two heuristics -/
inductive Kind where
  | max | add
deriving DecidableEq

/-- additive_heuristic.h:32 -/
def maxCost : Nat := 100000000

/-- max_heuristic.cc:74-75 and additive_heuristic.cc:82, additive_heuristic.h:54-62: the new cost of
a unary operator with the given base cost and cost, for a precondition of cost `c` -/
def accum : Kind → Nat → Nat → Nat → Option Nat
  | .max, base, cost, c => if base + c < 2 ^ 31 then some (Nat.max cost (base + c)) else none
  | .add, _, cost, c => if cost + c < 2 ^ 31 then some (Nat.min maxCost (cost + c)) else none

/-- the members that change: cost (`none` is -1) and reached_by (`none` is NO_OP) of propositions, cost
and unsatisfied_preconditions of unary operators, the queue -/
structure RSt where
  cost : Nat → Option Nat
  reached : Nat → Option Nat
  opCost : Nat → Nat
  unsat : Nat → Int
  queue : Queue Nat

/-- assignment to an array element -/
def upd {α : Type} (f : Nat → α) (i : Nat) (x : α) : Nat → α := fun j => if j = i then x else f j

section
variable (H : StdHeap Nat) (K : Kind) (R : RTask)

/-- max_heuristic.h:24-32 and additive_heuristic.h:42-51, where the proposition is updated -/
def RSt.update (st : RSt) (p c : Nat) (op : Option Nat) : Option RSt :=
  (st.queue.push H c p).map (fun q => { st with cost := upd st.cost p (some c), reached := upd st.reached p op, queue := q })

/-- max_heuristic.h:24-32 and additive_heuristic.h:42-51 -/
def RSt.enqueue (st : RSt) (p c : Nat) (op : Option Nat) : Option RSt :=
  if p < R.numProps then
    match st.cost p with
    | none => st.update H p c op
    | some old => if old > c then st.update H p c op else some st
  else none

/-- max_heuristic.cc:43-50 and additive_heuristic.cc:52-59 for the unary operators with ids from `i` -/
def setupOps : List UnaryOp → Nat → RSt → Option RSt
  | [], _, st => some st
  | o :: os, i, st =>
    let st := { st with unsat := upd st.unsat i o.pre.length, opCost := upd st.opCost i o.base }
    if o.pre.length = 0 then
      match st.enqueue H R o.eff o.base (some i) with
      | none => none
      | some st => setupOps os (i + 1) st
    else setupOps os (i + 1) st

/-- max_heuristic.cc:53-58 and additive_heuristic.cc:62-67 for the propositions of the state -/
def setupState : List Nat → RSt → Option RSt
  | [], st => some st
  | p :: ps, st =>
    match st.enqueue H R p 0 none with
    | none => none
    | some st => setupState ps st

/-- max_heuristic.cc:36-58 and additive_heuristic.cc:43-67; `facts` are the propositions of the state -/
def setup (facts : List Nat) (st : RSt) : Option RSt :=
  match st.queue.clear with
  | none => none
  | some q =>
    match setupOps H R R.ops 0 { st with cost := fun _ => none, queue := q } with
    | none => none
    | some st => setupState H R facts st

/-- max_heuristic.cc:71-80 and additive_heuristic.cc:78-87: the loop over the unary operators with
the ids given, for a proposition of cost `c` -/
def relax (c : Nat) : List Nat → RSt → Option RSt
  | [], st => some st
  | i :: is, st =>
    match R.ops[i]? with
    | none => none
    | some o =>
      match accum K o.base (st.opCost i) c with
      | none => none
      | some oc =>
        let st := { st with opCost := upd st.opCost i oc, unsat := upd st.unsat i (st.unsat i - 1) }
        if st.unsat i = 0 then
          match st.enqueue H R o.eff oc (some i) with
          | none => none
          | some st => relax c is st
        else relax c is st

/-- what an iteration of the loop does -/
inductive Iter where
  | done (st : RSt)
  | next (unsolved : Int) (st : RSt)

/-- max_heuristic.cc:62-81 and additive_heuristic.cc:71-88: one iteration -/
def iteration (unsolved : Int) (st : RSt) : Option Iter :=
  match st.queue.pop H with
  | none => none
  | some (q, d, p) =>
    if p < R.numProps then
      match st.cost p with
      | none => some (.next unsolved { st with queue := q })
      | some c =>
        if c < d then some (.next unsolved { st with queue := q })
        else if R.goals.contains p then
          if unsolved - 1 = 0 then some (.done { st with queue := q })
          else (relax H K R c (R.precondOf p) { st with queue := q }).map (.next (unsolved - 1))
        else (relax H K R c (R.precondOf p) { st with queue := q }).map (.next unsolved)
    else none

/-- max_heuristic.cc:60-82 and additive_heuristic.cc:69-89 -/
def explore (unsolved : Int) (st : RSt) : Option RSt :=
  if st.queue.empty then some st
  else
    match iteration H K R unsolved st with
    | none => none
    | some (.done st) => some st
    | some (.next unsolved st) => explore unsolved st
partial_fixpoint

/-- max_heuristic.cc:91-99 and additive_heuristic.cc:119-126: the loop over the goals; the
result is `some none` for DEAD_END -/
def goalCost (st : RSt) : List Nat → Nat → Option (Option Nat)
  | [], total => some (some total)
  | g :: gs, total =>
    if g < R.numProps then
      match st.cost g with
      | none => some none
      | some c =>
        match accum K 0 total c with
        | none => none
        | some total => goalCost st gs total
    else none

/-- max_heuristic.cc:84-100 and additive_heuristic.cc:114-128: the value and the members afterwards -/
def compute (facts : List Nat) (st : RSt) : Option (Option Nat × RSt) :=
  match setup H R facts st with
  | none => none
  | some st =>
    match explore H K R R.goals.length st with
    | none => none
    | some st => (goalCost K R st R.goals 0).map (fun v => (v, st))

/-- what mark_preferred_operators and mark_preferred_operators_and_relaxed_plan change: the propositions
marked, relaxed_plan, and the operators for which set_preferred is called -/
structure Marks where
  marked : Nat → Bool
  plan : Nat → Bool
  preferred : List Nat

/-- ff_heuristic.cc:38-49 and additive_heuristic.cc:104-110 -/
def Marks.useOp (m : Marks) (opNo : Option Nat) (isPref : Bool) : Marks :=
  match opNo with
  | none => m
  | some no => { m with plan := upd m.plan no true, preferred := if isPref then m.preferred ++ [no] else m.preferred }

mutual
/-- ff_heuristic.cc:23-52; additive_heuristic.cc:91-112 does the same without relaxed_plan -/
def markProp (st : RSt) (p : Nat) (m : Marks) : Option Marks :=
  if p < R.numProps then
    if m.marked p then some m
    else
      match st.reached p with
      | none => some { m with marked := upd m.marked p true }
      | some i =>
        match R.ops[i]? with
        | none => none
        | some o =>
          markPre st o.pre true { m with marked := upd m.marked p true } >>= fun r => some (r.2.useOp o.opNo r.1)
  else none
partial_fixpoint
/-- ff_heuristic.cc:32-37: the loop over the preconditions -/
def markPre (st : RSt) (ps : List Nat) (isPref : Bool) (m : Marks) : Option (Bool × Marks) :=
  match ps with
  | [] => some (isPref, m)
  | p :: ps =>
    markProp st p m >>= fun m => markPre st ps (if (st.reached p).isSome then false else isPref) m
partial_fixpoint
end

/-- ff_heuristic.cc:61-63 and additive_heuristic.cc:134-136 -/
def markGoals (st : RSt) : List Nat → Marks → Option Marks
  | [], m => some m
  | g :: gs, m =>
    match markProp R st g m with
    | none => none
    | some m => markGoals st gs m

/-- ff_heuristic.cc:65-72 for the operators `i ..< i + costs.length` with the given costs -/
def sumPlan (plan : Nat → Bool) : List Nat → Nat → Nat → Option Nat
  | [], _, h => some h
  | c :: cs, i, h =>
    if plan i then if h + c < 2 ^ 31 then sumPlan plan cs (i + 1) (h + c) else none
    else sumPlan plan cs (i + 1) h

end

/-- the propositions of a state, in the order of variables -/
def factsOf (t : Task) (s : State) : List Nat := s.zipIdx.map (fun p => propId t ⟨p.2, p.1⟩)

section
variable (H : StdHeap Nat) (t : Task)

/-- max_heuristic.cc:84-100; `st` is what previous evaluations left in the members -/
def hmax (s : State) (st : RSt) : Option (Option Nat × RSt) := compute H .max (RTask.ofTask t) (factsOf t s) st

/-- additive_heuristic.cc:130-138: the value and the preferred operators -/
def hadd (s : State) (st : RSt) : Option ((Option Nat × List Nat) × RSt) :=
  match compute H .add (RTask.ofTask t) (factsOf t s) st with
  | none => none
  | some (none, st) => some ((none, []), st)
  | some (some h, st) => (markGoals (RTask.ofTask t) st (RTask.ofTask t).goals ⟨fun _ => false, fun _ => false, []⟩).map (fun m => ((some h, m.preferred), st))

/-- what the FF heuristic returns: the value, the operators in the relaxed plan, the preferred operators -/
structure FFResult where
  value : Nat
  plan : Nat → Bool
  preferred : List Nat

/-- ff_heuristic.cc:54-74; afterwards relaxed_plan is false everywhere, as in the beginning -/
def hff (s : State) (st : RSt) : Option (Option FFResult × RSt) :=
  match compute H .add (RTask.ofTask t) (factsOf t s) st with
  | none => none
  | some (none, st) => some (none, st)
  | some (some _, st) =>
    match markGoals (RTask.ofTask t) st (RTask.ofTask t).goals ⟨fun _ => false, fun _ => false, []⟩ with
    | none => none
    | some m => (sumPlan m.plan (t.ops.map (·.cost)) 0 0).map (fun h => (some ⟨h, m.plan, m.preferred⟩, st))

/-- the members before the first evaluation; the queue is empty -/
def RSt.init : RSt := ⟨fun _ => none, fun _ => none, fun _ => 0, fun _ => 0, Queue.new⟩

/-- consecutive evaluations of the same heuristic object: each starts with the members as the previous
ones left them -/
def evalAll {α : Type} (f : State → RSt → Option (α × RSt)) : List State → RSt → Option (List α)
  | [], _ => some []
  | s :: ss, st =>
    match f s st with
    | none => none
    | some (a, st) => (evalAll f ss st).map (a :: ·)

end

end Verif.Relax
