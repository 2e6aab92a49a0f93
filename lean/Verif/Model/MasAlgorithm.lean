import Verif.Model.MasFts
import Verif.Model.EquivRel
import Mathlib.Data.Nat.Sqrt

/-
Model of src/search/merge_and_shrink/{label_reduction,utils,merge_and_shrink_algorithm,merge_and_shrink_heuristic}.cc.

The merge strategy, the shrink strategy and the timer are parameters: they choose arbitrarily in every iteration.
-/
namespace Verif.Mas
open Verif.AdaptiveQueue

section
variable (O : HashOrder) (H : StdHeap Nat)

/-! ### label reduction -/

/-- label_reduction.cc:129-136: the label groups with which the relation is refined for one transition system -/
def TS.groups (T : TS) : List (List Nat) := (T.infos.filter (·.active)).map (·.labels)

/-- label_reduction.cc:128-136: the label groups of all transition systems but one -/
def FTS.groupsExcept (F : FTS) (i : Nat) : List (List Nat) :=
  (F.indices.filter (fun j => decide (j ≠ i))).flatMap (fun j => match F.factor j with | none => [] | some f => f.ts.groups)

/-- label_reduction.cc:111-139: the blocks of the relation -/
def FTS.combinable (F : FTS) (i : Nat) : Option (List (List Nat)) :=
  match EquivRel.run (F.labels.active.map Int.ofNat) ((F.groupsExcept i).map (fun g => g.map Int.ofNat)) with
  | none => none
  | some r => (r.blocks).map (fun bs => bs.map (fun b => b.map Int.toNat))

/-- label_reduction.cc:78-100 for a block: the groups of at least two labels with the same cost, sorted -/
def costGroups (L : Labels) (b : List Nat) : Option (List (List Nat)) :=
  match buckets O L.cost b with
  | none => none
  | some bs => some (((bs.map (·.2)).filter (fun g => decide (1 < g.length))).map sortLabels)

/-- label_reduction.cc:70-109 -/
def labelMapping (L : Labels) (blocks : List (List Nat)) : Option (List (Nat × List Nat)) :=
  match mapAll (costGroups O L) blocks with
  | none => none
  | some gs => some (gs.flatten.zipIdx.map (fun p => (L.costs.length + p.2, p.1)))

/-- label_reduction.cc:162-180, 222-237: reduction for one transition system; also returns whether there is something to reduce -/
def FTS.reduceAt (F : FTS) (i : Nat) : Option (FTS × Bool) :=
  match F.combinable i with
  | none => none
  | some blocks =>
    match labelMapping O F.labels blocks with
    | none => none
    | some [] => some (F, false)
    | some es => (F.applyLabelMapping es i).map (fun F => (F, true))

/-- label_reduction.h:28-32 -/
inductive Method where
  | two | all | fixpoint
deriving DecidableEq

/-- label_reduction.h:34-38; for RANDOM the result of shuffling -/
inductive Order where
  | regular | reverse | random (shuffled : List Nat)

/-- label_reduction.cc:48-68 for a task with `n` variables -/
def Order.list (n : Nat) : Order → Option (List Nat)
  | .regular => some (List.range (2 * n - 1))
  | .reverse => some (List.range (2 * n - 1)).reverse
  | .random l => if l.Perm (List.range (2 * n - 1)) then some l else none

/-- label_reduction.h:40-50 -/
structure Reduction where
  beforeShrinking : Bool
  beforeMerging : Bool
  method : Method
  order : Order

/-- label_reduction.cc:185-190: the first usable position of the order -/
def firstPos (order : List Nat) (n : Nat) : Option Nat :=
  (List.range order.length).find? (fun p => match order[p]? with | none => false | some x => decide (x < n))

/-- label_reduction.cc:243-252: the next usable position; undefined (an endless loop) if there is none -/
def nextPos (order : List Nat) (n p : Nat) : Option Nat :=
  ((List.range order.length).map (fun k => (p + 1 + k) % order.length)).find? (fun p => match order[p]? with | none => false | some x => decide (x < n))

/-- label_reduction.cc:218-242: one iteration; also returns the number of unsuccessful iterations -/
def reduceIter (order : List Nat) (p fails : Nat) (F : FTS) : Option (FTS × Nat) :=
  match order[p]? with
  | none => none
  | some i =>
    match F.factors[i]? with
    | none => none
    | some none => some (F, fails + 1)
    | some (some _) =>
      match F.reduceAt O i with
      | none => none
      | some (F, false) => some (F, fails + 1)
      | some (F, true) => some (F, 1)

/-- label_reduction.cc:218-254 with the number of iterations that are left -/
def reduceAllLoop (order : List Nat) : Nat → Nat → Nat → FTS → Option FTS
  | 0, _, _, F => some F
  | k + 1, p, fails, F =>
    match reduceIter O order p fails F with
    | none => none
    | some (F, fails) =>
      if fails = F.factors.length then some F
      else
        match nextPos order F.factors.length p with
        | none => none
        | some p => reduceAllLoop order k p fails F

/-- label_reduction.cc:141-256 for a task with `n` variables -/
def FTS.reduce (r : Reduction) (n : Nat) (pair : Nat × Nat) (F : FTS) : Option FTS :=
  match r.method with
  | .two =>
    match F.factor pair.1, F.factor pair.2, F.reduceAt O pair.1 with
    | some _, some _, some (F, _) => (F.reduceAt O pair.2).map (·.1)
    | _, _, _ => none
  | .all =>
    match r.order.list n with
    | none => none
    | some order =>
      match firstPos order F.factors.length with
      | none => none
      | some p => reduceAllLoop O order F.factors.length p 0 F
  | .fixpoint =>
    match r.order.list n with
    | none => none
    | some order =>
      match firstPos order F.factors.length with
      | none => none
      | some p => reduceAllLoop O order inf p 0 F

/-! ### shrinking and pruning -/

/-- utils.cc:18-53.  `int(sqrt(n))` for an int is the integer square root. -/
def shrinkSizes (size1 size2 before after : Nat) : Option (Nat × Nat) :=
  if min size1 before * min size2 before ≤ after then some (min size1 before, min size2 before)
  else if min size1 before ≤ after.sqrt then
    if min size1 before = 0 then none else some (min size1 before, after / min size1 before)
  else if min size2 before ≤ after.sqrt then
    if min size2 before = 0 then none else some (after / min size2 before, min size2 before)
  else some (after.sqrt, after.sqrt)

/-- utils.cc:62-91; `S` is the shrink strategy -/
def FTS.shrinkFactor (S : TS → Distances → Nat → Option (List (List Nat))) (F : FTS) (i newSize threshold : Nat) : Option FTS :=
  match F.factor i with
  | none => none
  | some f =>
    if f.ts.size > min newSize threshold then
      match S f.ts f.dist newSize with
      | none => none
      | some rel => F.applyAbstraction H i rel
    else some F

/-- utils.cc:93-126; `S1` and `S2` are the choices of the shrink strategy for the two factors -/
def FTS.shrinkStep (S1 S2 : TS → Distances → Nat → Option (List (List Nat))) (maxStates before threshold : Nat) (F : FTS) (i j : Nat) : Option FTS :=
  match F.factor i, F.factor j with
  | some f, some g =>
    match shrinkSizes f.ts.size g.ts.size before maxStates with
    | none => none
    | some (n1, n2) =>
      match F.shrinkFactor H S1 i n1 threshold with
      | none => none
      | some F => F.shrinkFactor H S2 j n2 threshold
  | _, _ => none

/-- is the distance infinite? Undefined if the distances have not been computed. -/
def isInf (ds : Option (List Nat)) (s : Nat) : Option Bool :=
  match ds with
  | none => none
  | some ds => (ds[s]?).map (fun d => decide (d = inf))

/-- utils.cc:145-159: is the state kept? -/
def keep (d : Distances) (unreachable irrelevant : Bool) (s : Nat) : Option Bool :=
  match (if unreachable then isInf d.init s else some false), (if irrelevant then isInf d.goal s else some false) with
  | some a, some b => some (!(a || b))
  | _, _ => none

/-- utils.cc:128-172 -/
def FTS.pruneStep (unreachable irrelevant : Bool) (F : FTS) (i : Nat) : Option FTS :=
  match F.factor i with
  | none => none
  | some f =>
    match mapAll (keep f.dist unreachable irrelevant) (List.range f.ts.size) with
    | none => none
    | some ks => F.applyAbstraction H i (((List.range f.ts.size).filter (fun s => ks[s]? == some true)).map (fun s => [s]))

/-- transition_system.cc:554-563, factored_transition_system.cc:220-223 -/
def Factor.solvable (f : Factor) : Option Bool :=
  match f.ts.init with
  | none => some false
  | some i =>
    match f.dist.goal with
    | none => some true
    | some ds => (ds[i]?).map (fun d => decide (d ≠ inf))

/-- factored_transition_system.cc:225-237 -/
def Factor.trivial (f : Factor) : Bool := f.repr.total && f.ts.goals.all id

/-! ### the algorithm -/

/-- merge_and_shrink_algorithm.cc:69-121; `none` for the calls of verify_argument that fail -/
def shrinkLimits (maxStates before threshold : Int) : Option (Int × Int × Int) :=
  let m := if maxStates = -1 ∧ before = -1 then 50000 else maxStates
  let b := if before = -1 then m else before
  let m := if before ≠ -1 ∧ m = -1 then (if b * b ≤ inf then b * b else (inf : Int)) else m
  let b := if b > m then m else b
  if m ≥ 1 ∧ b ≥ 1 then
    let t := if threshold = -1 then m else threshold
    if t ≥ 1 then some (m, b, if t > m then m else t) else none
  else none

/-- the options of the algorithm (merge_and_shrink_algorithm.h:29-50) and the arbitrary choices of the strategies and the timer, by iteration.
`needsInit` and `needsGoal` say whether the strategies require distances. -/
structure Config where
  needsInit : Bool
  needsGoal : Bool
  unreachable : Bool
  irrelevant : Bool
  reduction : Option Reduction
  maxStates : Nat
  before : Nat
  threshold : Nat
  timed : Bool
  pair : Nat → FTS → Nat × Nat
  shrink1 : Nat → TS → Distances → Nat → Option (List (List Nat))
  shrink2 : Nat → TS → Distances → Nat → Option (List (List Nat))
  expired : Nat → Nat → Bool

variable (c : Config)

/-- merge_and_shrink_algorithm.cc:411-414 -/
def Config.ci : Bool := c.needsInit || c.unreachable

/-- merge_and_shrink_algorithm.cc:415-418 -/
def Config.cg : Bool := c.needsGoal || c.irrelevant

/-- merge_and_shrink_algorithm.cc:290-296, 316-322 -/
def reduceIf (b : Reduction → Bool) (n : Nat) (pair : Nat × Nat) (F : FTS) : Option FTS :=
  match c.reduction with
  | none => some F
  | some r => if b r then F.reduce O r n pair else some F

/-- prune_step if at least one kind of pruning is used: merge_and_shrink_algorithm.cc:345-355, 432-437 -/
def pruneIf (F : FTS) (i : Nat) : Option FTS := if c.unreachable || c.irrelevant then F.pruneStep H c.unreachable c.irrelevant i else some F

def FTS.solvable (F : FTS) (i : Nat) : Option Bool :=
  match F.factor i with
  | none => none
  | some f => f.solvable

/-- merge_and_shrink_algorithm.cc:344-376: after merging; also returns whether to go on -/
def afterMerge (k : Nat) (F : FTS) (i : Nat) : Option (FTS × Bool) :=
  if c.expired k 4 then some (F, false)
  else
    match pruneIf H c F i with
    | none => none
    | some F =>
      match F.solvable i with
      | none => none
      | some false => some (F, false)
      | some true => some (F, !c.expired k 5)

/-- merge_and_shrink_algorithm.cc:324-376 -/
def mergeStep (k : Nat) (pair : Nat × Nat) (F : FTS) : Option (FTS × Bool) :=
  if c.expired k 3 then some (F, false)
  else
    match F.merge O H pair.1 pair.2 with
    | none => none
    | some F' => afterMerge H c k F' F.factors.length

/-- merge_and_shrink_algorithm.cc:312-376 -/
def reduceMerge (n k : Nat) (pair : Nat × Nat) (F : FTS) : Option (FTS × Bool) :=
  if c.expired k 2 then some (F, false)
  else
    match reduceIf O c (·.beforeMerging) n pair F with
    | none => none
    | some F => mergeStep O H c k pair F

/-- merge_and_shrink_algorithm.cc:298-376 -/
def shrinkMerge (n k : Nat) (pair : Nat × Nat) (F : FTS) : Option (FTS × Bool) :=
  if c.expired k 1 then some (F, false)
  else
    match F.shrinkStep H (c.shrink1 k) (c.shrink2 k) c.maxStates c.before c.threshold pair.1 pair.2 with
    | none => none
    | some F => reduceMerge O H c n k pair F

/-- merge_and_shrink_algorithm.cc:270-384: iteration `k` of the main loop for a task with `n` variables -/
def iteration (n k : Nat) (F : FTS) : Option (FTS × Bool) :=
  if c.expired k 0 then some (F, false)
  else
    match reduceIf O c (·.beforeShrinking) n (c.pair k F) F with
    | none => none
    | some F' => shrinkMerge O H c n k (c.pair k F) F'

/-- merge_and_shrink_algorithm.cc:269-385 -/
def mainLoop (n k : Nat) (F : FTS) : Option FTS :=
  if 1 < F.numActive then
    match iteration O H c n k F with
    | none => none
    | some (F, false) => some F
    | some (F, true) => mainLoop n (k + 1) F
  else some F
partial_fixpoint

/-- merge_and_shrink_algorithm.cc:431-444; also returns whether a factor is unsolvable -/
def pruneAtomic : List Nat → FTS → Option (FTS × Bool)
  | [], F => some (F, false)
  | i :: is, F =>
    match pruneIf H c F i with
    | none => none
    | some F =>
      match F.solvable i with
      | none => none
      | some false => some (F, true)
      | some true => pruneAtomic is F

/-- merge_and_shrink_algorithm.cc:394-460; a task with axioms is rejected (line 406).  `timed` says whether the time limit is greater than 0. -/
def build (t : Task) : Option FTS :=
  if t.axioms.isEmpty then
    match createFts H t c.ci c.cg with
    | none => none
    | some F =>
      match pruneAtomic H c (List.range F.factors.length) F with
      | none => none
      | some (F, unsolvable) => if !unsolvable && c.timed then mainLoop O H c t.vars.length 0 F else some F
  else none

/-! ### the heuristic -/

/-- merge_and_shrink_heuristic.cc:46-66 -/
def extractFactor (f : Factor) : Option Repr :=
  match f.dist.goal with
  | some ds => f.repr.setDistances ds
  | none =>
    match computeDistances H f.ts false true f.dist with
    | some ⟨_, some ds⟩ => f.repr.setDistances ds
    | _ => none

/-- merge_and_shrink_heuristic.cc:68-84: the first unsolvable factor; `none` inside if there is none -/
def unsolvableFactor : List Factor → Option (Option Factor)
  | [] => some none
  | f :: fs =>
    match f.solvable with
    | none => none
    | some false => some (some f)
    | some true => unsolvableFactor fs

/-- merge_and_shrink_heuristic.cc:68-124 -/
def extract (F : FTS) : Option (List Repr) :=
  match unsolvableFactor (F.factors.filterMap id) with
  | none => none
  | some (some f) => (extractFactor H f).map (fun r => [r])
  | some none => mapAll (extractFactor H) ((F.factors.filterMap id).filter (fun f => !f.trivial))

/-- merge_and_shrink_heuristic.cc:23-43 -/
def construct (t : Task) : Option (List Repr) :=
  match build O H c t with
  | none => none
  | some F => extract H F

/-- merge_and_shrink_heuristic.cc:128-138: the loop; the result `none` inside is DEAD_END -/
def heuristicLoop (s : State) : List Repr → Nat → Option (Option Nat)
  | [], h => some (some h)
  | r :: rs, h =>
    match r.value s with
    | none => none
    | some none => some none
    | some (some v) => if v = inf then some none else heuristicLoop s rs (max h v)

/-- merge_and_shrink_heuristic.cc:126-139 -/
def heuristic (rs : List Repr) (s : State) : Option (Option Nat) := heuristicLoop s rs 0

end
end Verif.Mas
