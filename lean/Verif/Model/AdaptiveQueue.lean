/-
Model of src/search/algorithms/priority_queues.h (HeapQueue, BucketQueue, AdaptiveQueue).

Keys are the valid keys of the code (non-negative ints, `is_valid_key` in lines 75-78 and
148-151), so they are natural numbers here; `num_pushes` is unbounded (the code asserts that
it does not overflow, line 186).  `none` is undefined behaviour (index out of range, popping
from an empty queue).

The functions of std::priority_queue (std::push_heap and std::pop_heap) are parameters with
the contract of the C++ standard, so the theorems hold for every standard library.
-/
namespace Verif.AdaptiveQueue

abbrev Entry (V : Type) := Nat × V

/-- [alg.heap.operations]: `c` is a heap with respect to the comparison in
priority_queues.h:80-84: `comp(c[(i-1)/2], c[i])` is false for all positions i > 0 -/
def IsHeap {V : Type} (c : List (Entry V)) : Prop :=
  ∀ (i : Nat) (p x : Entry V), 0 < i → c[(i - 1) / 2]? = some p → c[i]? = some x → p.1 ≤ x.1

/-- std::push_heap and std::pop_heap with their contracts: nothing is promised if the
range is not a heap -/
structure StdHeap (V : Type) where
  /-- `push_heap` applied to the heap `c` followed by the new element `x` -/
  pushHeap : List (Entry V) → Entry V → List (Entry V)
  /-- `pop_heap` without the last element (the old first element) -/
  popHeap : List (Entry V) → List (Entry V)
  push_ok : ∀ c x, IsHeap c → IsHeap (pushHeap c x) ∧ (pushHeap c x).Perm (x :: c)
  pop_ok : ∀ x c, IsHeap (x :: c) → IsHeap (popHeap (x :: c)) ∧ (popHeap (x :: c)).Perm c

/-- priority_queues.h:136-146 -/
structure BucketQ (V : Type) where
  buckets : List (List V)
  cur : Nat
  numEntries : Int
  numPushes : Int

/-- priority_queues.h:153-158 -/
def updateCur {V : Type} (buckets : List (List V)) (cur : Nat) : Nat :=
  if h : cur < buckets.length then
    if (buckets[cur]).isEmpty then updateCur buckets (cur + 1) else cur
  else cur
termination_by buckets.length - cur

/-- priority_queues.h:165-172 (the queue itself is deleted afterwards, so emptying the
buckets is not modelled) -/
def extractLoop {V : Type} (buckets : List (List V)) (key : Nat) (numEntries : Int) (acc : List (Entry V)) : Option (List (Entry V)) :=
  if numEntries = 0 then some acc
  else if h : key < buckets.length then
    extractLoop buckets (key + 1) (numEntries - buckets[key].length) (acc ++ buckets[key].map (fun v => (key, v)))
  else none
termination_by buckets.length - key

/-- priority_queues.h:182-193 -/
def BucketQ.push {V : Type} (q : BucketQ V) (key : Nat) (v : V) : Option (BucketQ V) :=
  let buckets := if key ≥ q.buckets.length then q.buckets ++ List.replicate (key + 1 - q.buckets.length) [] else q.buckets
  let cur := if key ≥ q.buckets.length then q.cur else if key < q.cur then key else q.cur
  if h : key < buckets.length then
    some { buckets := buckets.set key (buckets[key] ++ [v]), cur := cur, numEntries := q.numEntries + 1, numPushes := q.numPushes + 1 }
  else none

/-- priority_queues.h:195-203 -/
def BucketQ.pop {V : Type} (q : BucketQ V) : Option (BucketQ V × Entry V) :=
  let cur := updateCur q.buckets q.cur
  if h : cur < q.buckets.length then
    match q.buckets[cur].getLast? with
    | none => none
    | some v => some ({ q with buckets := q.buckets.set cur q.buckets[cur].dropLast, cur := cur, numEntries := q.numEntries - 1 }, (cur, v))
  else none

/-- priority_queues.h:210-216 -/
def clearLoop {V : Type} (buckets : List (List V)) (i : Nat) (numEntries : Int) : Option (List (List V)) :=
  if numEntries = 0 then some buckets
  else if h : i < buckets.length then clearLoop (buckets.set i []) (i + 1) (numEntries - buckets[i].length)
  else none
termination_by buckets.length - i
decreasing_by simp; omega

/-- priority_queues.h:209-220 -/
def BucketQ.clear {V : Type} (q : BucketQ V) : Option (BucketQ V) := do
  let b ← clearLoop q.buckets q.cur q.numEntries
  some { buckets := b, cur := 0, numEntries := 0, numPushes := 0 }

/-- priority_queues.h:244-245: the wrapped queue -/
inductive Queue (V : Type) where
  | bucket (q : BucketQ V)
  | heap (c : List (Entry V))

/-- priority_queues.h:176, 252 -/
def Queue.new {V : Type} : Queue V := .bucket { buckets := [], cur := 0, numEntries := 0, numPushes := 0 }

/-- priority_queues.h:222-236 (and 46-59 for the heap), 121-129, 160-174 -/
def Queue.convertIfNecessary {V : Type} (q : Queue V) (key : Nat) : Option (Queue V) :=
  match q with
  | .bucket b => if key ≥ 100 ∧ (key : Int) > b.numPushes then (extractLoop b.buckets b.cur b.numEntries []).map .heap else some q
  | .heap _ => some q

/-- priority_queues.h:259-266 -/
def Queue.push {V : Type} (H : StdHeap V) (q : Queue V) (key : Nat) (v : V) : Option (Queue V) := do
  match ← q.convertIfNecessary key with
  | .bucket b => (b.push key v).map .bucket
  | .heap c => some (.heap (H.pushHeap c (key, v)))

/-- priority_queues.h:268-270, 106-111, 195-203 -/
def Queue.pop {V : Type} (H : StdHeap V) (q : Queue V) : Option (Queue V × Entry V) :=
  match q with
  | .bucket b => b.pop.map (fun (b, e) => (.bucket b, e))
  | .heap [] => none
  | .heap (x :: c) => some (.heap (H.popHeap (x :: c)), x)

/-- priority_queues.h:272-274, 113-115, 205-207 -/
def Queue.empty {V : Type} : Queue V → Bool
  | .bucket b => b.numEntries == 0
  | .heap c => c.isEmpty

/-- priority_queues.h:276-278, 117-119, 209-220 -/
def Queue.clear {V : Type} : Queue V → Option (Queue V)
  | .bucket b => b.clear.map .bucket
  | .heap _ => some (.heap [])

/-- priority_queues.h:280-282, 131-132, 238-240 -/
def Queue.addVirtualPushes {V : Type} (q : Queue V) (n : Int) : Queue V :=
  match q with
  | .bucket b => .bucket { b with numPushes := b.numPushes + n }
  | .heap c => .heap c

/-- the public operations -/
inductive Op (V : Type) where
  | push (key : Nat) (v : V)
  | pop
  | empty
  | clear
  | addVirtualPushes (n : Int)

/-- what an operation returns -/
inductive Out (V : Type) where
  | unit
  | entry (key : Nat) (v : V)
  | bool (b : Bool)

def step {V : Type} (H : StdHeap V) (q : Queue V) : Op V → Option (Queue V × Out V)
  | .push k v => (q.push H k v).map (·, .unit)
  | .pop => (q.pop H).map (fun (q, k, v) => (q, .entry k v))
  | .empty => some (q, .bool q.empty)
  | .clear => q.clear.map (·, .unit)
  | .addVirtualPushes n => some (q.addVirtualPushes n, .unit)

def run {V : Type} (H : StdHeap V) : Queue V → List (Op V) → Option (List (Out V))
  | _, [] => some []
  | q, op :: ops => do
    let (q', o) ← step H q op
    let os ← run H q' ops
    some (o :: os)

end Verif.AdaptiveQueue
