import Mathlib.Data.Int.Order.Basic
import Mathlib.Data.List.Lex

/-
Models of the containers inside the open lists, src/search/open_lists/*.cc.

`none` is undefined behaviour or a failed assertion.
Simplifications: counters and ids are unbounded; hash maps are association lists (their
iteration order is not observable in the modelled code); the random number generator
(utils/rng.h:24-50) is an arbitrary stream of natural numbers from which results in the
requested range are derived, so every sequence of results in range is covered.
-/
namespace Verif.OpenList

/-- evaluation_result.cc:5: EvaluationResult::INFTY -/
def infty : Int := 2147483647
/-- numeric_limits<int>::min() -/
def intMin : Int := -2147483648

/-- the part of an EvaluationContext (evaluation_context.h) visible to an open list: the
values of the evaluators (numbered) and whether the entry is preferred -/
structure Ctx where
  value : Nat → Int
  preferred : Bool

/-- evaluation_context.cc:75-77 -/
def Ctx.isInfinite (c : Ctx) (ev : Nat) : Bool := c.value ev == infty

/-- evaluation_context.cc:79-83 -/
def Ctx.getValue (c : Ctx) (ev : Nat) : Option Int := if c.value ev = infty then none else some (c.value ev)

/-- evaluation_context.cc:85-87 for a list of evaluators -/
def Ctx.key (c : Ctx) (evs : List Nat) : List Int := evs.map c.value

/-- utils/rng.h:14-51 -/
structure Rng where
  raw : Nat → Nat
  pos : Nat

/-- utils/rng.h:31-35 -/
def Rng.random (g : Rng) (bound : Nat) : Option (Nat × Rng) :=
  if bound = 0 then none else some (g.raw g.pos % bound, { g with pos := g.pos + 1 })

/-- utils/rng.h:25-28, compared with epsilon = p/q: the random double is a multiple of 2^-53 -/
def Rng.randomLt (g : Rng) (p q : Nat) : Bool × Rng :=
  (decide ((g.raw g.pos % 2 ^ 53) * q < p * 2 ^ 53), { g with pos := g.pos + 1 })

/-! ### best-first and tie-breaking: std::map from keys to deques -/

/-- best_first_open_list.cc:17-20, tiebreaking_open_list.cc:19-22; the map is sorted by key -/
structure BF (K E : Type) where
  buckets : List (K × List E)
  size : Int

def BF.new {K E : Type} : BF K E := ⟨[], 0⟩

/-- `buckets[key].push_back(entry)` on a std::map -/
def mapPush {K E : Type} [LinearOrder K] (k : K) (e : E) : List (K × List E) → List (K × List E)
  | [] => [(k, [e])]
  | (k', b) :: m =>
    if k < k' then (k, [e]) :: (k', b) :: m
    else if k' < k then (k', b) :: mapPush k e m
    else (k', b ++ [e]) :: m

/-- best_first_open_list.cc:51-52, tiebreaking_open_list.cc:72-73 -/
def BF.insert {K E : Type} [LinearOrder K] (s : BF K E) (k : K) (e : E) : BF K E :=
  { buckets := mapPush k e s.buckets, size := s.size + 1 }

/-- best_first_open_list.cc:56-68, tiebreaking_open_list.cc:77-89 -/
def BF.removeMin {K E : Type} (s : BF K E) : Option (E × BF K E) :=
  match s.buckets with
  | [] => none
  | (_, []) :: _ => none
  | (k, e :: b) :: m => some (e, { buckets := if b.isEmpty then m else (k, b) :: m, size := s.size - 1 })

/-- best_first_open_list.cc:71-73, tiebreaking_open_list.cc:92-94 -/
def BF.empty {K E : Type} (s : BF K E) : Bool := s.size == 0

/-- best_first_open_list.cc:76-79, tiebreaking_open_list.cc:97-100 -/
def BF.clear {K E : Type} (_ : BF K E) : BF K E := ⟨[], 0⟩

/-! ### pareto -/

/-- pareto_open_list.cc:25-31 -/
structure Pareto (E : Type) where
  buckets : List (List Int × List E)
  nondominated : List (List Int)

def Pareto.new {E : Type} : Pareto E := ⟨[], []⟩

/-- pareto_open_list.cc:73-80; the flag is `are_different` -/
def dominatesLoop : Bool → List Int → List Int → Bool
  | d, [], _ => d
  | _, _ :: _, [] => false
  | d, a :: as, b :: bs => if a > b then false else dominatesLoop (d || decide (a < b)) as bs

/-- pareto_open_list.cc:70-81 -/
def dominates (v1 v2 : List Int) : Bool := dominatesLoop false v1 v2

/-- pareto_open_list.cc:84-90 -/
def isNondominated (vec : List Int) (candidates : List (List Int)) : Bool := candidates.all (fun c => !dominates c vec)

/-- std::set::insert -/
def setInsert (k : List Int) : List (List Int) → List (List Int)
  | [] => [k]
  | k' :: m => if k < k' then k :: k' :: m else if k' < k then k' :: setInsert k m else k' :: m

/-- HashMap::operator[] followed by push_back; the flag tells whether the bucket was empty
(pareto_open_list.cc:131-133) -/
def hmPush {E : Type} (k : List Int) (e : E) : List (List Int × List E) → List (List Int × List E) × Bool
  | [] => ([(k, [e])], true)
  | (k', b) :: m => if k' = k then ((k', b ++ [e]) :: m, b.isEmpty) else (((k', b) :: (hmPush k e m).1), (hmPush k e m).2)

/-- pareto_open_list.cc:123-157 (the key is computed by the caller) -/
def Pareto.insert {E : Type} (s : Pareto E) (key : List Int) (e : E) : Pareto E :=
  let (buckets, newkey) := hmPush key e s.buckets
  { buckets := buckets,
    nondominated := if newkey && isNondominated key s.nondominated
      then setInsert key (s.nondominated.filter (fun k => !dominates key k)) else s.nondominated }

/-- pareto_open_list.cc:93-120 -/
def Pareto.removeKey {E : Type} (s : Pareto E) (key : List Int) : Pareto E :=
  let nd := s.nondominated.filter (· ≠ key)
  let buckets := s.buckets.filter (fun p => p.1 ≠ key)
  let candidates := (buckets.filter (fun p => !decide (p.1 ∈ nd) && dominates key p.1 && isNondominated p.1 nd)).foldl (fun c p => setInsert p.1 c) []
  { buckets := buckets, nondominated := (candidates.filter (fun c => isNondominated c candidates)).foldl (fun n c => setInsert c n) nd }

/-- pareto_open_list.cc:163-173 -/
def selectLoop (stateUniform : Bool) : List (List Int) → Nat → List Int → Rng → Option (List Int × Rng)
  | [], _, selected, g => some (selected, g)
  | key :: keys, seen, selected, g => do
    let numerator := if stateUniform then key.length else 1
    let (r, g1) ← g.random (seen + numerator)
    selectLoop stateUniform keys (seen + numerator) (if r < numerator then key else selected) g1

/-- the bucket of a key and the same map with the bucket replaced -/
def hmSet {E : Type} (k : List Int) (b' : List E) (m : List (List Int × List E)) : List (List Int × List E) :=
  m.map (fun p => if p.1 = k then (k, b') else p)

/-- pareto_open_list.cc:160-180 -/
def Pareto.removeMin {E : Type} (stateUniform : Bool) (s : Pareto E) (g : Rng) : Option (E × Pareto E × Rng) := do
  let first ← s.nondominated.head?
  let (selected, g1) ← selectLoop stateUniform s.nondominated 0 first g
  match s.buckets.find? (fun p => p.1 = selected) with
  | some (_, e :: b) =>
    let s1 : Pareto E := { s with buckets := hmSet selected b s.buckets }
    some (e, if b.isEmpty then s1.removeKey selected else s1, g1)
  | _ => none

/-- pareto_open_list.cc:183-185 -/
def Pareto.empty {E : Type} (s : Pareto E) : Bool := s.nondominated.isEmpty

/-- pareto_open_list.cc:188-191 -/
def Pareto.clear {E : Type} (_ : Pareto E) : Pareto E := ⟨[], []⟩

/-! ### epsilon-greedy -/

/-- epsilon_greedy_open_list.cc:22-33 -/
structure HeapNode (E : Type) where
  id : Int
  h : Int
  entry : E

/-- epsilon_greedy_open_list.cc:30-32 -/
def HeapNode.gt {E : Type} (a b : HeapNode E) : Bool := decide (a.h > b.h) || (decide (a.h = b.h) && decide (a.id > b.id))

/-- [alg.heap.operations] with `greater`: no parent is greater than its child -/
def IsHeap {E : Type} (c : List (HeapNode E)) : Prop :=
  ∀ (i : Nat) (p x : HeapNode E), 0 < i → c[(i - 1) / 2]? = some p → c[i]? = some x → p.gt x = false

/-- std::push_heap and std::pop_heap with their contracts (nothing is promised for ranges
which are not heaps) -/
structure StdHeap (E : Type) where
  pushHeap : List (HeapNode E) → HeapNode E → List (HeapNode E)
  popHeap : List (HeapNode E) → List (HeapNode E)
  push_ok : ∀ c x, IsHeap c → IsHeap (pushHeap c x) ∧ (pushHeap c x).Perm (x :: c)
  pop_ok : ∀ x c, IsHeap (x :: c) → IsHeap (popHeap (x :: c)) ∧ (popHeap (x :: c)).Perm c

/-- epsilon_greedy_open_list.cc:35-40 -/
structure Eps (E : Type) where
  heap : List (HeapNode E)
  size : Int
  nextId : Int

def Eps.new {E : Type} : Eps E := ⟨[], 0, 0⟩

/-- epsilon_greedy_open_list.cc:75-81 -/
def Eps.insert {E : Type} (H : StdHeap E) (s : Eps E) (h : Int) (e : E) : Eps E :=
  { heap := H.pushHeap s.heap ⟨s.nextId, h, e⟩, size := s.size + 1, nextId := s.nextId + 1 }

/-- epsilon_greedy_open_list.cc:62-72 -/
def adjustHeapUp {E : Type} (heap : List (HeapNode E)) (pos : Nat) : List (HeapNode E) :=
  if h0 : pos = 0 then heap
  else
    match heap[pos]?, heap[(pos - 1) / 2]? with
    | some x, some p => if x.gt p then heap else adjustHeapUp ((heap.set pos p).set ((pos - 1) / 2) x) ((pos - 1) / 2)
    | _, _ => heap
termination_by pos
decreasing_by omega

/-- epsilon_greedy_open_list.cc:98-102 -/
def Eps.perturb {E : Type} (s : Eps E) (p q : Nat) (g : Rng) : Option (List (HeapNode E) × Rng) :=
  if (g.randomLt p q).1 then do
    let (pos, g2) ← (g.randomLt p q).2.random s.size.toNat
    let x ← s.heap[pos]?
    some (adjustHeapUp (s.heap.set pos { x with h := intMin }) pos, g2)
  else some (s.heap, (g.randomLt p q).2)

/-- epsilon_greedy_open_list.cc:96-108; epsilon = p/q -/
def Eps.removeMin {E : Type} (H : StdHeap E) (p q : Nat) (s : Eps E) (g : Rng) : Option (E × Eps E × Rng) := do
  let (heap, g1) ← s.perturb p q g
  match heap with
  | [] => none
  | x :: c => some (x.entry, { s with heap := H.popHeap (x :: c), size := s.size - 1 }, g1)

/-- epsilon_greedy_open_list.cc:129-131 -/
def Eps.empty {E : Type} (s : Eps E) : Bool := s.size == 0

/-- epsilon_greedy_open_list.cc:134-138 -/
def Eps.clear {E : Type} (_ : Eps E) : Eps E := ⟨[], 0, 0⟩

/-! ### type-based -/

/-- utils/collections.h:50-57 -/
def swapAndPop {T : Type} (v : List T) (pos : Nat) : Option (T × List T) :=
  match v[pos]?, v.getLast? with
  | some x, some l => some (x, (v.set pos l).dropLast)
  | _, _ => none

/-- type_based_open_list.cc:25-28; the hash map from keys to indices is a function -/
structure TB (E : Type) where
  kb : List (List Int × List E)
  index : List Int → Option Nat

def TB.new {E : Type} : TB E := ⟨[], fun _ => none⟩

def updIndex (f : List Int → Option Nat) (k : List Int) (v : Option Nat) : List Int → Option Nat := fun x => if x = k then v else f x

/-- type_based_open_list.cc:49-67 -/
def TB.insert {E : Type} (s : TB E) (key : List Int) (e : E) : Option (TB E) :=
  match s.index key with
  | none => some { kb := s.kb ++ [(key, [e])], index := updIndex s.index key (some s.kb.length) }
  | some i => do
    let (k, b) ← s.kb[i]?
    some { s with kb := s.kb.set i (k, b ++ [e]) }

/-- type_based_open_list.cc:76-91 -/
def TB.removeMin {E : Type} (s : TB E) (g : Rng) : Option (E × TB E × Rng) := do
  let (i, g1) ← g.random s.kb.length
  let (k, b) ← s.kb[i]?
  let (pos, g2) ← g1.random b.length
  let (e, b') ← swapAndPop b pos
  let kb := s.kb.set i (k, b')
  if b'.isEmpty then do
    let (lastKey, _) ← kb.getLast?
    let index := updIndex (updIndex s.index lastKey (some i)) k none
    let (_, kb') ← swapAndPop kb i
    some (e, { kb := kb', index := index }, g2)
  else some (e, { s with kb := kb }, g2)

/-- type_based_open_list.cc:94-96 -/
def TB.empty {E : Type} (s : TB E) : Bool := s.kb.isEmpty

/-- type_based_open_list.cc:99-102 -/
def TB.clear {E : Type} (_ : TB E) : TB E := ⟨[], fun _ => none⟩

end Verif.OpenList
