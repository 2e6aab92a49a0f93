/-
Model of src/search/algorithms/int_hash_set.h.

Simplifications: `num_resizes` (statistics only) is left out.  Array indices are `Nat`.
The hash functor and the equality functor are arbitrary functions.  Loops and the mutual
recursion insert → enlarge → rehash → insert are driven by explicit fuel; running out of
fuel is the separate outcome `diverge`, an access outside the bucket vector is `ub`.
-/
namespace Verif.IntHashSet

/-- Outcomes of an operation. -/
inductive Outcome (α : Type) where
  | ok (a : α)
  /-- the program prints a message and exits with SEARCH_CRITICAL_ERROR -/
  | abort
  /-- `int new_capacity` does not fit: int_hash_set.h:142 with 2^30 buckets -/
  | overflow
  /-- access outside the bucket vector -/
  | ub
  /-- a loop or recursion was cut off by the fuel -/
  | diverge
deriving Repr

def Outcome.bind {α β : Type} : Outcome α → (α → Outcome β) → Outcome β
  | .ok a, f => f a
  | .abort, _ => .abort
  | .overflow, _ => .overflow
  | .ub, _ => .ub
  | .diverge, _ => .diverge

instance : Monad Outcome where
  pure := .ok
  bind := Outcome.bind

def Outcome.ofOption {α : Type} : Option α → Outcome α
  | some a => .ok a
  | none => .ub

/-- int_hash_set.h:81 -/
def MAX_DISTANCE : Nat := 32
/-- int_hash_set.h:82-83 (`numeric_limits<unsigned int>::max()`) -/
def MAX_BUCKETS : Nat := 2 ^ 32 - 1

/-- int_hash_set.h:85-100; an empty bucket has key -1 and hash 0. -/
structure Bucket where
  key : Int := -1
  hash : Nat := 0
deriving Repr, DecidableEq

/-- int_hash_set.h:97-99 -/
def Bucket.full (b : Bucket) : Bool := b.key ≠ -1

/-- int_hash_set.h:102-106 -/
structure Table where
  buckets : List Bucket
  numEntries : Nat
deriving Repr

/-- int_hash_set.h:108-110 -/
def Table.capacity (t : Table) : Nat := t.buckets.length

/-- int_hash_set.h:270-276 -/
def Table.empty : Table := { buckets := [{}], numEntries := 0 }

/-- int_hash_set.h:145-153 `get_bucket`, for a vector of `n` buckets -/
def getBucket (n hash : Nat) : Nat := hash &&& (n - 1)

/-- int_hash_set.h:159-167 `get_distance` -/
def getDistance (n i j : Nat) : Nat := if j ≥ i then j - i else n + j - i

/-- int_hash_set.h:169-176 `find_next_free_bucket_index` -/
def findFree (bs : List Bucket) : Nat → Nat → Outcome Nat
  | 0, _ => .diverge
  | fuel + 1, i =>
    match bs[i]? with
    | none => .ub
    | some b => if b.full then findFree bs fuel (getBucket bs.length (i + 1)) else .ok i

/-- int_hash_set.h:181-188, the probe loop of `find_equal_key`: `m` iterations left, at
offset `i`. -/
def findEqualLoop (equal : Int → Int → Bool) (bs : List Bucket) (key : Int) (hash : Nat) :
    (m i : Nat) → Outcome (Option Int)
  | 0, _ => .ok none
  | m + 1, i =>
    match bs[getBucket bs.length (getBucket bs.length hash + i)]? with
    | none => .ub
    | some b =>
      if b.full && b.hash == hash && equal b.key key then .ok (some b.key)
      else findEqualLoop equal bs key hash m (i + 1)

/-- int_hash_set.h:178-190 `find_equal_key`; `none` is `empty_bucket_key` -/
def findEqual (equal : Int → Int → Bool) (bs : List Bucket) (key : Int) (hash : Nat) :
    Outcome (Option Int) :=
  findEqualLoop equal bs key hash MAX_DISTANCE 0

/-- int_hash_set.h:239-254, the `for (offset = max_offset; offset >= 1; --offset)` loop:
returns the candidate index to swap with, if any. -/
def findCandidate (bs : List Bucket) (free : Nat) : Nat → Outcome (Option Nat)
  | 0 => .ok none
  | offset + 1 =>
    let cand := getBucket bs.length (free + bs.length - (offset + 1))
    match bs[cand]? with
    | none => .ub
    | some b =>
      if getDistance bs.length (getBucket bs.length b.hash) free < MAX_DISTANCE then
        .ok (some cand)
      else findCandidate bs free offset

/-- `std::swap(buckets[i], buckets[j])` -/
def swapB (bs : List Bucket) (i j : Nat) : Outcome (List Bucket) :=
  match bs[i]?, bs[j]? with
  | some x, some y => .ok ((bs.set i y).set j x)
  | _, _ => .ub

/-- int_hash_set.h:235-261, the hopscotch loop.  Result: the (possibly permuted) buckets
and `some free_index`, or `none` if the free bucket could not be moved close enough. -/
def hopLoop (ideal : Nat) : Nat → List Bucket → Nat → Outcome (List Bucket × Option Nat)
  | 0, _, _ => .diverge
  | fuel + 1, bs, free =>
    if getDistance bs.length ideal free ≥ MAX_DISTANCE then do
      match ← findCandidate bs free (min MAX_DISTANCE bs.length - 1) with
      | none => .ok (bs, none)
      | some cand =>
        let bs' ← swapB bs cand free
        hopLoop ideal fuel bs' cand
    else .ok (bs, some free)

/-- int_hash_set.h:222-264 -/
def tryPlace (t : Table) (key : Int) (hash : Nat) : Outcome (Table × Bool) := do
  let ideal := getBucket t.capacity hash
  let free ← findFree t.buckets (t.capacity + 1) ideal
  match ← hopLoop ideal (t.capacity + 1) t.buckets free with
  | (bs, some f) => .ok ({ buckets := bs.set f { key, hash }, numEntries := t.numEntries + 1 }, true)
  | (bs, none) => .ok ({ t with buckets := bs }, false)

/-- int_hash_set.h:112-127 `rehash`, with the recursive `insert` passed in. -/
def rehashWith (ins : Table → Int → Nat → Outcome (Table × Int × Bool)) (t : Table)
    (newCapacity : Nat) : Outcome Table :=
  t.buckets.foldlM (fun acc b =>
      if b.full then do
        let (acc', _) ← ins acc b.key b.hash
        pure acc'
      else pure acc)
    { buckets := List.replicate newCapacity {}, numEntries := 0 }

/-- int_hash_set.h:129-143 `enlarge`.  `num_buckets * 2` is passed as an `int`. -/
def enlargeWith (ins : Table → Int → Nat → Outcome (Table × Int × Bool)) (t : Table) :
    Outcome Table :=
  if t.capacity > MAX_BUCKETS / 2 then .abort
  else if t.capacity * 2 ≥ 2 ^ 31 then .overflow
  else rehashWith ins t (t.capacity * 2)

/-- int_hash_set.h:217-219 -/
def growIfFull (ins : Table → Int → Nat → Outcome (Table × Int × Bool)) (t : Table) :
    Outcome Table :=
  if t.numEntries = t.capacity then enlargeWith ins t else .ok t

/-- int_hash_set.h:206-267, the private `insert(key, hash)`. -/
def insertF (equal : Int → Int → Bool) : Nat → Table → Int → Nat → Outcome (Table × Int × Bool)
  | 0, _, _, _ => .diverge
  | fuel + 1, t, key, hash => do
    match ← findEqual equal t.buckets key hash with
    | some k => .ok (t, k, false)
    | none =>
      let t1 ← growIfFull (insertF equal fuel) t
      let (t2, placed) ← tryPlace t1 key hash
      if placed then .ok (t2, key, true)
      else do
        let t3 ← enlargeWith (insertF equal fuel) t2
        insertF equal fuel t3 key hash

/-- Fuel for `insertF`: each recursive call works on at least twice as many buckets. -/
def FUEL : Nat := 33

/-- int_hash_set.h:289-292, the public `insert` -/
def Table.insert (hasher : Int → Nat) (equal : Int → Int → Bool) (t : Table) (key : Int) :
    Outcome (Table × Int × Bool) :=
  insertF equal FUEL t key (hasher key)

/-- int_hash_set.h:278-280 -/
def Table.size (t : Table) : Nat := t.numEntries

end Verif.IntHashSet
