/-
Model of src/search/algorithms/dynamic_bitset.h and of the views of
src/search/per_state_bitset.{h,cc}.  Blocks are `BitVec B`; the code uses
`B = numeric_limits<Block>::digits`, 32 for the default `unsigned int`.
`none` is a failed assertion or an access outside the block vector.
-/
namespace Verif.Bitset

/-- dynamic_bitset.h:18-19 -/
structure DB (B : Nat) where
  blocks : List (BitVec B)
  numBits : Nat

variable {B : Nat}

/-- dynamic_bitset.h:26-29 -/
def computeNumBlocks (B n : Nat) : Nat := n / B + (if n % B ≠ 0 then 1 else 0)

/-- per_state_bitset.cc:5-7 -/
def viewNumBlocks (B n : Nat) : Nat := (n + B - 1) / B

/-- dynamic_bitset.h:31-33 -/
def blockIndex (B pos : Nat) : Nat := pos / B

/-- dynamic_bitset.h:35-37 -/
def bitIndex (B pos : Nat) : Nat := pos % B

/-- dynamic_bitset.h:39-41 -/
def bitMask (B pos : Nat) : BitVec B := 1#B <<< bitIndex B pos

/-- dynamic_bitset.h:131 -/
def ones (B : Nat) : BitVec B := ~~~(0#B)

/-- dynamic_bitset.h:47-54 -/
def zeroUnusedBits (b : DB B) : Option (DB B) :=
  let k := bitIndex B b.numBits
  if k ≠ 0 then
    match b.blocks.getLast? with
    | none => none
    | some x => some { b with blocks := b.blocks.dropLast ++ [x &&& ~~~(ones B <<< k)] }
  else some b

/-- dynamic_bitset.h:57-59 -/
def DB.new (B n : Nat) : DB B := { blocks := List.replicate (computeNumBlocks B n) 0#B, numBits := n }

/-- dynamic_bitset.h:79-82 -/
def DB.setAll (b : DB B) : Option (DB B) :=
  zeroUnusedBits { b with blocks := List.replicate b.blocks.length (ones B) }

/-- dynamic_bitset.h:84-86, per_state_bitset.cc:33-37 -/
def DB.resetAll (b : DB B) : DB B := { b with blocks := List.replicate b.blocks.length 0#B }

/-- dynamic_bitset.h:88-91, per_state_bitset.cc:21-25 -/
def DB.set (b : DB B) (pos : Nat) : Option (DB B) :=
  if pos < b.numBits then
    (b.blocks[blockIndex B pos]?).map (fun x => { b with blocks := b.blocks.set (blockIndex B pos) (x ||| bitMask B pos) })
  else none

/-- dynamic_bitset.h:93-96, per_state_bitset.cc:27-31 -/
def DB.reset (b : DB B) (pos : Nat) : Option (DB B) :=
  if pos < b.numBits then
    (b.blocks[blockIndex B pos]?).map (fun x => { b with blocks := b.blocks.set (blockIndex B pos) (x &&& ~~~bitMask B pos) })
  else none

/-- dynamic_bitset.h:98-105, per_state_bitset.cc:39-43 and 79-83 -/
def DB.test (b : DB B) (pos : Nat) : Option Bool :=
  if pos < b.numBits then (b.blocks[blockIndex B pos]?).map (fun x => (x &&& bitMask B pos) != 0#B)
  else none

/-- the loop of dynamic_bitset.h:71-77 over positions `pos, ..., pos + k - 1` -/
def DB.countFrom (b : DB B) (pos : Nat) : Nat → Option Nat
  | 0 => some 0
  | k + 1 => do
    let t ← b.test pos
    let r ← b.countFrom (pos + 1) k
    some ((if t then 1 else 0) + r)

/-- dynamic_bitset.h:71-77 -/
def DB.count (b : DB B) : Option Nat := b.countFrom 0 b.numBits

/-- loop of dynamic_bitset.h:109-113 -/
def intersectsLoop : List (BitVec B) → List (BitVec B) → Option Bool
  | [], _ => some false
  | _ :: _, [] => none
  | x :: xs, y :: ys => if x &&& y ≠ 0#B then some true else intersectsLoop xs ys

/-- dynamic_bitset.h:107-114 -/
def DB.intersects (b c : DB B) : Option Bool :=
  if b.numBits = c.numBits then intersectsLoop b.blocks c.blocks else none

/-- loop of dynamic_bitset.h:118-122 -/
def subsetLoop : List (BitVec B) → List (BitVec B) → Option Bool
  | [], _ => some true
  | _ :: _, [] => none
  | x :: xs, y :: ys => if x &&& ~~~y ≠ 0#B then some false else subsetLoop xs ys

/-- dynamic_bitset.h:116-123 -/
def DB.isSubsetOf (b c : DB B) : Option Bool :=
  if b.numBits = c.numBits then subsetLoop b.blocks c.blocks else none

/-- loop of per_state_bitset.cc:47-49 -/
def intersectLoop : List (BitVec B) → List (BitVec B) → Option (List (BitVec B))
  | [], _ => some []
  | _ :: _, [] => none
  | x :: xs, y :: ys => (intersectLoop xs ys).map ((x &&& y) :: ·)

/-- per_state_bitset.cc:45-50 -/
def DB.intersect (b c : DB B) : Option (DB B) :=
  if b.numBits = c.numBits then (intersectLoop b.blocks c.blocks).map (fun l => { b with blocks := l }) else none

/-- loop of per_state_bitset.cc:62-66 -/
def packLoop (b : DB B) (i : Nat) : List Bool → Option (DB B)
  | [] => some b
  | x :: xs => if x then (b.set i).bind (fun b1 => packLoop b1 (i + 1) xs) else packLoop b (i + 1) xs

/-- per_state_bitset.cc:56-68 -/
def packBitVector (B : Nat) (bits : List Bool) : Option (DB B) :=
  packLoop { blocks := List.replicate (viewNumBlocks B bits.length) 0#B, numBits := bits.length } 0 bits

end Verif.Bitset
