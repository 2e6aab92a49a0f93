/-
Model of src/search/algorithms/segmented_vector.h (both classes).

Memory is explicit: a list of segments, each a list of cells; a cell is `none` when no
object is constructed in it.  Access outside a segment, reading or destroying an
unconstructed cell and constructing over a live cell are the outcome `none`.
-/
namespace Verif.SegmentedVector

abbrev Segments (α : Type) := List (List (Option α))

/-- read the object in cell `o` of segment `s` -/
def readCell {α : Type} (m : Segments α) (s o : Nat) : Option α := do
  let seg ← m[s]?
  let cell ← seg[o]?
  cell

/-- store into cell `o` of segment `s` (raw) -/
def putCell {α : Type} (m : Segments α) (s o : Nat) (c : Option α) : Option (Segments α) := do
  let seg ← m[s]?
  if o < seg.length then some (m.set s (seg.set o c)) else none

/-- `allocator_traits::construct` at an address: the cell must be dead -/
def construct {α : Type} (m : Segments α) (s o : Nat) (x : α) : Option (Segments α) := do
  let seg ← m[s]?
  let cell ← seg[o]?
  if cell.isSome then none else putCell m s o (some x)

/-- `allocator_traits::destroy`: the cell must be live -/
def destroy {α : Type} (m : Segments α) (s o : Nat) : Option (Segments α) := do
  let _ ← readCell m s o
  putCell m s o none

/-- assignment through a reference to a live object -/
def assign {α : Type} (m : Segments α) (s o : Nat) (x : α) : Option (Segments α) := do
  let _ ← readCell m s o
  putCell m s o (some x)

/-- segmented_vector.h:56, 158 -/
def SEGMENT_BYTES : Nat := 8192

/-- segmented_vector.h:58-60 -/
def segmentElements (sizeofEntry : Nat) : Nat :=
  if SEGMENT_BYTES / sizeofEntry ≥ 1 then SEGMENT_BYTES / sizeofEntry else 1

/-- segmented_vector.h:64-65; `perSeg` is SEGMENT_ELEMENTS -/
structure SV (α : Type) where
  perSeg : Nat
  segments : Segments α
  size : Nat

/-- segmented_vector.h:84-85 -/
def SV.empty (α : Type) (sizeofEntry : Nat) : SV α :=
  { perSeg := segmentElements sizeofEntry, segments := [], size := 0 }

/-- segmented_vector.h:102-114 `operator[]` (the assert is part of the model: `none`) -/
def SV.get {α : Type} (v : SV α) (i : Nat) : Option α :=
  if i < v.size then readCell v.segments (i / v.perSeg) (i % v.perSeg) else none

/-- assignment `v[i] = x` through the reference of `operator[]` -/
def SV.set {α : Type} (v : SV α) (i : Nat) (x : α) : Option (SV α) :=
  if i < v.size then do
    let m ← assign v.segments (i / v.perSeg) (i % v.perSeg) x
    some { v with segments := m }
  else none

/-- segmented_vector.h:120-131 `push_back`; 75-79 `add_segment` -/
def SV.push {α : Type} (v : SV α) (x : α) : Option (SV α) := do
  let s := v.size / v.perSeg
  let o := v.size % v.perSeg
  let segs := if s = v.segments.length then v.segments ++ [List.replicate v.perSeg none] else v.segments
  let m ← construct segs s o x
  some { v with segments := m, size := v.size + 1 }

/-- segmented_vector.h:133-142 `pop_back` -/
def SV.pop {α : Type} (v : SV α) : Option (SV α) :=
  if 0 < v.size then do
    let m ← destroy v.segments ((v.size - 1) / v.perSeg) ((v.size - 1) % v.perSeg)
    some { v with segments := m, size := v.size - 1 }
  else none

/-- segmented_vector.h:145-147 (number of iterations made explicit) -/
def SV.popN {α : Type} : Nat → SV α → Option (SV α)
  | 0, v => some v
  | n + 1, v => do (← v.pop).popN n

/-- segmented_vector.h:148-150 -/
def SV.pushN {α : Type} (x : α) : Nat → SV α → Option (SV α)
  | 0, v => some v
  | n + 1, v => do (← v.push x).pushN x n

/-- segmented_vector.h:144-151 `resize` -/
def SV.resize {α : Type} (v : SV α) (n : Nat) (x : α) : Option (SV α) := do
  let v1 ← v.popN (v.size - n)
  v1.pushN x (n - v1.size)

/-- segmented_vector.h:160-167, class `SegmentedArrayVector` -/
structure SAV (α : Type) where
  perArray : Nat
  arraysPerSeg : Nat
  segments : Segments α
  size : Nat

/-- segmented_vector.h:188-196 -/
def SAV.empty (α : Type) (sizeofElement perArray : Nat) : SAV α :=
  { perArray, arraysPerSeg := max (SEGMENT_BYTES / (perArray * sizeofElement)) 1, segments := [], size := 0 }

/-- read `k` consecutive cells -/
def readCells {α : Type} (m : Segments α) (s o : Nat) : Nat → Option (List α)
  | 0 => some []
  | k + 1 => do
    let x ← readCell m s o
    let xs ← readCells m s (o + 1) k
    some (x :: xs)

/-- construct consecutive cells (segmented_vector.h:250-252) -/
def constructCells {α : Type} (m : Segments α) (s o : Nat) : List α → Option (Segments α)
  | [] => some m
  | x :: xs => do
    let m' ← construct m s o x
    constructCells m' s (o + 1) xs

/-- destroy `k` consecutive cells (segmented_vector.h:257-260) -/
def destroyCells {α : Type} (m : Segments α) (s o : Nat) : Nat → Option (Segments α)
  | 0 => some m
  | k + 1 => do
    let m' ← destroy m s o
    destroyCells m' s (o + 1) k

/-- segmented_vector.h:223-235 `operator[]`, as the array of elements it points to -/
def SAV.get {α : Type} (v : SAV α) (i : Nat) : Option (List α) :=
  if i < v.size then
    readCells v.segments (i / v.arraysPerSeg) ((i % v.arraysPerSeg) * v.perArray) v.perArray
  else none

/-- assignment `v[i][j] = x` through the pointer of `operator[]` -/
def SAV.set {α : Type} (v : SAV α) (i j : Nat) (x : α) : Option (SAV α) :=
  if i < v.size ∧ j < v.perArray then do
    let m ← assign v.segments (i / v.arraysPerSeg) ((i % v.arraysPerSeg) * v.perArray + j) x
    some { v with segments := m }
  else none

/-- segmented_vector.h:241-254 `push_back` (reads `perArray` elements from `entry`) -/
def SAV.push {α : Type} (v : SAV α) (entry : List α) : Option (SAV α) := do
  if entry.length ≠ v.perArray then none
  let s := v.size / v.arraysPerSeg
  let o := (v.size % v.arraysPerSeg) * v.perArray
  let segs := if s = v.segments.length then
      v.segments ++ [List.replicate (v.perArray * v.arraysPerSeg) none] else v.segments
  let m ← constructCells segs s o entry
  some { v with segments := m, size := v.size + 1 }

/-- segmented_vector.h:256-267 `pop_back` -/
def SAV.pop {α : Type} (v : SAV α) : Option (SAV α) :=
  if 0 < v.size then do
    let m ← destroyCells v.segments ((v.size - 1) / v.arraysPerSeg)
      (((v.size - 1) % v.arraysPerSeg) * v.perArray) v.perArray
    some { v with segments := m, size := v.size - 1 }
  else none

/-- segmented_vector.h:270-272 -/
def SAV.popN {α : Type} : Nat → SAV α → Option (SAV α)
  | 0, v => some v
  | n + 1, v => do (← v.pop).popN n

/-- segmented_vector.h:273-275 -/
def SAV.pushN {α : Type} (x : List α) : Nat → SAV α → Option (SAV α)
  | 0, v => some v
  | n + 1, v => do (← v.push x).pushN x n

/-- segmented_vector.h:269-276 `resize` -/
def SAV.resize {α : Type} (v : SAV α) (n : Nat) (x : List α) : Option (SAV α) := do
  let v1 ← v.popN (v.size - n)
  v1.pushN x (n - v1.size)

end Verif.SegmentedVector
