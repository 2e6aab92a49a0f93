/-
Model of src/search/algorithms/equivalence_relation.{h,cc}.

Simplifications: a `std::list` iterator to a block is a number (its identity); the blocks
are an explicit heap plus the order of the list, so a dangling iterator is visible
(`none`).  An iterator to an element inside a block is represented by the element.
-/
namespace Verif.EquivRel

/-- equivalence_relation.h:17-57; `inter = none` is `blocks.end()` -/
structure Blk where
  elems : List Int
  inter : Option Nat

/-- equivalence_relation.h:59-70 -/
structure ER where
  order : List Nat
  heap : Nat → Option Blk
  pos : Int → Option Nat
  next : Nat

def upd {α β : Type} [DecidableEq α] (f : α → β) (a : α) (b : β) : α → β := fun x => if x = a then b else f x

/-- equivalence_relation.cc:16-20 -/
def addEmptyBlock (r : ER) : ER × Nat :=
  ({ r with order := r.order ++ [r.next], heap := upd r.heap r.next (some ⟨[], none⟩), next := r.next + 1 }, r.next)

/-- equivalence_relation.cc:10-13 -/
def initLoop (b : Nat) : List Int → ER → Option ER
  | [], r => some r
  | e :: es, r => do
    let blk ← r.heap b
    initLoop b es { r with heap := upd r.heap b (some { blk with elems := blk.elems ++ [e] }), pos := upd r.pos e (some b) }

/-- equivalence_relation.cc:8-14 -/
def ER.new (elements : List Int) : Option ER :=
  let (r, b) := addEmptyBlock { order := [], heap := fun _ => none, pos := fun _ => none, next := 0 }
  initLoop b elements r

/-- equivalence_relation.cc:59-64: create the intersection block on demand -/
def ensureInter (r : ER) (modified : List Nat) (b : Nat) (blk : Blk) : ER × List Nat × Nat :=
  match blk.inter with
  | none =>
    let (r1, j) := addEmptyBlock r
    ({ r1 with heap := upd r1.heap b (some { blk with inter := some j }) }, modified ++ [b], j)
  | some j => (r, modified, j)

/-- equivalence_relation.cc:46-73: one iteration; `none` also for the ABORT in line 50 -/
def refineOne (r : ER) (modified : List Nat) (x : Int) : Option (ER × List Nat) := do
  let b ← r.pos x
  let blk ← r.heap b
  let (r1, modified1, j) := ensureInter r modified b blk
  let blk1 ← r1.heap b
  let r2 := { r1 with heap := upd r1.heap b (some { blk1 with elems := blk1.elems.erase x }) }
  let ij ← r2.heap j
  some ({ r2 with heap := upd r2.heap j (some { ij with elems := ij.elems ++ [x] }), pos := upd r2.pos x (some j) }, modified1)

def refineLoop : List Int → ER → List Nat → Option (ER × List Nat)
  | [], r, m => some (r, m)
  | x :: xs, r, m => do
    let (r1, m1) ← refineOne r m x
    refineLoop xs r1 m1

/-- equivalence_relation.cc:76-82 -/
def cleanup : List Nat → ER → Option ER
  | [], r => some r
  | b :: bs, r => do
    let blk ← r.heap b
    if blk.elems.isEmpty then cleanup bs { r with order := r.order.erase b, heap := upd r.heap b none }
    else cleanup bs { r with heap := upd r.heap b (some { blk with inter := none }) }

/-- equivalence_relation.cc:38-83 -/
def ER.refine (r : ER) (block : List Int) : Option ER := do
  let (r1, m) ← refineLoop block r []
  cleanup m r1

/-- what iterating over the relation yields: the elements of the blocks, in order -/
def ER.blocks (r : ER) : Option (List (List Int)) := r.order.mapM (fun b => (r.heap b).map (·.elems))

/-- construction followed by refinements -/
def run (elements : List Int) (xs : List (List Int)) : Option ER := do
  let r ← ER.new elements
  xs.foldlM (fun r x => r.refine x) r

end Verif.EquivRel
