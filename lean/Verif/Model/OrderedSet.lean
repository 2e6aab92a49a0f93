/-
Model of src/search/algorithms/ordered_set.h.

Simplification: utils::HashSet (std::unordered_set) is a list of its members in an
unspecified order; std::shuffle is an arbitrary function returning a permutation.
-/
namespace Verif.OrderedSet

variable {T : Type} [DecidableEq T]

/-- std::unordered_set::insert: the new set and whether an insertion took place -/
def hsInsert (s : List T) (x : T) : List T × Bool := if x ∈ s then (s, false) else (x :: s, true)

/-- ordered_set.h:17-19 -/
structure OSet (T : Type) where
  ordered : List T
  unordered : List T

def OSet.new : OSet T := ⟨[], []⟩

/-- ordered_set.h:42-49 -/
def OSet.insert (s : OSet T) (x : T) : OSet T :=
  let (u, inserted) := hsInsert s.unordered x
  { unordered := u, ordered := if inserted then s.ordered ++ [x] else s.ordered }

/-- ordered_set.h:51-53 -/
def OSet.contains (s : OSet T) (x : T) : Bool := s.unordered.count x != 0

/-- ordered_set.h:32-36 -/
def OSet.clear (_ : OSet T) : OSet T := ⟨[], []⟩

/-- ordered_set.h:68-73; the moved-from vector is empty -/
def OSet.popAsVector (s : OSet T) : OSet T × List T := (⟨[], []⟩, s.ordered)

/-- ordered_set.h:55-57 -/
def OSet.shuffle (shuf : List T → List T) (s : OSet T) : OSet T := { s with ordered := shuf s.ordered }

/-- the public operations; `shuffle` with the permutation chosen by the generator -/
inductive Op (T : Type) where
  | insert (x : T)
  | contains (x : T)
  | size
  | empty
  | get (pos : Nat)
  | asVector
  | clear
  | popAsVector
  | shuffle (shuf : List T → List T)

inductive Out (T : Type) where
  | unit
  | bool (b : Bool)
  | nat (n : Nat)
  | item (x : T)
  | items (l : List T)

/-- one operation; `none` if an index is out of range (ordered_set.h:59-62) -/
def step (s : OSet T) : Op T → Option (OSet T × Out T)
  | .insert x => some (s.insert x, .unit)
  | .contains x => some (s, .bool (s.contains x))
  | .size => some (s, .nat s.ordered.length)
  | .empty => some (s, .bool s.ordered.isEmpty)
  | .get i => (s.ordered[i]?).map (fun x => (s, .item x))
  | .asVector => some (s, .items s.ordered)
  | .clear => some (s.clear, .unit)
  | .popAsVector => some ((s.popAsVector).1, .items (s.popAsVector).2)
  | .shuffle f => some (s.shuffle f, .unit)

/-- ordered_set.h:23, 28, 35, 48, 71: the asserted condition -/
def OSet.asserted (s : OSet T) : Prop := s.unordered.length = s.ordered.length

def run (s : OSet T) : List (Op T) → Option (OSet T × List (Out T))
  | [] => some (s, [])
  | op :: ops => do
    let (s1, o) ← step s op
    let (s2, os) ← run s1 ops
    some (s2, o :: os)

end Verif.OrderedSet
