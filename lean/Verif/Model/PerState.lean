import Verif.Model.SegmentedVector

/-
Model of src/search/per_state_information.h, src/search/per_state_array.h and of the parts
of src/search/algorithms/subscriber.h they use.

The model has an explicit heap of entry vectors (so a dangling `cached_entries` or a double
delete is visible) and registries live at addresses that may be reused after destruction.
Simplifications: one per-state object is modelled together with all registries (several
such objects do not share data); registries are reduced to their size (C05).
`none` is undefined behaviour or a failed assertion.
-/
namespace Verif.PerState

open SegmentedVector

/-- Operations of the entry vector used by the two classes; `E` is what a read yields,
`W` is an assignment through the returned reference/view. -/
structure Vec (V E W : Type) where
  empty : V
  size : V → Nat
  /-- `resize(n, default)` -/
  resize : V → Nat → Option V
  get : V → Nat → Option E
  put : V → Nat → W → Option V

/-- `SegmentedVector<Entry>` for PerStateInformation with default value `d` -/
def svVec {α : Type} (sz : Nat) (d : α) : Vec (SV α) α α where
  empty := SV.empty α sz
  size := fun v => v.size
  resize := fun v n => v.resize n d
  get := fun v i => v.get i
  put := fun v i x => v.set i x

/-- `SegmentedArrayVector<Element>` for PerStateArray with default array `d` -/
def savVec {α : Type} (sz : Nat) (d : List α) : Vec (SAV α) (List α) (Nat × α) where
  empty := SAV.empty α sz d.length
  size := fun v => v.size
  resize := fun v n => v.resize n d
  get := fun v i => v.get i
  put := fun v i w => v.set i w.1 w.2

/-- a live registry: its size, and whether the per-state object is in its `subscribers`
(subscriber.h:76) -/
structure RegInfo where
  size : Nat
  subscribed : Bool

/-- per_state_information.h:41-47, per_state_array.h:73-80; `services` is subscriber.h:49.
`cachedReg = none` is the null pointer. -/
structure Psi where
  map : Nat → Option Nat
  cachedReg : Option Nat
  cachedEnt : Option Nat
  services : Nat → Bool

structure World (V : Type) where
  regs : Nat → Option RegInfo
  heap : Nat → Option V
  next : Nat
  psi : Option Psi

def upd {β : Type} (f : Nat → β) (a : Nat) (b : β) : Nat → β := fun x => if x = a then b else f x

/-- per_state_information.h:98-100, per_state_array.h:121-125 -/
def World.init (V : Type) : World V :=
  { regs := fun _ => none, heap := fun _ => none, next := 0,
    psi := some { map := fun _ => none, cachedReg := none, cachedEnt := none, services := fun _ => false } }

/-- subscriber.h:90-95 (both assertions) -/
def subscribe {V : Type} (w : World V) (p : Psi) (a : Nat) : Option (World V × Psi) := do
  let r ← w.regs a
  if r.subscribed then none
  else if p.services a then none
  else some ({ w with regs := upd w.regs a (some { r with subscribed := true }) }, { p with services := upd p.services a true })

/-- per_state_information.h:55-72, per_state_array.h:82-101: non-const `get_entries`;
returns the pointer. -/
def getEntries {V E W : Type} (vec : Vec V E W) (w : World V) (p : Psi) (a : Nat) : Option (World V × Psi × Nat) :=
  if p.cachedReg ≠ some a then
    match p.map a with
    | none => do
      let w1 := { w with heap := upd w.heap w.next (some vec.empty), next := w.next + 1 }
      let p1 := { p with cachedReg := some a, cachedEnt := some w.next, map := upd p.map a (some w.next) }
      let (w2, p2) ← subscribe w1 p1 a
      some (w2, p2, w.next)
    | some ptr => some (w, { p with cachedReg := some a, cachedEnt := some ptr }, ptr)
  else p.cachedEnt.map (fun ptr => (w, p, ptr))

/-- per_state_information.h:80-95, per_state_array.h:103-118: const `get_entries` -/
def getEntriesConst (p : Psi) (a : Nat) : Option (Psi × Option Nat) :=
  if p.cachedReg ≠ some a then
    match p.map a with
    | none => some (p, none)
    | some ptr => some ({ p with cachedReg := some a, cachedEnt := some ptr }, some ptr)
  else p.cachedEnt.map (fun ptr => (p, some ptr))

/-- per_state_information.h:129-132, per_state_array.h:149-151 -/
def ensureSize {V E W : Type} (vec : Vec V E W) (v : V) (n : Nat) : Option V :=
  if vec.size v < n then vec.resize v n else some v

/-- per_state_information.h:117-134, per_state_array.h:136-153: non-const `operator[]`,
up to the returned reference (pointer and index) -/
def access {V E W : Type} (vec : Vec V E W) (w : World V) (a id : Nat) : Option (World V × Nat) := do
  let p ← w.psi
  let r ← w.regs a
  if r.size ≤ id then none
  else do
    let (w1, p1, ptr) ← getEntries vec w p a
    let v ← w1.heap ptr
    let v1 ← ensureSize vec v r.size
    some ({ w1 with heap := upd w1.heap ptr (some v1), psi := some p1 }, ptr)

/-- reading through the non-const `operator[]` -/
def readMut {V E W : Type} (vec : Vec V E W) (w : World V) (a id : Nat) : Option (World V × E) := do
  let (w1, ptr) ← access vec w a id
  let v ← w1.heap ptr
  let e ← vec.get v id
  some (w1, e)

/-- assigning through the non-const `operator[]` -/
def write {V E W : Type} (vec : Vec V E W) (w : World V) (a id : Nat) (x : W) : Option (World V) := do
  let (w1, ptr) ← access vec w a id
  let v ← w1.heap ptr
  let v1 ← vec.put v id x
  some { w1 with heap := upd w1.heap ptr (some v1) }

/-- per_state_information.h:136-156, per_state_array.h:155-178: const `operator[]`.
`missing` is what is returned if there is no entry: the default value for
PerStateInformation; for PerStateArray the program aborts (`some (_, none)`). -/
def readConst {V E W : Type} (vec : Vec V E W) (missing : Option E) (w : World V) (a id : Nat) :
    Option (World V × Option E) := do
  let p ← w.psi
  let r ← w.regs a
  if r.size ≤ id then none
  else do
    let (p1, ptr) ← getEntriesConst p a
    match ptr with
    | none => some ({ w with psi := some p1 }, missing)
    | some ptr => do
      let v ← w.heap ptr
      if vec.size v ≤ id then some ({ w with psi := some p1 }, missing)
      else do
        let e ← vec.get v id
        some ({ w with psi := some p1 }, some e)

/-- `delete ptr` -/
def deletePtr {V : Type} (w : World V) : Option Nat → Option (World V)
  | none => some w
  | some ptr => if (w.heap ptr).isSome then some { w with heap := upd w.heap ptr none } else none

/-- per_state_information.h:158-166, per_state_array.h:180-188.  `delete` of a dangling
pointer is undefined; `entries_by_registry[registry]` of a missing key is a null pointer,
whose deletion does nothing. -/
def notifyDestroyed {V : Type} (w : World V) (p : Psi) (a : Nat) : Option (World V × Psi) := do
  let w1 ← deletePtr w (p.map a)
  let p1 := { p with map := upd p.map a none }
  some (w1, if p1.cachedReg = some a then { p1 with cachedReg := none, cachedEnt := none } else p1)

/-- `new StateRegistry` at a free address -/
def newReg {V : Type} (w : World V) (a : Nat) : Option (World V) :=
  match w.regs a with
  | some _ => none
  | none => some { w with regs := upd w.regs a (some { size := 0, subscribed := false }) }

/-- a new state is registered -/
def growReg {V : Type} (w : World V) (a : Nat) : Option (World V) := do
  let r ← w.regs a
  some { w with regs := upd w.regs a (some { r with size := r.size + 1 }) }

/-- subscriber.h:78-88: destruction of a registry notifies the subscriber and unsubscribes
it (97-102, with both assertions). -/
def destroyReg {V : Type} (w : World V) (a : Nat) : Option (World V) := do
  let r ← w.regs a
  if r.subscribed then do
    let p ← w.psi
    let (w1, p1) ← notifyDestroyed w p a
    if p1.services a then
      some { w1 with psi := some { p1 with services := upd p1.services a false }, regs := upd w1.regs a none }
    else none
  else some { w with regs := upd w.regs a none }

/-- per_state_information.h:110-115 and subscriber.h:52-62: the per-state object is
destroyed; it deletes its entry vectors and removes itself from every registry it is
subscribed to.  Simplification: the deleted vectors stay in the model's heap; nothing refers
to them any more. -/
def destroyPsi {V : Type} (w : World V) : Option (World V) := do
  let p ← w.psi
  some { w with psi := none,
                regs := fun a => (w.regs a).map (fun r => if p.services a then { r with subscribed := false } else r) }

end Verif.PerState
