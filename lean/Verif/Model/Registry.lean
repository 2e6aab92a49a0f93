import Verif.Model.IntPacker
import Verif.Model.IntHashSet
import Verif.Model.SegmentedVector
import Verif.Model.Axioms

/-
Model of src/search/state_registry.{h,cc} and of the parts of src/search/task_proxy.{h,cc}
(class State) it uses.  The registry is composed of the models of IntPacker,
SegmentedArrayVector and IntHashSet.

Simplifications: a `PackedStateBin *` into the pool is represented by the index of its
entry (segments are never moved: C04).  The function computed by `utils::HashState` on the
bins is an arbitrary function `hash`.  The hash and equality functors read the pool through
`data`; reading outside the pool gives `none` there, and the invariant `RegRep` (which the
theorems establish for every history) says that all stored keys are inside the pool.
-/
namespace Verif.Registry

open IntPacker IntHashSet SegmentedVector

/-- task_proxy.h:561-641, class `State`, for registered states: `values` is the shared
pointer to the unpacked values (possibly null). -/
structure Handle where
  id : Nat
  values : Option State
deriving Repr

/-- state_registry.h:162-170 -/
structure Reg where
  packer : Packer
  pool : SAV Bin
  table : Table
  initial : Option Handle

/-- bins of pool entry `k` -/
def data (pool : SAV Bin) (k : Int) : Option (List Bin) := pool.get k.toNat

/-- state_registry.h:115-134 `StateIDSemanticHash` -/
def hasher (hash : Option (List Bin) → Nat) (pool : SAV Bin) (k : Int) : Nat := hash (data pool k)

/-- state_registry.h:136-153 `StateIDSemanticEqual` -/
def equal (pool : SAV Bin) (a b : Int) : Bool := data pool a == data pool b

/-- state_registry.cc:11-20; the packer is built from the domain sizes
(task_utils/task_properties.cc, `g_state_packers`) -/
def Reg.make (t : Task) : Outcome Reg := do
  let p ← Outcome.ofOption (Packer.make (t.vars.map (·.domain)))
  pure { packer := p, pool := SAV.empty Bin 4 p.numBins, table := Table.empty, initial := none }

/-- store consecutive bins `j, j+1, …` of entry `i` -/
def writeFrom (pool : SAV Bin) (i j : Nat) : List Bin → Option (SAV Bin)
  | [] => some pool
  | b :: bs => (pool.set i j b).bind fun q => writeFrom q i (j + 1) bs

/-- `state_packer.set(state_data_pool[i], var, value)` -/
def poolSet (p : Packer) (pool : SAV Bin) (i var val : Nat) : Option (SAV Bin) := do
  let row ← pool.get i
  let row' ← p.set row var val
  writeFrom pool i 0 row'

/-- `for (i = 0; i < values.size(); ++i) state_packer.set(buffer, i, values[i])` on entry `i`
(state_registry.cc:96-98) -/
def poolSetAll (p : Packer) (i : Nat) : Nat → List Nat → SAV Bin → Option (SAV Bin)
  | _, [], pool => some pool
  | v, x :: xs, pool => (poolSet p pool i v x).bind fun q => poolSetAll p i (v + 1) xs q

/-- the same loop on a separate buffer (state_registry.cc:59-61) -/
def packAll (p : Packer) : Nat → List Nat → List Bin → Option (List Bin)
  | _, [], buf => some buf
  | v, x :: xs, buf => (p.set buf v x).bind fun b => packAll p (v + 1) xs b

/-- state_registry.cc:22-38 -/
def insertIdOrPop (hash : Option (List Bin) → Nat) (r : Reg) : Outcome (Reg × Nat) := do
  let (tab, key, isNew) ← r.table.insert (hasher hash r.pool) (equal r.pool) ((r.pool.size - 1 : Nat) : Int)
  if isNew then pure ({ r with table := tab }, key.toNat)
  else
    let pool ← Outcome.ofOption r.pool.pop
    pure ({ r with table := tab, pool := pool }, key.toNat)

/-- state_registry.cc:40-43 (the buffer must exist) -/
def lookup (r : Reg) (id : Nat) : Outcome Handle := do
  let _ ← Outcome.ofOption (r.pool.get id)
  pure { id := id, values := none }

/-- task_proxy.h:807-816 `State::operator[]` -/
def readVar (r : Reg) (h : Handle) (v : Nat) : Option Nat :=
  match h.values with
  | some vs => vs[v]?
  | none => do
    let buf ← r.pool.get h.id
    let x ← r.packer.get buf v
    some x.toNat

/-- task_proxy.h:782-801 `State::unpack` -/
def unpackFrom (r : Reg) (h : Handle) : Nat → Nat → Option (List Nat)
  | 0, _ => some []
  | n + 1, v => do
    let buf ← r.pool.get h.id
    let x ← r.packer.get buf v
    let xs ← unpackFrom r h n (v + 1)
    some (x.toNat :: xs)

def unpack (t : Task) (r : Reg) (h : Handle) : Option Handle :=
  match h.values with
  | some _ => some h
  | none => do
    let vs ← unpackFrom r h t.vars.length 0
    some { h with values := some vs }

/-- task_proxy.h:750-756 `does_fire`: stops at the first violated condition -/
def doesFire (r : Reg) (h : Handle) : List Fact → Option Bool
  | [] => some true
  | c :: cs => do
    let x ← readVar r h c.var
    if x ≠ c.val then some false else doesFire r h cs

/-- state_registry.cc:89-94 and task_proxy.cc:53-58: conditional effects on unpacked values -/
def applyUnpacked (fires : List Fact → Option Bool) : List Effect → State → Option State
  | [], s => some s
  | e :: es, s => do
    let b ← fires e.conds
    if b then
      if e.fact.var < s.length then applyUnpacked fires es (s.set e.fact.var e.fact.val) else none
    else applyUnpacked fires es s

/-- state_registry.cc:106-111: conditional effects on the packed copy in the pool, where
the conditions are read from the predecessor's own entry -/
def applyPacked (h : Handle) (last : Nat) : List Effect → Reg → Option Reg
  | [], r => some r
  | e :: es, r => do
    let b ← doesFire r h e.conds
    if b then do
      let pool ← poolSet r.packer r.pool last e.fact.var e.fact.val
      applyPacked h last es { r with pool := pool }
    else applyPacked h last es r

/-- state_registry.cc:51-67 -/
def getInitial (hash : Option (List Bin) → Nat) (t : Task) (r : Reg) : Outcome (Reg × Handle) :=
  match r.initial with
  | some h => pure (r, h)
  | none => do
    let buf ← Outcome.ofOption (packAll r.packer 0 t.init (List.replicate r.packer.numBins 0))
    let pool ← Outcome.ofOption (r.pool.push buf)
    let (r1, id) ← insertIdOrPop hash { r with pool := pool }
    let h ← lookup r1 id
    pure ({ r1 with initial := some h }, h)

/-- state_registry.cc:86-104, the branch for tasks with axioms -/
def succAxioms (hash : Option (List Bin) → Nat) (t : Task) (r : Reg) (h : Handle) (o : Operator) :
    Outcome (Reg × Handle) := do
  let h' ← Outcome.ofOption (unpack t r h)
  let vs ← Outcome.ofOption h'.values
  let new ← Outcome.ofOption (applyUnpacked (doesFire r h') o.effects vs)
  let new' ← Outcome.ofOption (Axioms.evaluate t new)
  let pool ← Outcome.ofOption (poolSetAll r.packer (r.pool.size - 1) 0 new' r.pool)
  let (r1, id) ← insertIdOrPop hash { r with pool := pool }
  let _ ← lookup r1 id
  pure (r1, { id := id, values := some new' })

/-- state_registry.cc:105-118, the branch for tasks without axioms -/
def succPlain (hash : Option (List Bin) → Nat) (r : Reg) (h : Handle) (o : Operator) :
    Outcome (Reg × Handle) := do
  let r' ← Outcome.ofOption (applyPacked h (r.pool.size - 1) o.effects r)
  let (r1, id) ← insertIdOrPop hash r'
  let h1 ← lookup r1 id
  pure (r1, h1)

/-- state_registry.cc:73-119 `get_successor_state` -/
def getSuccessor (hash : Option (List Bin) → Nat) (t : Task) (r : Reg) (h : Handle) (o : Operator) :
    Outcome (Reg × Handle) := do
  let buf ← Outcome.ofOption (r.pool.get h.id)
  let pool ← Outcome.ofOption (r.pool.push buf)
  if t.axioms.length > 0 then succAxioms hash t { r with pool := pool } h o
  else succPlain hash { r with pool := pool } h o

/-- task_proxy.cc:47-65 `State::get_unregistered_successor` on the unpacked values -/
def unregisteredSuccessor (t : Task) (s : State) (o : Operator) : Option State := do
  let fires := fun cs => cs.foldr (fun (c : Fact) acc => do
    let x ← s[c.var]?
    if x ≠ c.val then some false else acc) (some true)
  let new ← applyUnpacked fires o.effects s
  if t.axioms.length > 0 then Axioms.evaluate t new else some new

/-- state_registry.h:221-223 -/
def Reg.size (r : Reg) : Nat := r.table.size

end Verif.Registry
