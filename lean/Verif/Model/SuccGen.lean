import Verif.Spec.Task

/-
Model of src/search/task_utils/successor_generator{,_factory,_internals}.cc.

Simplifications: an `OperatorRange` into `operator_infos` is the sublist it denotes; the
memory estimates that choose between a vector and a hash map for a switch node are an
arbitrary function `useHash` of the domain size and the number of children; the hash map of
a switch node is a list of pairs with distinct keys.  `none` is undefined behaviour (null
pointer, access outside a vector) or a failed assertion.
-/
namespace Verif.SuccGen

/-- successor_generator_internals.h: the node classes; `null` is a null `unique_ptr` -/
inductive Gen where
  | null
  | forkBinary (g1 g2 : Gen)
  | forkMulti (children : List Gen)
  | switchVector (var : Nat) (forValue : List Gen)
  | switchHash (var : Nat) (forValue : List (Nat × Gen))
  | switchSingle (var value : Nat) (g : Gen)
  | leafVector (ops : List Nat)
  | leafSingle (op : Nat)

mutual
/-- successor_generator_internals.cc:81-176 `generate_applicable_ops`; `acc` is the vector
to which operators are appended -/
def gen (s : State) : Gen → List Nat → Option (List Nat)
  | .null, _ => none
  | .forkBinary g1 g2, acc => (gen s g1 acc).bind (fun a => gen s g2 a)
  | .forkMulti gs, acc => genAll s gs acc
  | .switchVector v gs, acc =>
    match s[v]? with
    | none => none
    | some val => genNth s gs val acc
  | .switchHash v gs, acc =>
    match s[v]? with
    | none => none
    | some val => genFind s gs val acc
  | .switchSingle v value g, acc =>
    match s[v]? with
    | none => none
    | some val => if value = val then gen s g acc else some acc
  | .leafVector ops, acc => some (acc ++ ops)
  | .leafSingle op, acc => some (acc ++ [op])
/-- successor_generator_internals.cc:99-100 -/
def genAll (s : State) : List Gen → List Nat → Option (List Nat)
  | [], acc => some acc
  | g :: gs, acc => (gen s g acc).bind (fun a => genAll s gs a)
/-- successor_generator_internals.cc:112-116 -/
def genNth (s : State) : List Gen → Nat → List Nat → Option (List Nat)
  | [], _, _ => none
  | g :: _, 0, acc => match g with
    | .null => some acc
    | g => gen s g acc
  | _ :: gs, n + 1, acc => genNth s gs n acc
/-- successor_generator_internals.cc:129-133 -/
def genFind (s : State) : List (Nat × Gen) → Nat → List Nat → Option (List Nat)
  | [], _, acc => some acc
  | (k, g) :: gs, val, acc => if k = val then gen s g acc else genFind s gs val acc
end

/-- abstract_task.h `FactPair::operator<` -/
def factLt (a b : Fact) : Bool := a.var < b.var || (a.var == b.var && a.val < b.val)

/-- `operator<` of `std::vector<FactPair>` -/
def lexLt : List Fact → List Fact → Bool
  | _, [] => false
  | [], _ :: _ => true
  | a :: x, b :: y => if factLt a b then true else if factLt b a then false else lexLt x y

/-- successor_generator_factory.cc:74-106 -/
structure OpInfo where
  op : Nat
  pre : List Fact
deriving DecidableEq, Repr

/-- successor_generator_factory.cc:95-101 `get_var`: outer `none` is an access outside the
precondition, inner `none` is the sentinel -1 -/
def OpInfo.getVar (o : OpInfo) (depth : Nat) : Option (Option Nat) :=
  if depth = o.pre.length then some none else (o.pre[depth]?).map (fun f => some f.var)

/-- successor_generator_factory.cc:103-105 `get_value` -/
def OpInfo.getValue (o : OpInfo) (depth : Nat) : Option Nat := (o.pre[depth]?).map (·.val)

/-- successor_generator_factory.cc:151-153: advance while the group key stays the same;
returns the group (so far) and the rest of the range -/
def advance {κ : Type} [DecidableEq κ] (key : OpInfo → Option κ) (k : κ) : List OpInfo → Option (List OpInfo × List OpInfo)
  | [] => some ([], [])
  | o :: os =>
    match key o with
    | none => none
    | some k' =>
      if k' = k then (advance key k os).map (fun r => (o :: r.1, r.2)) else some ([], o :: os)

/-- successor_generator_factory.cc:147-156 `OperatorGrouper::next` -/
def next {κ : Type} [DecidableEq κ] (key : OpInfo → Option κ) : List OpInfo → Option ((κ × List OpInfo) × List OpInfo)
  | [] => none
  | o :: os => do
    let k ← key o
    let r ← advance key k os
    some ((k, o :: r.1), r.2)

/-- successor_generator_factory.cc:166-179 `construct_fork` -/
def constructFork (nodes : List Gen) : Gen :=
  match nodes with
  | [g] => g
  | [g1, g2] => .forkBinary g1 g2
  | gs => .forkMulti gs

/-- successor_generator_factory.cc:181-196 `construct_leaf` -/
def constructLeaf (range : List OpInfo) : Option Gen :=
  match range.map (·.op) with
  | [] => none
  | [o] => some (.leafSingle o)
  | os => some (.leafVector os)

/-- `generator_by_value[item.first] = move(item.second)` on the map
(successor_generator_factory.cc:218-219): overwrites an existing entry -/
def hashPut (m : List (Nat × Gen)) (k : Nat) (g : Gen) : List (Nat × Gen) :=
  match m with
  | [] => [(k, g)]
  | (k', g') :: m => if k' = k then (k, g) :: m else (k', g') :: hashPut m k g

/-- the same on the vector (successor_generator_factory.cc:224-225) -/
def vectorPut (m : List Gen) (k : Nat) (g : Gen) : Option (List Gen) :=
  if k < m.length then some (m.set k g) else none

/-- successor_generator_factory.cc:198-229 `construct_switch` -/
def constructSwitch (t : Task) (useHash : Nat → Nat → Bool) (var : Nat) (vg : List (Nat × Gen)) : Option Gen := do
  let d ← t.vars[var]?
  match vg with
  | [] => none
  | [(value, g)] => some (.switchSingle var value g)
  | vg =>
    if useHash d.domain vg.length then some (.switchHash var (vg.foldl (fun m p => hashPut m p.1 p.2) []))
    else (vg.foldlM (fun m p => vectorPut m p.1 p.2) (List.replicate d.domain .null)).map (.switchVector var ·)

/-- successor_generator_factory.cc:248-257: loop over the value groups; `rec` is the
recursive call of `construct_recursive` at depth + 1.  `n` bounds the number of groups. -/
def valueGroups (rec : List OpInfo → Option Gen) (depth : Nat) : Nat → List OpInfo → Option (List (Nat × Gen))
  | _, [] => some []
  | 0, _ => none
  | n + 1, range => do
    let (g, rest) ← next (fun o => o.getValue depth) range
    let child ← rec g.2
    let more ← valueGroups rec depth n rest
    some ((g.1, child) :: more)

/-- successor_generator_factory.cc:236-261: loop over the variable groups -/
def varGroups (t : Task) (useHash : Nat → Nat → Bool) (rec : List OpInfo → Option Gen) (depth : Nat) :
    Nat → List OpInfo → Option (List Gen)
  | _, [] => some []
  | 0, _ => none
  | n + 1, range => do
    let (g, rest) ← next (fun o => o.getVar depth) range
    let node ← match g.1 with
      | none => constructLeaf g.2
      | some var => (valueGroups rec depth g.2.length g.2).bind (fun vg => constructSwitch t useHash var vg)
    let more ← varGroups t useHash rec depth n rest
    some (node :: more)

/-- successor_generator_factory.cc:231-263 `construct_recursive`; the fuel bounds the
recursion depth (`none` would mean that it is exceeded) -/
def constructRecursive (t : Task) (useHash : Nat → Nat → Bool) : Nat → Nat → List OpInfo → Option Gen
  | 0, _, _ => none
  | fuel + 1, depth, range =>
    (varGroups t useHash (constructRecursive t useHash fuel (depth + 1)) depth range.length range).map constructFork

/-- successor_generator_factory.cc:265-273 -/
def buildSortedPrecondition (o : Operator) : List Fact := o.pre.mergeSort (fun a b => !factLt b a)

/-- successor_generator_factory.cc:275-290 `create`; `mergeSort` is a stable sort, as
`std::stable_sort` (and `std::sort` above, where equal facts are indistinguishable). -/
def create (t : Task) (useHash : Nat → Nat → Bool) : Option Gen :=
  let infos := t.ops.zipIdx.map (fun p => { op := p.2, pre := buildSortedPrecondition p.1 : OpInfo })
  let sorted := infos.mergeSort (fun a b => !lexLt b.pre a.pre)
  constructRecursive t useHash ((t.ops.map (·.pre.length)).foldl max 0 + 1) 0 sorted

/-- successor_generator.cc:17-21 -/
def generateApplicableOps (t : Task) (useHash : Nat → Nat → Bool) (s : State) (acc : List Nat) : Option (List Nat) :=
  (create t useHash).bind (fun g => gen s g acc)

end Verif.SuccGen
