import Verif.Spec.Task
import Mathlib.Data.List.Sort

/-
Model of src/search/heuristics/hm_heuristic.cc.  `none` is an exception (map::at), a failed assertion or overflow.
-/
namespace Verif.Hm

/-- hm_heuristic.h:18 -/
abbrev Tuple := List Fact

/-- numeric_limits<int>::max() -/
def inf : Nat := 2147483647

/-- the order of fact pairs, task_proxy.h / abstract_task.h:25-27 -/
def factLe (a b : Fact) : Prop := a.var < b.var ∨ (a.var = b.var ∧ a.val ≤ b.val)

instance : DecidableRel factLe := fun a b => inferInstanceAs (Decidable (_ ∨ _))

/-- std::sort of fact pairs -/
def sortFacts (l : Tuple) : Tuple := l.insertionSort factLe

/-- hm_heuristic.cc:205-217: the tuples that extend `base` by at most `sz` facts of variables from number `var`; `domains` are the domain sizes.  Their order is
the lexicographic one, in which the map is traversed. -/
def tuplesAux (domains : List Nat) : Nat → Nat → Tuple → List Tuple
  | 0, _, _ => []
  | sz + 1, var, base =>
    (List.range' var (domains.length - var)).flatMap (fun i =>
      (List.range (domains[i]?.getD 0)).flatMap (fun j => (base ++ [⟨i, j⟩]) :: tuplesAux domains sz (i + 1) (base ++ [⟨i, j⟩])))

/-- hm_heuristic.cc:200-203: the keys of the table -/
def allTuples (t : Task) (m : Nat) : List Tuple := tuplesAux (t.vars.map (·.domain)) m 0 []

/-- hm_heuristic.cc:225-246: the list is the part of the base tuple from `index` -/
def partialsAux : Nat → Tuple → Tuple → List Tuple
  | 0, _, _ => []
  | _ + 1, [], _ => []
  | sz + 1, f :: l, t => (t ++ [f]) :: (partialsAux sz l (t ++ [f]) ++ partialsAux (sz + 1) l t)

/-- hm_heuristic.cc:219-223 -/
def partials (m : Nat) (l : Tuple) : List Tuple := partialsAux m l []

/-- hm_heuristic.cc:151-167 -/
def checkIn (t big : Tuple) : Nat := if t.all (fun f => decide (f ∈ big)) then 0 else inf

/-- hm_heuristic.cc:169-175 -/
def opPre (o : Operator) : Tuple := sortFacts o.pre

/-- hm_heuristic.cc:177-185 -/
def opEff (o : Operator) : Tuple := sortFacts (o.effects.map (·.fact))

/-- hm_heuristic.cc:187-196 -/
def contradicts (o : Operator) (f : Fact) : Bool := o.effects.any (fun e => e.fact.var == f.var && e.fact.val != f.val)

/-- the values of the table and was_updated: hm_heuristic.h:25-26 -/
structure St where
  val : Tuple → Nat
  updated : Bool

section
variable (keys : List Tuple) (m : Nat)

/-- hm_heuristic.cc:128-139: the loop; map::at throws if there is no entry -/
def evalLoop (val : Tuple → Nat) : List Tuple → Nat → Option Nat
  | [], mx => some mx
  | t :: ts, mx => if t ∈ keys then evalLoop val ts (if val t > mx then val t else mx) else none

/-- hm_heuristic.cc:124-140 -/
def eval (val : Tuple → Nat) (t : Tuple) : Option Nat := evalLoop keys val (partials m t) 0

/-- hm_heuristic.cc:142-149; undefined if there is no entry (line 143) -/
def updateEntry (t : Tuple) (v : Nat) (st : St) : Option St :=
  if t ∈ keys then some (if st.val t > v then ⟨fun u => if u = t then v else st.val u, true⟩ else st) else none

/-- addition of ints -/
def addCost (c d : Nat) : Option Nat := if c + d < 2 ^ 31 then some (c + d) else none

/-- update_hm_entry with the sum of a value and the cost, if the value is finite: hm_heuristic.cc:66, 72, 116-119 -/
def updateIf (o : Operator) (t : Tuple) (c : Nat) (st : St) : Option St :=
  if c = inf then some st
  else
    match addCost c o.cost with
    | none => none
    | some v => updateEntry keys t v st

/-- hm_heuristic.cc:96-104: the preconditions together with the other facts -/
def addFacts (t : Tuple) : Tuple → Tuple → Tuple
  | [], pre => pre
  | f :: fs, pre => if f ∈ t then addFacts t fs pre else if f ∈ pre then addFacts t fs pre else addFacts t fs (pre ++ [f])

/-- hm_heuristic.cc:94-106 -/
def extPre (o : Operator) (t tuple : Tuple) : Tuple := sortFacts (addFacts t tuple (opPre o))

/-- hm_heuristic.cc:84-93: does the entry extend `t`? -/
def extends? (o : Operator) (t tuple : Tuple) : Bool :=
  !tuple.any (contradicts o) && (decide (tuple.length > t.length) && checkIn t tuple == 0)

/-- hm_heuristic.cc:84-122 for one entry -/
def extendStep (o : Operator) (t tuple : Tuple) (st : St) : Option St :=
  if extends? o t tuple then
    if ((extPre o t tuple).map (·.var)).Nodup then
      match eval keys m st.val (extPre o t tuple) with
      | none => none
      | some c => updateIf keys o tuple c st
    else some st
  else some st

/-- hm_heuristic.cc:82-122: the loop over entries -/
def extendLoop (o : Operator) (t : Tuple) : List Tuple → St → Option St
  | [], st => some st
  | tuple :: ts, st =>
    match extendStep keys m o t tuple st with
    | none => none
    | some st => extendLoop o t ts st

/-- hm_heuristic.cc:71-77: the loop over partial effects -/
def effLoop (o : Operator) (c1 : Nat) : List Tuple → St → Option St
  | [], st => some st
  | p :: ps, st =>
    match updateIf keys o p c1 st with
    | none => none
    | some st =>
      if p.length < m then
        match extendLoop keys m o p keys st with
        | none => none
        | some st => effLoop o c1 ps st
      else effLoop o c1 ps st

/-- hm_heuristic.cc:63-80: one operator -/
def opStep (o : Operator) (st : St) : Option St :=
  match eval keys m st.val (opPre o) with
  | none => none
  | some c1 => if c1 = inf then some st else effLoop keys m o c1 (partials m (opEff o)) st

/-- hm_heuristic.cc:62-80: all operators -/
def round : List Operator → St → Option St
  | [], st => some st
  | o :: os, st =>
    match opStep keys m o st with
    | none => none
    | some st => round os st

/-- hm_heuristic.cc:58-81 -/
def update (ops : List Operator) (val : Tuple → Nat) : Option (Tuple → Nat) :=
  match round keys m ops ⟨val, false⟩ with
  | none => none
  | some st => if st.updated then update ops st.val else some st.val
partial_fixpoint

end

/-- task_properties.h:get_fact_pairs of a state -/
def stateFacts (s : State) : Tuple := s.zipIdx.map (fun p => ⟨p.2, p.1⟩)

/-- hm_heuristic.cc:50-56: the values are overwritten for all entries -/
def initVal (s : State) : Tuple → Nat := fun t => checkIn t (stateFacts s)

/-- hm_heuristic.cc:31-48; the result `none` inside is DEAD_END -/
def hm (t : Task) (m : Nat) (s : State) : Option (Option Nat) :=
  if allHold t.goal s then some (some 0)
  else
    match update (allTuples t m) m t.ops (initVal s) with
    | none => none
    | some val =>
      match eval (allTuples t m) m val t.goal with
      | none => none
      | some h => some (if h = inf then none else some h)

end Verif.Hm
