import Verif.Model.Dijkstra
import Mathlib.Data.List.Sort
import Mathlib.Data.Prod.Lex

/-
Model of labels and transition systems of merge-and-shrink:
src/search/merge_and_shrink/{labels,transition_system}.{h,cc}.

`none` as the result of an operation is undefined behaviour or a failed assertion.  PRUNED_STATE and -1 as
entry of a table are `none` as values.  Members which are used only for output are left out.
-/
namespace Verif.Mas

/-- types.cc:8 -/
def inf : Nat := Dijkstra.inf

/-- The order in which an unordered_map with these keys (given in the order of insertion) is traversed is not specified. -/
structure HashOrder where
  order : List Nat → List Nat
  perm : ∀ l, (order l).Perm l

/-- labels.h:53-57; `none` is the cost -1 of labels which are not active.  `num_active_labels` is the number of active labels. -/
structure Labels where
  costs : List (Option Nat)
  maxNum : Nat

/-- labels.cc:60-63 -/
def Labels.cost (L : Labels) (l : Nat) : Option Nat := (L.costs[l]?).join

/-- labels.cc:15-34, labels.h:76-82: the labels the iterator visits -/
def Labels.active (L : Labels) : List Nat := (List.range L.costs.length).filter (fun l => (L.cost l).isSome)

/-- labels.cc:51-56: the loop of `reduce_labels`; returns the costs of all labels and the least cost -/
def reduceLoop : List Nat → List (Option Nat) → Nat → Option (List (Option Nat) × Nat)
  | [], costs, c => some (costs, c)
  | l :: ls, costs, c =>
    match (costs[l]?).join with
    | none => none
    | some d => reduceLoop ls (costs.set l none) (if d < c then d else c)

/-- labels.cc:43-58 -/
def Labels.reduce (L : Labels) (old : List Nat) : Option Labels :=
  match reduceLoop old L.costs inf with
  | none => none
  | some (costs, c) => some ⟨costs ++ [some c], L.maxNum⟩

/-- transition_system.h:52-58 -/
structure LocalLabel where
  labels : List Nat
  transitions : List (Nat × Nat)
  cost : Nat
deriving DecidableEq, Repr

/-- transition_system.h:98-100 -/
def LocalLabel.active (i : LocalLabel) : Bool := !i.labels.isEmpty

/-- transition_system.cc:76-80; the cost -1, which is never read, is left unspecified as 0 -/
def inactive : LocalLabel := ⟨[], [], 0⟩

/-- transition_system.h:160-186; `labelTo` is label_to_local_label, `infos` is local_label_infos; num_states is the size of
goal_states (transition_system.cc:171-172, 322-349, fts_factory.cc:113-135) -/
structure TS where
  labelTo : List (Option Nat)
  infos : List LocalLabel
  goals : List Bool
  init : Option Nat
deriving DecidableEq, Repr

def TS.size (T : TS) : Nat := T.goals.length

/-- the order of transitions, transition_system.h:33-35 -/
def transLe (a b : Nat × Nat) : Prop := a.1 < b.1 ∨ (a.1 = b.1 ∧ a.2 ≤ b.2)

instance : DecidableRel transLe := fun a b => inferInstanceAs (Decidable (_ ∨ _))

/-- std::sort of labels -/
def sortLabels (l : List Nat) : List Nat := l.insertionSort (· ≤ ·)

/-- std::sort of transitions -/
def sortTrans (l : List (Nat × Nat)) : List (Nat × Nat) := l.insertionSort transLe

/-- std::unique of transitions -/
def uniqueTrans : List (Nat × Nat) → List (Nat × Nat)
  | [] => []
  | a :: l =>
    match uniqueTrans l with
    | [] => [a]
    | b :: r => if a = b then b :: r else a :: b :: r

/-- collections.h:15-18 -/
def sortUniqueTrans (l : List (Nat × Nat)) : List (Nat × Nat) := uniqueTrans (sortTrans l)

/-- assignment of `v` to the entries `ls` -/
def setAll (v : Option Nat) : List Nat → List (Option Nat) → Option (List (Option Nat))
  | [], m => some m
  | l :: ls, m => if l < m.length then setAll v ls (m.set l v) else none

/-- a loop computing the least cost of labels, starting with `c`: transition_system.cc:246-249, 269-271, 52-55 -/
def minCost (L : Labels) : List Nat → Nat → Option Nat
  | [], c => some c
  | l :: ls, c =>
    match L.cost l with
    | none => none
    | some d => minCost L ls (min c d)

/-- `f` for all elements; `none` if it is undefined for one of them -/
def mapAll {α β : Type} (f : α → Option β) : List α → Option (List β)
  | [] => some []
  | a :: l =>
    match f a with
    | none => none
    | some b =>
      match mapAll f l with
      | none => none
      | some bs => some (b :: bs)

/-- a map from keys to the elements with this key, in the order of insertion, filled by a loop over `l`, and traversed -/
def buckets (O : HashOrder) (key : Nat → Option Nat) (l : List Nat) : Option (List (Nat × List Nat)) :=
  match mapAll key l with
  | none => none
  | some ks => some ((O.order ks.eraseDups).map (fun k => (k, l.filter (fun x => key x = some k))))

/-! ### merge -/

section
variable (O : HashOrder) (L : Labels)

/-- transition_system.cc:227-237: the new transitions -/
def product (n2 : Nat) (t1 t2 : List (Nat × Nat)) : List (Nat × Nat) :=
  t1.flatMap (fun a => t2.map (fun b => (a.1 * n2 + b.1, a.2 * n2 + b.2)))

/-- transition_system.cc:215-237 for a bucket -/
def bucketGroup (T2 : TS) (t1 : List (Nat × Nat)) (b : Nat × List Nat) : Option (List Nat × List (Nat × Nat)) :=
  match T2.infos[b.1]? with
  | none => none
  | some i2 => some (b.2, product T2.size t1 i2.transitions)

/-- transition_system.cc:198-237 for one local label of the first system: the groups of labels with their transitions -/
def infoGroups (T2 : TS) (i1 : LocalLabel) : Option (List (List Nat × List (Nat × Nat))) :=
  match buckets O (fun l => (T2.labelTo[l]?).join) i1.labels with
  | none => none
  | some bs => mapAll (bucketGroup T2 i1.transitions) bs

/-- state of the loop that adds groups: label_to_local_label, local_label_infos, dead_labels -/
structure GroupSt where
  labelTo : List (Option Nat)
  infos : List LocalLabel
  dead : List Nat

/-- transition_system.cc:242-252, 265-276: a new local label with the next number -/
def addGroup (ls : List Nat) (ts : List (Nat × Nat)) (m : List (Option Nat)) (infos : List LocalLabel) : Option (List (Option Nat) × List LocalLabel) :=
  match minCost L ls inf, setAll (some infos.length) ls m with
  | some c, some m' => some (m', infos ++ [⟨ls, ts, c⟩])
  | _, _ => none

/-- transition_system.cc:239-253 for all groups -/
def addGroups : List (List Nat × List (Nat × Nat)) → GroupSt → Option GroupSt
  | [], st => some st
  | (ls, ts) :: gs, st =>
    if ts.isEmpty then addGroups gs { st with dead := st.dead ++ ls }
    else
      match addGroup L (sortLabels ls) (sortTrans ts) st.labelTo st.infos with
      | none => none
      | some (m, infos) => addGroups gs { st with labelTo := m, infos := infos }

/-- transition_system.cc:264-277 -/
def addDead (st : GroupSt) : Option (List (Option Nat) × List LocalLabel) :=
  if st.dead.isEmpty then some (st.labelTo, st.infos)
  else addGroup L (sortLabels st.dead) [] st.labelTo st.infos

/-- transition_system.cc:174-184: the new initial state -/
def mergeInit (T1 T2 : TS) : Option Nat :=
  match T1.init, T2.init with
  | some i1, some i2 => if i1 < T1.size ∧ i2 < T2.size then some (i1 * T2.size + i2) else none
  | _, _ => none

/-- transition_system.cc:149-283.  `none` also if an initial state is pruned (the assertion in line 185) or the number of states exceeds the int range.  The loops
over local labels and buckets are separated into the computation of all groups and a loop over the groups. -/
def TS.merge (T1 T2 : TS) : Option TS :=
  match mergeInit T1 T2 with
  | none => none
  | some i =>
    if T1.size * T2.size < 2 ^ 31 then
      match mapAll (infoGroups O T2) (T1.infos.filter (·.active)) with
      | none => none
      | some gs =>
        match addGroups L gs.flatten ⟨List.replicate L.maxNum none, [], []⟩ with
        | none => none
        | some st =>
          match addDead L st with
          | none => none
          | some (m, infos) => some ⟨m, infos, T1.goals.flatMap (fun a => T2.goals.map (fun b => a && b)), some i⟩
    else none

/-! ### local label equivalence -/

/-- transition_system.cc:301-316 for one pair of local labels -/
def equivStep (i j : Nat) (st : List (Option Nat) × List LocalLabel) : Option (List (Option Nat) × List LocalLabel) :=
  match st.2[i]?, st.2[j]? with
  | some a, some b =>
    if b.active ∧ a.transitions = b.transitions then
      match setAll (some i) b.labels st.1 with
      | none => none
      | some m => some (m, (st.2.set i ⟨sortLabels (a.labels ++ b.labels), a.transitions, min a.cost b.cost⟩).set j inactive)
    else some st
  | _, _ => none

/-- transition_system.cc:299-317: the inner loop -/
def equivInner (i : Nat) : List Nat → List (Option Nat) × List LocalLabel → Option (List (Option Nat) × List LocalLabel)
  | [], st => some st
  | j :: js, st =>
    match equivStep i j st with
    | none => none
    | some st => equivInner i js st

/-- transition_system.cc:294-319: the outer loop, for the local labels `is` of `n` -/
def equivOuter (n : Nat) : List Nat → List (Option Nat) × List LocalLabel → Option (List (Option Nat) × List LocalLabel)
  | [], st => some st
  | i :: is, st =>
    match st.2[i]? with
    | none => none
    | some a =>
      if a.active then
        match equivInner i (List.range' (i + 1) (n - (i + 1))) st with
        | none => none
        | some st => equivOuter n is st
      else equivOuter n is st

/-- transition_system.cc:285-322 -/
def computeEquivalent (st : List (Option Nat) × List LocalLabel) : Option (List (Option Nat) × List LocalLabel) :=
  equivOuter st.2.length (List.range st.2.length) st

/-! ### abstraction -/

/-- utils.cc:174-186: the inner loop for a class -/
def mapClass (k : Nat) : List Nat → List (Option Nat) → Option (List (Option Nat))
  | [], m => some m
  | s :: ss, m =>
    match m[s]? with
    | some none => mapClass k ss (m.set s (some k))
    | _ => none

/-- utils.cc:172-188 for the classes from number `k` -/
def mapClasses : List (List Nat) → Nat → List (Option Nat) → Option (List (Option Nat))
  | [], _, m => some m
  | c :: cs, k, m =>
    match mapClass k c m with
    | none => none
    | some m => mapClasses cs (k + 1) m

/-- utils.cc:172-188 -/
def abstractionMapping (n : Nat) (rel : List (List Nat)) : Option (List (Option Nat)) := mapClasses rel 0 (List.replicate n none)

/-- transition_system.cc:336-347: does the class contain a goal state? -/
def classGoal (goals : List Bool) : List Nat → Option Bool
  | [] => some false
  | s :: ss =>
    match goals[s]? with
    | none => none
    | some true => some true
    | some false => classGoal goals ss

/-- transition_system.cc:367-374 for one transition: `none` inside is a transition that is dropped -/
def mapTrans (m : List (Option Nat)) (t : Nat × Nat) : Option (Option (Nat × Nat)) :=
  match m[t.1]?, m[t.2]? with
  | some (some a), some (some b) => some (some (a, b))
  | some _, some _ => some none
  | _, _ => none

/-- transition_system.cc:352-379 for one local label -/
def mapInfo (m : List (Option Nat)) (i : LocalLabel) : Option LocalLabel :=
  match mapAll (mapTrans m) i.transitions with
  | none => none
  | some ts => some { i with transitions := sortUniqueTrans (ts.filterMap id) }

/-- transition_system.cc:383-384: the new initial state; undefined if the old one is pruned already -/
def mapInit (m : List (Option Nat)) (init : Option Nat) : Option (Option Nat) :=
  match init with
  | none => none
  | some i => m[i]?

/-- transition_system.cc:324-390 -/
def TS.applyAbstraction (T : TS) (rel : List (List Nat)) (m : List (Option Nat)) : Option TS :=
  if rel.length < T.size then
    match mapAll (classGoal T.goals) rel, mapAll (mapInfo m) T.infos, mapInit m T.init with
    | some goals, some infos, some init =>
      match computeEquivalent (T.labelTo, infos) with
      | none => none
      | some (labelTo, infos) => some ⟨labelTo, infos, goals, init⟩
    | _, _, _ => none
  else none

/-! ### label reduction -/

/-- transition_system.cc:39-48: std::set_difference, which requires both ranges to be sorted -/
def removeLabels (labels old : List Nat) : Option (List Nat) :=
  if labels.Pairwise (· < ·) ∧ old.Pairwise (· < ·) then some (labels.filter (fun l => decide (l ∉ old))) else none

/-- transition_system.cc:423-437: a new label for equivalent labels -/
def reduceEquivalent (e : Nat × List Nat) (st : List (Option Nat) × List LocalLabel) : Option (List (Option Nat) × List LocalLabel) :=
  match e.2 with
  | [] => none
  | l :: _ =>
    match (st.1[l]?).join with
    | none => none
    | some k =>
      match st.2[k]? with
      | none => none
      | some i =>
        match removeLabels i.labels e.2, setAll (some k) [e.1] st.1 with
        | some ls, some m =>
          match setAll none e.2 m with
          | none => none
          | some m => some (m, st.2.set k { i with labels := ls ++ [e.1] })
        | _, _ => none

/-- transition_system.cc:420-438 -/
def reduceAllEquivalent : List (Nat × List Nat) → List (Option Nat) × List LocalLabel → Option (List (Option Nat) × List LocalLabel)
  | [], st => some st
  | e :: es, st =>
    match reduceEquivalent e st with
    | none => none
    | some st => reduceAllEquivalent es st

/-- state of the loop for arbitrary labels: label_to_local_label, local_label_infos, local_label_to_old_labels as a list of pairs -/
structure CombSt where
  labelTo : List (Option Nat)
  infos : List LocalLabel
  removed : List (Nat × Nat)

/-- transition_system.cc:453-464: the loop over the old labels; collects the local labels seen and the transitions -/
def collectOld (infos : List LocalLabel) : List Nat → List (Option Nat) → List Nat → List (Nat × Nat) → List (Nat × Nat) → Option (List (Option Nat) × List (Nat × Nat) × List (Nat × Nat))
  | [], m, _, ts, rem => some (m, ts, rem)
  | l :: ls, m, seen, ts, rem =>
    match (m[l]?).join with
    | none => none
    | some k =>
      match infos[k]? with
      | none => none
      | some i => collectOld infos ls (m.set l none) (k :: seen) (if k ∈ seen then ts else ts ++ i.transitions) (rem ++ [(k, l)])

/-- transition_system.cc:448-477 for one new label -/
def combineOne (e : Nat × List Nat) (st : CombSt) : Option CombSt :=
  match collectOld st.infos e.2 st.labelTo [] [] st.removed with
  | none => none
  | some (m, ts, rem) =>
    match setAll (some st.infos.length) [e.1] m, L.cost e.1 with
    | some m, some c => some ⟨m, st.infos ++ [⟨[e.1], sortUniqueTrans ts, c⟩], rem⟩
    | _, _ => none

/-- transition_system.cc:447-477 -/
def combineAll : List (Nat × List Nat) → CombSt → Option CombSt
  | [], st => some st
  | e :: es, st =>
    match combineOne L e st with
    | none => none
    | some st => combineAll es st

/-- transition_system.cc:483-487 for the local label `k`; the entries of the map are for different local labels, so their order is irrelevant -/
def removeOld (rem : List (Nat × Nat)) (k : Nat) (infos : List LocalLabel) : Option (List LocalLabel) :=
  match infos[k]? with
  | none => none
  | some i =>
    match removeLabels i.labels (sortLabels ((rem.filter (fun e => e.1 = k)).map (·.2))) with
    | none => none
    | some ls =>
      match minCost L ls inf with
      | none => none
      | some c => some (infos.set k { i with labels := ls, cost := c })

/-- transition_system.cc:483-487 -/
def removeAllOld (rem : List (Nat × Nat)) : List Nat → List LocalLabel → Option (List LocalLabel)
  | [], infos => some infos
  | k :: ks, infos =>
    match removeOld L rem k infos with
    | none => none
    | some infos => removeAllOld rem ks infos

/-- transition_system.cc:439-490 -/
def reduceCombinable (es : List (Nat × List Nat)) (st : List (Option Nat) × List LocalLabel) : Option (List (Option Nat) × List LocalLabel) :=
  match combineAll L es ⟨st.1, st.2, []⟩ with
  | none => none
  | some c =>
    match removeAllOld L c.removed (c.removed.map (·.1)).eraseDups c.infos with
    | none => none
    | some infos => computeEquivalent (c.labelTo, infos)

/-- transition_system.cc:392-494; `L` are the labels after the reduction -/
def TS.applyLabelReduction (T : TS) (es : List (Nat × List Nat)) (onlyEquivalent : Bool) : Option TS :=
  if es.all (fun e => decide (2 ≤ e.2.length)) then
    match (if onlyEquivalent then reduceAllEquivalent es (T.labelTo, T.infos) else reduceCombinable L es (T.labelTo, T.infos)) with
    | none => none
    | some (m, infos) => some { T with labelTo := m, infos := infos }
  else none

end
end Verif.Mas
