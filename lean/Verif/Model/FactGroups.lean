import Verif.Model.StripsToSas
import Verif.Spec.FactGroups
import Mathlib.Data.List.Lex
import Mathlib.Data.List.Dedup
import Mathlib.Data.List.Sort
import Mathlib.Data.Prod.Lex
import Mathlib.Data.Char

/-
Model of src/translate/fact_groups.py: the groups of atoms from which finite-domain variables are made.

Sets of Python are lists without duplicates.  The order of their elements is the one in which they are given here; the theorems are about every order.
-/
namespace Verif.FactGroups

/-- fact_groups.py:13-29: one fact of the group -/
def expandFact (objects : List (List Char)) (reachable : List Atom) (fact : Atom) : List Atom :=
  match fact.args.findIdx? (· == counted) with
  | none => if fact ∈ reachable then [fact] else []
  | some pos => (objects.map (fun o => Atom.mk fact.predicate (fact.args.set pos o))).filter (fun a => decide (a ∈ reachable))

/-- fact_groups.py:11-30 `expand_group`; `objects` are the names of task.objects -/
def expandGroup (objects : List (List Char)) (reachable : List Atom) (group : List Atom) : List Atom := group.flatMap (expandFact objects reachable)

/-- fact_groups.py:32-33 `instantiate_groups` -/
def instantiateGroups (objects : List (List Char)) (reachable : List Atom) (groups : List (List Atom)) : List (List Atom) := groups.map (expandGroup objects reachable)

section
variable {α : Type} [DecidableEq α]

/-- fact_groups.py:36-51: the attributes of GroupCoverQueue.  The sets are shared between `groups_by_size`, `groups_by_fact` and `top`: those contain numbers of sets, and `sets` has the contents.  The last element of a list of `groups_by_size`
is the first one here. -/
structure Queue (α : Type) where
  maxSize : Nat
  sets : Nat → List α
  bySize : List (List Nat)
  byFact : α → List Nat
  top : Option Nat

/-- fact_groups.py:43, 68: append a set to a list of groups_by_size; `none` is an IndexError -/
def push (b : List (List Nat)) (size c : Nat) : Option (List (List Nat)) :=
  match b[size]? with
  | none => none
  | some l => some (b.set size (c :: l))

/-- fact_groups.py:63-68: the inner loop, on a list that was taken out of `b`.  The result is the new top with the rest of the list. -/
def scan (sets : Nat → List α) (size : Nat) : List Nat → List (List Nat) → Option (Option (Nat × List Nat) × List (List Nat))
  | [], b => some (none, b)
  | c :: cs, b =>
    if (sets c).length = size then some (some (c, cs), b)
    else
      match push b (sets c).length c with
      | none => none
      | some b => scan sets size cs b

/-- fact_groups.py:60-69 `_update_top`; if there is no new top, the attribute keeps its old value, which is not used any more, and it is `none` here -/
def updateTop (sets : Nat → List α) : Nat → List (List Nat) → Option (Nat × Option Nat × List (List Nat))
  | 0, b => some (0, none, b)
  | m + 1, b =>
    if m = 0 then some (1, none, b)
    else
      match b[m + 1]? with
      | none => none
      | some l =>
        match scan sets (m + 1) l (b.set (m + 1) []) with
        | none => none
        | some (some (c, cs), b) => some (m + 1, some c, b.set (m + 1) cs)
        | some (none, b) => updateTop sets m b

/-- fact_groups.py:41-43: all groups are put into groups_by_size; `i` is the number of the next group -/
def pushAll : List (List α) → Nat → List (List Nat) → Option (List (List Nat))
  | [], _, b => some b
  | g :: gs, i, b =>
    match push b g.dedup.length i with
    | none => none
    | some b => pushAll gs (i + 1) b

/-- the set with number `i` -/
def setOf (groups : List (List α)) (i : Nat) : List α := (groups[i]?.getD []).dedup

/-- fact_groups.py:36-48 `__init__` -/
def mkQueue (groups : List (List α)) : Option (Queue α) :=
  if groups.isEmpty then some ⟨0, fun _ => [], [], fun _ => [], none⟩
  else
    match pushAll groups 0 (List.replicate ((groups.map List.length).foldl max 0 + 1) []) with
    | none => none
    | some b =>
      match updateTop (setOf groups) ((groups.map List.length).foldl max 0) b with
      | none => none
      | some (m, top, b) => some ⟨m, setOf groups, b, fun x => (List.range groups.length).filter (fun i => decide (x ∈ setOf groups i)), top⟩

/-- fact_groups.py:56-57: a fact is removed from all groups that had it; `none` is a KeyError -/
def removeFact (x : α) : List Nat → (Nat → List α) → Option (Nat → List α)
  | [], sets => some sets
  | i :: is, sets => if x ∈ sets i then removeFact x is (fun j => if j = i then (sets i).erase x else sets j) else none

/-- fact_groups.py:55-57; `none` is a KeyError -/
def removeFacts (byFact : α → List Nat) : List α → (Nat → List α) → Option (Nat → List α)
  | [], sets => some sets
  | x :: xs, sets =>
    if (byFact x).isEmpty then none
    else
      match removeFact x (byFact x) sets with
      | none => none
      | some sets => removeFacts byFact xs sets

/-- fact_groups.py:52-59 `pop`; `part` is the option use_partial_encoding -/
def pop (part : Bool) (q : Queue α) : Option (List α × Queue α) :=
  match q.top with
  | none => none
  | some c =>
    match (if part then removeFacts q.byFact (q.sets c) q.sets else some q.sets) with
    | none => none
    | some sets =>
      match updateTop sets q.maxSize q.bySize with
      | none => none
      | some (m, top, b) => some (q.sets c, ⟨m, sets, b, q.byFact, top⟩)

/-- fact_groups.py:79-82: the loop, with at most the given number of iterations; `none` also if there would be more.  The result are the chosen groups and the uncovered facts. -/
def coverLoop (part : Bool) : Nat → Queue α → List α → Option (List (List α) × List α)
  | 0, q, uncovered => if q.maxSize > 1 then none else some ([], uncovered)
  | n + 1, q, uncovered =>
    if q.maxSize > 1 then
      match pop part q with
      | none => none
      | some (g, q) =>
        match coverLoop part n q (uncovered.filter (fun x => !g.contains x)) with
        | none => none
        | some (gs, u) => some (g :: gs, u)
    else some ([], uncovered)

/-- fact_groups.py:72-75 -/
def removeNegative (groups : List (List α)) (negative : List α) : List (List α) :=
  if negative.isEmpty then groups else groups.map (fun g => g.dedup.filter (fun x => !negative.contains x))

/-- fact_groups.py:76-82: the chosen groups and the uncovered facts -/
def chosen (part : Bool) (groups : List (List α)) (reachable negative : List α) : Option (List (List α) × List α) :=
  match mkQueue (removeNegative groups negative) with
  | none => none
  | some q => coverLoop part groups.length q reachable

/-- fact_groups.py:71-85 `choose_groups` -/
def chooseGroups (part : Bool) (groups : List (List α)) (reachable negative : List α) : Option (List (List α)) :=
  match chosen part groups reachable negative with
  | none => none
  | some (gs, u) => some (gs ++ u.map (fun x => [x]))

/-- fact_groups.py:98-108 `collect_all_mutex_groups` -/
def collectMutexGroups (groups : List (List α)) (atoms : List α) : List (List α) :=
  groups ++ (groups.foldl (fun (u : List α) (g : List α) => u.filter (fun x => !g.contains x)) atoms).map (fun x => [x])

end

/-- fact_groups.py:110-111 `sort_groups`: lists are compared lexicographically -/
def sortGroups {α : Type} [LinearOrder α] (groups : List (List α)) : List (List α) := (groups.map (fun g => g.insertionSort (· ≤ ·))).insertionSort (· ≤ ·)

/-- str.join -/
def join (sep : List Char) : List (List Char) → List Char
  | [] => []
  | [s] => s
  | s :: ss => s ++ sep ++ join sep ss

/-- conditions.py:306-308 -/
def literalString (cls : List Char) (p : Atom) : List Char := cls ++ " ".toList ++ p.predicate ++ "(".toList ++ join ", ".toList p.args ++ ")".toList

/-- fact_groups.py:90-94: names of the values of one variable -/
def groupKey (group : List Atom) : List (List Char) :=
  group.map (literalString "Atom".toList) ++
    (match group with
      | [p] => [literalString "NegatedAtom".toList p]
      | _ => ["<none of those>".toList])

/-- fact_groups.py:87-96 `build_translation_key` -/
def translationKey (groups : List (List Atom)) : List (List (List Char)) := groups.map groupKey

/-- fact_groups.py:113-146 `compute_groups`, where `invariants` is the result of invariant_finder.get_groups, and `objects` are the names of task.objects -/
def computeGroups (part : Bool) (objects : List (List Char)) (invariants : List (List Atom)) (atoms negative : List Atom) : Option (List (List Atom) × List (List Atom) × List (List (List Char))) :=
  match chooseGroups part (sortGroups (instantiateGroups objects atoms invariants)) atoms negative with
  | none => none
  | some groups => some (sortGroups groups, collectMutexGroups (sortGroups (instantiateGroups objects atoms invariants)) atoms, translationKey (sortGroups groups))

/-- main.py:544-548: negative_in_goal -/
def negativeInGoal {α : Type} [DecidableEq α] (goal : List (Strips.Literal α)) : List α := ((goal.filter (·.negated)).map (·.atom)).dedup

end Verif.FactGroups
