import Verif.Model.MasDistances
import Mathlib.Data.List.Lex
import Mathlib.Data.Prod.Lex
import Mathlib.Data.Int.Order.Basic

/-
Model of src/search/merge_and_shrink/shrink_bisimulation.cc.

`none` is undefined behaviour or a failed assertion.  The sentinels at both ends of the vector of signatures are the ends of the list.
-/
namespace Verif.Mas

/-- shrink_bisimulation.h:9-12 -/
inductive AtLimit where
  | return
  | useUp
deriving DecidableEq

/-- shrink_bisimulation.cc:48-66 -/
structure Sig where
  h : Int
  group : Nat
  succ : List (Nat × Nat)
  state : Nat
deriving DecidableEq, Repr

/-- shrink_bisimulation.cc:68-76: the order of signatures is lexicographic -/
def Sig.key (s : Sig) : Int ×ₗ Nat ×ₗ List (Nat ×ₗ Nat) ×ₗ Nat := toLex (s.h, toLex (s.group, toLex (s.succ.map toLex, s.state)))

/-- shrink_bisimulation.cc:54-66, 116-121, 144-151: -1 for goal states, h for other states; IRRELEVANT for infinity -/
def sigH (T : TS) (ds : List Nat) (s : Nat) : Option Int :=
  match ds[s]?, T.goals[s]? with
  | some d, some true => if d = 0 then some (-1) else none
  | some d, some false => some (if d = inf then ((inf - 1 : Nat) : Int) else (d : Int))
  | _, _ => none

/-- shrink_bisimulation.cc:98-135 `initialize_groups`, for the states of the list; `map` is h_to_group, `num` is num_groups -/
def initGroups (T : TS) (ds : List Nat) : List Nat → List (Int × Nat) → Nat → List Nat → Option (List Nat × Nat)
  | [], _, num, g => some (g, num)
  | s :: ss, map, num, g =>
    match sigH T ds s with
    | none => none
    | some h =>
      if h = -1 then initGroups T ds ss map num (g ++ [0])
      else
        match map.lookup h with
        | some k => initGroups T ds ss map num (g ++ [k])
        | none => initGroups T ds ss ((h, num) :: map) (num + 1) (g ++ [num])

section
variable (greedy : Bool) (ds g : List Nat)

/-- shrink_bisimulation.cc:186-207: what a transition of the label group with number `k` adds to the signature of its source; `none` inside if it is skipped -/
def sigEntry (k cost : Nat) (t : Nat × Nat) : Option (Option (Nat × Nat)) :=
  match ds[t.1]?, ds[t.2]?, g[t.2]? with
  | some a, some b, some x =>
    if greedy then
      if a = inf ∨ b = inf then some none
      else if b + cost < 2 ^ 31 then some (if b + cost ≠ a then none else some (k, x))
      else none
    else some (some (k, x))
  | _, _, _ => none

/-- shrink_bisimulation.cc:183-209 for a label group and a source -/
def groupEntries (s : Nat) (p : LocalLabel × Nat) : Option (List (Option (Nat × Nat))) :=
  mapAll (sigEntry greedy ds g p.2 p.1.cost) (p.1.transitions.filter (fun t => decide (t.1 = s)))

/-- shrink_bisimulation.cc:182-212, 228-233: the successor signature of a state.  The loop over the transitions is the inner one here. -/
def succSig (T : TS) (s : Nat) : Option (List (Nat × Nat)) :=
  match mapAll (groupEntries greedy ds g s) (T.infos.filter (·.active)).zipIdx with
  | none => none
  | some ls => some (sortUniqueTrans (ls.flatten.filterMap id))

/-- the signature of a state -/
def sigOf (T : TS) (s : Nat) : Option Sig :=
  match sigH T ds s, g[s]?, succSig greedy ds g T s with
  | some h, some x, some l => some ⟨h, x, l, s⟩
  | _, _, _ => none

/-- std::sort of signatures -/
def sortSigs (l : List Sig) : List Sig := l.insertionSort (fun a b => a.key ≤ b.key)

/-- shrink_bisimulation.cc:137-236 `compute_signatures`; the sources of transitions index the vector -/
def signatures (T : TS) : Option (List Sig) :=
  if T.arcs.all (fun a => decide (a.1 < T.size)) then
    match mapAll (sigOf greedy ds g T) (List.range T.size) with
    | none => none
    | some l => some (sortSigs l)
  else none

end

/-- shrink_bisimulation.cc:266-278: the signatures with the same h value, which are contiguous -/
def hBlocks : List Sig → List (List Sig)
  | [] => []
  | a :: l =>
    match hBlocks l with
    | [] => [[a]]
    | [] :: rest => [a] :: rest
    | (b :: bs) :: rest => if a.h = b.h then (a :: b :: bs) :: rest else [a] :: (b :: bs) :: rest

/-- is the signature the first one of its group? The sentinel at the start has group -1. -/
def newBlock (prev : Option Sig) (cur : Sig) : Bool :=
  match prev with
  | none => true
  | some p => decide (p.group ≠ cur.group)

/-- does the signature of the successors change? -/
def newSucc (prev : Option Sig) (cur : Sig) : Bool :=
  match prev with
  | none => decide (cur.succ ≠ [])
  | some p => decide (p.succ ≠ cur.succ)

/-- shrink_bisimulation.cc:273-293: num_old_groups and num_new_groups -/
def countGroups : Option Sig → List Sig → Nat × Nat
  | _, [] => (0, 0)
  | prev, cur :: l =>
    if newBlock prev cur then ((countGroups (some cur) l).1 + 1, (countGroups (some cur) l).2 + 1)
    else if newSucc prev cur then ((countGroups (some cur) l).1, (countGroups (some cur) l).2 + 1)
    else countGroups (some cur) l

/-- shrink_bisimulation.cc:308-318: new_group_no and num_groups for a signature; -1 is `none` -/
def newNo (prev : Option Sig) (cur : Sig) (no : Option Nat) (num : Nat) : Option Nat × Nat :=
  if newBlock prev cur then (some cur.group, num)
  else if newSucc prev cur then (some num, num + 1)
  else (no, num)

/-- shrink_bisimulation.cc:307-325: the groups are split; ends when num_groups is the target size -/
def splitGroups (target : Nat) : Option Sig → List Sig → Option Nat → List Nat → Nat → Option (List Nat × Nat)
  | _, [], _, g, num => some (g, num)
  | prev, cur :: l, no, g, num =>
    match (newNo prev cur no num).1 with
    | none => none
    | some k =>
      if cur.state < g.length then
        if (newNo prev cur no num).2 = target then some (g.set cur.state k, (newNo prev cur no num).2)
        else splitGroups target (some cur) l (some k) (g.set cur.state k) (newNo prev cur no num).2
      else none

/-- state_to_group, num_groups, stable, stop_requested -/
structure ShrinkSt where
  g : List Nat
  num : Nat
  stable : Bool
  stop : Bool

/-- shrink_bisimulation.cc:264-329: the loop over the h values; `prev` is the signature before the first one -/
def pass (atLimit : AtLimit) (target : Nat) : Option Sig → List (List Sig) → ShrinkSt → Option ShrinkSt
  | _, [], st => some st
  | prev, b :: bs, st =>
    if atLimit = .return ∧ target + (countGroups prev b).1 < st.num + (countGroups prev b).2 then some { st with stop := true }
    else if (countGroups prev b).2 ≠ (countGroups prev b).1 then
      match splitGroups target prev b none st.g st.num with
      | none => none
      | some (g, num) => if num = target then some { st with g := g, num := num, stable := false } else pass atLimit target b.getLast? bs { st with g := g, num := num, stable := false }
    else pass atLimit target b.getLast? bs st

/-- shrink_bisimulation.cc:257-330: the outer loop; the first argument bounds the number of iterations.  stable is set to true before every iteration. -/
def shrinkLoop (greedy : Bool) (atLimit : AtLimit) (target : Nat) (T : TS) (ds : List Nat) : Nat → List Nat → Nat → Option (List Nat × Nat)
  | 0, _, _ => none
  | fuel + 1, g, num =>
    if num < target then
      match signatures greedy ds g T with
      | none => none
      | some sigs =>
        match pass atLimit target none (hBlocks sigs) ⟨g, num, true, false⟩ with
        | none => none
        | some st => if st.stable || st.stop then some (st.g, st.num) else shrinkLoop greedy atLimit target T ds fuel st.g st.num
    else some (g, num)

/-- shrink_bisimulation.cc:337-347: the classes; elements are added at the front -/
def groupClasses (n num : Nat) (g : List Nat) : Option (List (List Nat)) :=
  if g.all (fun k => decide (k < num)) then some ((List.range num).map (fun k => ((List.range n).filter (fun s => g[s]? == some k)).reverse)) else none

/-- shrink_bisimulation.cc:238-350 `compute_equivalence_relation`.  An iteration that is not the last one starts a group, so there are at most as many as states. -/
def shrinkBisimulation (greedy : Bool) (atLimit : AtLimit) (T : TS) (d : Distances) (target : Nat) : Option (List (List Nat)) :=
  match d.goal with
  | none => none
  | some ds =>
    match initGroups T ds (List.range T.size) [] 1 [] with
    | none => none
    | some (g, num) =>
      match shrinkLoop greedy atLimit target T ds (T.size + 2) g num with
      | none => none
      | some (g, num) => groupClasses T.size num g

end Verif.Mas
