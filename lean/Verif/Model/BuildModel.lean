import Verif.Spec.Datalog
import Verif.Model.MasFts
import Mathlib.Data.List.Dedup

/-
Model of src/translate/build_model.py: the exploration, which computes the atoms that follow from the facts by the rules of a program.

Strings that begin with "?" are variables, other strings are objects; here these are the constructors of `Term`.
Output to the terminal and counters (queue.num_pushes etc.) are left out.
-/
namespace Verif.BuildModel
open Verif.Datalog

/-- an argument after `variables_to_numbers`: a position in the effect, a variable that is not in the effect, or an object -/
inductive Arg (V O : Type) where
  | pos (n : Nat)
  | free (v : V)
  | const (o : O)
deriving DecidableEq

/-- a condition after `variables_to_numbers` -/
structure CAtom (P V O : Type) where
  pred : P
  args : List (Arg V O)

/-- a rule after `convert_rules`; `slots` are the arguments of the effect, where `none` is a number -/
structure CRule (P V O : Type) where
  type : RuleType
  pred : P
  slots : List (Option O)
  conditions : List (CAtom P V O)

section
variable {P V O : Type} [DecidableEq P] [DecidableEq V] [DecidableEq O]

/-- build_model.py:29-33 `rename_map`: later positions override earlier ones -/
def position (effect : SymAtom P V O) (v : V) : Option Nat := ((effect.args.zipIdx.filter (fun a => a.1 == .var v)).map (·.2)).getLast?

/-- build_model.py:49 `rename_map.get(arg, arg)` -/
def convertArg (effect : SymAtom P V O) : Term V O → Arg V O
  | .const o => .const o
  | .var v => match position effect v with
    | some n => .pos n
    | none => .free v

/-- build_model.py:29-33: the arguments of the new effect -/
def slot : Term V O → Option O
  | .const o => some o
  | .var _ => none

/-- build_model.py:11-25 `convert_rules` (one rule), 27-51 `variables_to_numbers` -/
def convert (r : Datalog.Rule P V O) : CRule P V O := ⟨r.type, r.effect.pred, r.effect.args.map slot, r.conditions.map (fun c => ⟨c.pred, c.args.map (convertArg r.effect)⟩)⟩

/-- an argument that is a number or a variable -/
def Arg.isVar : Arg V O → Bool
  | .pos _ => true
  | .free _ => true
  | .const _ => false

/-- build_model.py:84-87, 120-122: the set of the variables of a condition -/
def varSet (c : CAtom P V O) : List (Arg V O) := (c.args.filter (·.isVar)).dedup

/-- build_model.py:88-89, 124-125: the set of the variables of the effect -/
def effSet (r : CRule P V O) : List (Arg V O) := (r.slots.zipIdx.filter (fun s => s.1.isNone)).map (fun s => .pos s.2)

/-- build_model.py:79-91, 118-127, 168-169 `validate`: the assertions -/
def validate (r : CRule P V O) : Bool :=
  match r.type with
  | .join =>
    match r.conditions with
    | [c, d] => (varSet c).any (fun v => (varSet d).contains v) &&
        (varSet c ++ varSet d).all (fun v => ((varSet c).contains v && (varSet d).contains v) || (effSet r).contains v) && (effSet r).all (fun v => (varSet c ++ varSet d).contains v)
    | _ => false
  | .product => decide (2 ≤ r.conditions.length) && decide ((r.conditions.flatMap varSet).dedup.length = (effSet r).length) && decide ((r.conditions.flatMap varSet).dedup.length = (r.conditions.map (fun c => (varSet c).length)).sum)
  | .project => decide (r.conditions.length = 1)

/-- build_model.py:57-59, 107-109, 134-136: what an atom says about positions of the effect -/
def bindings (c : CAtom P V O) (a : GAtom P O) : List (Nat × O) := (c.args.zip a.args).filterMap (fun x => match x.1 with | .pos n => some (n, x.2) | _ => none)

/-- build_model.py:59, 109, 160: effect_args[var_no] = obj -/
def assign (slots : List (Option O)) : List (Nat × O) → List (Option O)
  | [] => slots
  | b :: bs => assign (slots.set b.1 (some b.2)) bs

/-- the new atom; `none` if a number is left in its arguments -/
def emit (pred : P) (slots : List (Option O)) : Option (GAtom P O) := (Mas.mapAll id slots).map (fun args => ⟨pred, args⟩)

/-- the numbers in a condition -/
def numbers (c : CAtom P V O) : List Nat := c.args.filterMap (fun x => match x with | .pos n => some n | _ => none)

/-- build_model.py:70-77: common_vars of the conditions of a join (sorted), and the positions of these in the arguments of a condition -/
def keyPositions (r : CRule P V O) (c d : CAtom P V O) (e : CAtom P V O) : List Nat :=
  ((List.range r.slots.length).filter (fun n => (numbers c).contains n && (numbers d).contains n)).map (fun n => e.args.findIdx (fun x => x == .pos n))

/-- build_model.py:93-96, 100-103: the key of an atom; `none` is an IndexError -/
def keyOf (positions : List Nat) (a : GAtom P O) : Option (List O) := Mas.mapAll (fun (p : Nat) => a.args[p]?) positions

/-- The atoms that were seen, for each condition of a rule.  For joins, with their keys: atoms_by_key (build_model.py:78) has the atoms with a given key in this order.  For products, the key is not used. -/
abbrev Index (P O : Type) := List (List (List O × GAtom P O))

/-- the key that a rule uses for a new atom -/
def ruleKey (r : CRule P V O) (j : Nat) (a : GAtom P O) : Option (List O) :=
  match r.type, r.conditions with
  | .join, [c, d] => keyOf (keyPositions r c d (if j = 0 then c else d)) a
  | .join, _ => none
  | _, _ => some []

/-- build_model.py:92-97, 128-132, 170-171 `update_index`.  A projection keeps no atoms in the code; here it does, but they are not used. -/
def updateIndex (r : CRule P V O) (idx : Index P O) (j : Nat) (a : GAtom P O) : Option (Index P O) := (ruleKey r j a).map (fun k => idx.modify j (fun l => l ++ [(k, a)]))

/-- build_model.py:106-110, 157-161: effect_args is changed for one list of bindings after another, and atoms are enqueued -/
def emitAll (pred : P) : List (List (Nat × O)) → List (Option O) → Option (List (GAtom P O))
  | [], _ => some []
  | bs :: bss, slots =>
    match emit pred (assign slots bs) with
    | none => none
    | some e => (emitAll pred bss (assign slots bs)).map (e :: ·)

/-- itertools.product -/
def product {β : Type} : List (List β) → List (List β)
  | [] => [[]]
  | f :: fs => f.flatMap (fun b => (product fs).map (b :: ·))

/-- build_model.py:146-153: the bindings of atoms for the other conditions -/
def factors (r : CRule P V O) (idx : Index P O) (j : Nat) : List (List (List (Nat × O))) := (((r.conditions.zip idx).zipIdx).filter (fun x => x.2 != j)).map (fun x => x.1.2.map (fun e => bindings x.1.1 e.2))

/-- build_model.py:98-110, 138-161, 172-174 `fire`: the atoms that are enqueued; `none` is an exception -/
def fire (r : CRule P V O) (idx : Index P O) (j : Nat) (a : GAtom P O) : Option (List (GAtom P O)) :=
  match r.conditions[j]? with
  | none => none
  | some c =>
    match r.type with
    | .project => emitAll r.pred [[]] (assign r.slots (bindings c a))
    | .join =>
      match ruleKey r j a, r.conditions[1 - j]?, idx[1 - j]? with
      | some k, some d, some l => emitAll r.pred ((l.filter (fun e => e.1 == k)).map (fun e => bindings d e.2)) (assign r.slots (bindings c a))
      | _, _, _ => none
    | .product =>
      if idx.any (fun l => l.isEmpty) then some []
      else emitAll r.pred ((product (factors r idx j)).map (·.flatten)) (assign r.slots (bindings c a))
end

/- build_model.py:207-276: LeafGenerator and MatchGenerator.  The dictionary match_generator is a list of branches.
   (These types have no counterpart of the class attribute `index` of leaves, which is not used.) -/
mutual
inductive Gen (O R : Type) where
  | leaf (ms : List R)
  | node (index : Nat) (ms : List R) (branches : Branches O R) (next : Gen O R)
inductive Branches (O R : Type) where
  | nil
  | cons (arg : O) (g : Gen O R) (rest : Branches O R)
end

section
variable {O R : Type} [DecidableEq O]

/-- build_model.py:220-226: branches for the remaining arguments of a new value -/
def chain : List (Nat × O) → R → Gen O R
  | [], v => .leaf [v]
  | (i, a) :: rest, v => .node i [] (.cons a (chain rest v) .nil) (.leaf [])

/-- build_model.py:215-227 `LeafGenerator._insert` -/
def leafInsert (ms : List R) : List (Nat × O) → R → Gen O R
  | [], v => .leaf (ms ++ [v])
  | (i, a) :: rest, v => .node i ms (.cons a (chain rest v) .nil) (.leaf [])

mutual
/-- build_model.py:215-227, 246-266 `_insert` -/
def insert : Gen O R → List (Nat × O) → R → Gen O R
  | .leaf ms, args, v => leafInsert ms args v
  | .node i ms br next, [], v => .node i (ms ++ [v]) br next
  | .node i ms br next, (j, a) :: rest, v =>
    if i < j then .node i ms br (insert next ((j, a) :: rest) v)
    else if j < i then .node j [] (.cons a (leafInsert [] rest v) .nil) (.node i ms br next)
    else .node i ms (insertIn br a rest v) next
/-- build_model.py:260-265: the branch for an object -/
def insertIn : Branches O R → O → List (Nat × O) → R → Branches O R
  | .nil, a, rest, v => .cons a (leafInsert [] rest v) .nil
  | .cons b g more, a, rest, v => if b = a then .cons b (insert g rest v) more else .cons b g (insertIn more a rest v)
end

mutual
/-- build_model.py:213-214, 240-245 `generate`; `none` is an IndexError -/
def generate : Gen O R → List O → Option (List R)
  | .leaf ms, _ => some ms
  | .node i ms br next, args =>
    match args[i]? with
    | none => none
    | some o =>
      match generateIn br o args, generate next args with
      | some l, some l' => some (ms ++ l ++ l')
      | _, _ => none
/-- build_model.py:242-244: the branch for an object -/
def generateIn : Branches O R → O → List O → Option (List R)
  | .nil, _, _ => some []
  | .cons b g more, o, args => if b = o then generate g args else generateIn more o args
end
end

section
variable {P V O : Type} [DecidableEq P] [DecidableEq V] [DecidableEq O]

/-- build_model.py:193-196: constant_arguments -/
def constants (c : CAtom P V O) : List (Nat × O) := c.args.zipIdx.filterMap (fun x => match x.1 with | .const o => some (x.2, o) | _ => none)

/-- build_model.py:179-181: the conditions of all rules, with the numbers of rule and condition -/
def allConditions (rules : List (CRule P V O)) : List (CAtom P V O × (Nat × Nat)) := rules.zipIdx.flatMap (fun r => r.1.conditions.zipIdx.map (fun c => (c.1, (r.2, c.2))))

/-- build_model.py:176-198 `Unifier`: predicate_to_rule_generator for one predicate (no generator is the same as an empty one) -/
def generatorFor (rules : List (CRule P V O)) (p : P) : Gen O (Nat × Nat) := ((allConditions rules).filter (fun x => x.1.pred == p)).foldl (fun g x => insert g (constants x.1) x.2) (.leaf [])

/-- build_model.py:182-187 `unify`: numbers of rules and conditions -/
def unify (rules : List (CRule P V O)) (a : GAtom P O) : Option (List (Nat × Nat)) := generate (generatorFor rules a.pred) a.args

/-- build_model.py:288-293 `Queue.push`, one after another; `seen` are the atoms that were popped, `enqueued` has these and the atoms of the queue -/
def push (seen : List (GAtom P O)) : List (GAtom P O) → List (GAtom P O) → List (GAtom P O)
  | [], queue => queue
  | a :: as, queue => if a ∈ seen ++ queue then push seen as queue else push seen as (queue ++ [a])

/-- build_model.py:318-320: the loop over the matches of an atom -/
def handle (rules : List (CRule P V O)) (seen : List (GAtom P O)) (a : GAtom P O) : List (Nat × Nat) → List (Index P O) → List (GAtom P O) → Option (List (Index P O) × List (GAtom P O))
  | [], index, queue => some (index, queue)
  | (i, j) :: ms, index, queue =>
    match rules[i]?, index[i]? with
    | some r, some idx =>
      match updateIndex r idx j a with
      | none => none
      | some idx' =>
        match fire r idx' j a with
        | none => none
        | some es => handle rules seen a ms (index.set i idx') (push seen es queue)
    | _, _ => none

/-- the outcome of the exploration; `running` means that it needs more iterations -/
inductive Outcome (P O : Type) where
  | running
  | error
  | ok (atoms : List (GAtom P O))
deriving DecidableEq

/-- build_model.py:310-320: the loop over the queue, with at most the given number of iterations -/
def loop (rules : List (CRule P V O)) : Nat → List (GAtom P O) → List (GAtom P O) → List (Index P O) → Outcome P O
  | _, seen, [], _ => .ok seen
  | 0, _, _ :: _, _ => .running
  | n + 1, seen, a :: queue, index =>
    match unify rules a with
    | none => .error
    | some ms =>
      match handle rules (seen ++ [a]) a ms index queue with
      | none => .error
      | some s => loop rules n (seen ++ [a]) s.2 s.1

/-- build_model.py:299-325 `compute_model`; the facts are given in their order after sorting -/
def computeModel (n : Nat) (facts : List (GAtom P O)) (rules : List (Datalog.Rule P V O)) : Outcome P O :=
  if (rules.map convert).all validate then loop (rules.map convert) n [] facts ((rules.map convert).map (fun r => r.conditions.map (fun _ => [])))
  else .error

end
end Verif.BuildModel
