import Verif.Spec.Succ
import Verif.Model.Sccs

/-
Model of src/search/tasks/default_value_axioms_task.cc.

`none` is an access outside of a vector.  Sets of facts (`std::set`) are sorted lists; the order of
hash sets is a parameter.
-/
namespace Verif.DefaultAxioms

/-- default_value_axioms_task.h:36-39 -/
inductive Handling where
  | approximateNegative
  | approximateNegativeCycles
deriving DecidableEq

/-- the orders in which elements of hash sets are visited -/
structure HashOrders where
  needed : List (Nat × Bool) → List (Nat × Bool)
  vars : List Nat → List Nat

/-- hash sets are visited completely and without repetition -/
structure HashOrders.Legal (o : HashOrders) : Prop where
  needed : ∀ l, (o.needed l).Perm l
  vars : ∀ l, (o.vars l).Perm l

/-- default_value_axioms_task.cc:43-46, 139-142: is_derived and get_default_axiom_value for the variable of a fact -/
inductive Kind where
  | base
  | default
  | nondefault
deriving DecidableEq

def kind (t : Task) (f : Fact) : Option Kind :=
  match t.vars[f.var]? with
  | none => none
  | some d => some (if d.layer = none then .base else if f.val = d.default then .default else .nondefault)

/-- default_value_axioms_task.cc:34-37 -/
structure Deps where
  nondefault : List (List Nat)
  default : List (List Nat)
  ids : List (List Nat)

/-- `l[i].push_back(x)` -/
def pushAt (l : List (List Nat)) (i x : Nat) : Option (List (List Nat)) :=
  match l[i]? with
  | none => none
  | some xs => some (l.set i (xs ++ [x]))

/-- default_value_axioms_task.cc:42-52 -/
def addConds (t : Task) (head : Nat) : List Fact → Deps → Option Deps
  | [], d => some d
  | c :: cs, d =>
    match kind t c with
    | none => none
    | some .base => addConds t head cs d
    | some .default =>
      match pushAt d.default head c.var with
      | none => none
      | some l => addConds t head cs { d with default := l }
    | some .nondefault =>
      match pushAt d.nondefault head c.var with
      | none => none
      | some l => addConds t head cs { d with nondefault := l }

/-- default_value_axioms_task.cc:38-53; `i` is the id of the first axiom -/
def addAxioms (t : Task) : List Operator → Nat → Deps → Option Deps
  | [], _, d => some d
  | a :: as, i, d =>
    match a.effects with
    | [] => none
    | e :: _ =>
      match pushAt d.ids e.fact.var i with
      | none => none
      | some l =>
        match addConds t e.fact.var e.conds { d with ids := l } with
        | none => none
        | some d' => addAxioms t as (i + 1) d'

/-- default_value_axioms_task.cc:34-53 -/
def dependencies (t : Task) : Option Deps := addAxioms t t.axioms 0 ⟨t.vars.map (fun _ => []), t.vars.map (fun _ => []), t.vars.map (fun _ => [])⟩

/-- default_value_axioms_task.cc:61-73; empty for APPROXIMATE_NEGATIVE -/
def components (h : Handling) (d : Deps) : Option (List (List Nat)) :=
  match h with
  | .approximateNegative => some []
  | .approximateNegativeCycles => Sccs.computeMaximalSccs d.nondefault d.nondefault.length

/-- default_value_axioms_task.cc:84-85, 181-182; `none` is a null pointer.  Every variable is in one component only. -/
def approximated (h : Handling) (sccs : List (List Nat)) (v : Nat) : Option Bool :=
  match h with
  | .approximateNegative => some true
  | .approximateNegativeCycles =>
    match sccs.find? (fun c => decide (v ∈ c)) with
    | none => none
    | some c => some (decide (1 < c.length))

/-- HashSet::emplace -/
def insertNeeded (x : Nat × Bool) (l : List (Nat × Bool)) : List (Nat × Bool) := if x ∈ l then l else l ++ [x]

/-- default_value_axioms_task.cc:138-165: the conditions in the order in which they are visited -/
def conditions (t : Task) : List Fact := t.goal ++ t.ops.flatMap (fun o => o.pre ++ o.effects.flatMap (·.conds))

/-- default_value_axioms_task.cc:138-165 -/
def collectNeeded (t : Task) : List Fact → List (Nat × Bool) → Option (List (Nat × Bool))
  | [], l => some l
  | f :: fs, l =>
    match kind t f with
    | none => none
    | some .base => collectNeeded t fs l
    | some .default => collectNeeded t fs (insertNeeded (f.var, true) l)
    | some .nondefault => collectNeeded t fs (insertNeeded (f.var, false) l)

/-- default_value_axioms_task.cc:186-197: one of the loops; pairs that are new are also added to the queue -/
def addPairs : List (Nat × Bool) → List (Nat × Bool) → List (Nat × Bool) → List (Nat × Bool) × List (Nat × Bool)
  | [], queue, needed => (queue, needed)
  | x :: xs, queue, needed => if x ∈ needed then addPairs xs queue needed else addPairs xs (queue ++ [x]) (needed ++ [x])

/-- default_value_axioms_task.cc:180-184 -/
def skips (h : Handling) (sccs : List (List Nat)) (v : Nat) (b : Bool) : Option Bool := if b then approximated h sccs v else some false

/-- default_value_axioms_task.cc:167-198; the first argument bounds the number of iterations -/
def process (h : Handling) (sccs : List (List Nat)) (d : Deps) : Nat → List (Nat × Bool) → List (Nat × Bool) → Option (List (Nat × Bool))
  | _, [], needed => some needed
  | 0, _ :: _, _ => none
  | fuel + 1, (v, b) :: queue, needed =>
    match skips h sccs v b with
    | none => none
    | some true => process h sccs d fuel queue needed
    | some false =>
      match d.nondefault[v]?, d.default[v]? with
      | some ns, some ds =>
        process h sccs d fuel
          (addPairs (ds.map (fun w => (w, !b))) (addPairs (ns.map (fun w => (w, b))) queue needed).1 (addPairs (ns.map (fun w => (w, b))) queue needed).2).1
          (addPairs (ds.map (fun w => (w, !b))) (addPairs (ns.map (fun w => (w, b))) queue needed).1 (addPairs (ns.map (fun w => (w, b))) queue needed).2).2
      | _, _ => none

/-- default_value_axioms_task.cc:128-207 `get_vars_with_relevant_default_value`; every pair is in the queue at most once, so the number of iterations is bounded -/
def relevantVars (t : Task) (h : Handling) (o : HashOrders) (sccs : List (List Nat)) (d : Deps) : Option (List Nat) :=
  match collectNeeded t (conditions t) [] with
  | none => none
  | some needed =>
    match process h sccs d (2 * t.vars.length) (o.needed needed) needed with
    | none => none
    | some all => some (o.vars ((all.filter (·.2)).map (·.1)))

/-- the order of FactPair -/
def factLt (f g : Fact) : Bool := decide (f.var < g.var) || (f.var == g.var && decide (f.val < g.val))

/-- std::set::insert -/
def insertFact (f : Fact) : List Fact → List Fact
  | [] => [f]
  | g :: l => if f = g then g :: l else if factLt f g then f :: g :: l else g :: insertFact f l

/-- default_value_axioms_task.cc:230-234 -/
def addOthers (f : Fact) : List Nat → List Fact → List Fact
  | [], l => l
  | x :: xs, l => if x ≠ f.val then addOthers f xs (insertFact ⟨f.var, x⟩ l) else addOthers f xs l

/-- default_value_axioms_task.cc:227-235: the other values of the variables of a body -/
def clause (t : Task) : List Fact → List Fact → Option (List Fact)
  | [], l => some l
  | f :: fs, l =>
    match t.vars[f.var]? with
    | none => none
    | some d => clause t fs (addOthers f (List.range d.domain) l)

/-- default_value_axioms_task.cc:222-236 -/
def clauses (t : Task) : List Nat → Option (List (List Fact))
  | [] => some []
  | i :: is =>
    match t.axioms[i]? with
    | none => none
    | some a =>
      match a.effects with
      | [] => none
      | e :: _ =>
        match clause t e.conds [], clauses t is with
        | some c, some cs => some (c :: cs)
        | _, _ => none

/-- default_value_axioms_task.cc:256-272: no fact can be left out of the hitting set -/
def nonDominated (all : List (List Fact)) (hs : List Fact) : Bool :=
  (hs.filter (fun f => !all.any (fun c => decide (c.filter (fun g => decide (g ∈ hs)) = [f])))).isEmpty

/-- default_value_axioms_task.cc:251-304; the order of the results is not modelled, the variables of the hitting set are recomputed -/
def collect (all : List (List Fact)) : List (List Fact) → List Fact → List (List Fact) → List (List Fact)
  | [], hs, res => if nonDominated all hs then (if hs ∈ res then res else res ++ [hs]) else res
  | c :: cs, hs, res =>
    if c.any (fun f => decide (f ∈ hs)) then collect all cs hs res
    else c.foldl (fun res f => if hs.any (fun g => g.var == f.var) then res else collect all cs (insertFact f hs) res) res

/-- default_value_axioms_task.cc:209-249 `add_default_value_axioms_for_var`: the bodies of the axioms -/
def bodiesFor (t : Task) (ids : List Nat) : Option (List (List Fact)) :=
  match ids with
  | [] => some [[]]
  | _ :: _ =>
    match clauses t ids with
    | none => none
    | some cnf => some (collect cnf cnf [] [])

/-- default_value_axioms_task.cc:80-105 for one variable -/
def bodies (t : Task) (h : Handling) (sccs : List (List Nat)) (d : Deps) (v : Nat) : Option (List (List Fact)) :=
  match approximated h sccs v with
  | none => none
  | some true => some [[]]
  | some false =>
    match d.ids[v]? with
    | none => none
    | some ids => bodiesFor t ids

/-- default_value_axioms_task.cc:306-387: the view of the new axioms -/
def defaultAxiom (v : Nat) (dv : Nat) (body : List Fact) : Operator := ⟨[⟨v, 1 - dv⟩], [⟨body, ⟨v, dv⟩⟩], 0⟩

/-- default_value_axioms_task.cc:79-106 -/
def newAxioms (t : Task) (h : Handling) (sccs : List (List Nat)) (d : Deps) : List Nat → Option (List Operator)
  | [] => some []
  | v :: vs =>
    match t.vars[v]?, bodies t h sccs d v, newAxioms t h sccs d vs with
    | some x, some bs, some as => some (bs.map (defaultAxiom v x.default) ++ as)
    | _, _, _ => none

/-- default_value_axioms_task.cc:17-107, 389-391 -/
def construct (t : Task) (h : Handling) (o : HashOrders) : Option Task :=
  match dependencies t with
  | none => none
  | some d =>
    match components h d with
    | none => none
    | some sccs =>
      match relevantVars t h o sccs d with
      | none => none
      | some vs =>
        match newAxioms t h sccs d vs with
        | none => none
        | some as => some { t with axioms := t.axioms ++ as }

/-- default_value_axioms_task.cc:393-401 `get_default_value_axioms_task_if_needed` -/
def ifNeeded (t : Task) (h : Handling) (o : HashOrders) : Option Task := if t.axioms = [] then some t else construct t h o

end Verif.DefaultAxioms
