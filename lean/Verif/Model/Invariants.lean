import Verif.Spec.Invariant
import Verif.Model.MasTransition
import Mathlib.Data.List.Permutation

/-
Model of the synthesis of invariants: src/translate/constraints.py, src/translate/invariants.py and src/translate/invariant_finder.py.

Variables of effects have names that differ from all other names of the action (`uniquify_variables`); here they are marked: `eff false` for the first (or add) effect, `eff true` for the second (or delete) effect.
Parts of conditions are literals; a condition that is never true has no literals (`get_literals`, invariants.py:42-46).
-/
namespace Verif.Invariants
open Verif.Datalog Verif.Lifted

/-- terms of constraints (constraints.py:17-19): parameters of the invariant, variables of the action and of effects, and objects -/
inductive Tm (V O : Type) where
  | inv (k : Nat)
  | param (v : V)
  | eff (second : Bool) (v : V)
  | obj (o : O)
deriving DecidableEq

/-- literals with such terms -/
structure Lit (P V O : Type) where
  negated : Bool
  pred : P
  args : List (Tm V O)

variable {P V O T F : Type}

/-- constraints.py:54-57: objects are strings without "?" -/
def Tm.isObj : Tm V O → Bool
  | .obj _ => true
  | _ => false

section
variable {α : Type} [DecidableEq α]

/-- constraints.py:29-40 `_compute_equivalence_classes`: two terms are in one class if they have the same value; for an equality, all terms of the class of the second one get the value of the first one.  (The code has sets instead of values.) -/
def merge (rep : α → α) (e : α × α) : α → α := fun t => if rep t = rep e.2 then rep e.1 else rep t

def classes (es : List (α × α)) : α → α := es.foldl merge id

/-- the terms of equalities -/
def mentioned (es : List (α × α)) : List α := es.flatMap (fun e => [e.1, e.2])
end

/-- constraints.py:109-112 `ConstraintSystem` -/
structure System (V O : Type) where
  equalities : List (List (List (Tm V O × Tm V O)))
  inequalities : List (List (Tm V O × Tm V O))
  notConstant : List (Tm V O)

/-- constraints.py:145-148 `extend` -/
def System.extend (s t : System V O) : System V O := ⟨s.equalities ++ t.equalities, s.inequalities ++ t.inequalities, s.notConstant ++ t.notConstant⟩

/-- itertools.product (constraints.py:159) -/
def product {α : Type} : List (List α) → List (List α)
  | [] => [[]]
  | l :: ls => l.flatMap (fun a => (product ls).map (a :: ·))

variable [DecidableEq P] [DecidableEq V] [DecidableEq O]

/-- constraints.py:59-62, 72-75 `is_consistent`: no class has two objects -/
def consistent (es : List (Tm V O × Tm V O)) : Bool :=
  (mentioned es).all (fun a => (mentioned es).all (fun b => !(a.isObj && b.isObj && classes es a == classes es b && a != b)))

/-- constraints.py:42-70 `representative.get(t, t)`: an object if the class has one, or else one of the terms of the class -/
def representative (es : List (Tm V O × Tm V O)) (t : Tm V O) : Tm V O :=
  ((mentioned es).find? (fun a => a.isObj && classes es a == classes es t)).getD (classes es t)

/-- constraints.py:150-177 `is_solvable` -/
def System.solvable (s : System V O) : Bool :=
  (product s.equalities).any (fun choice =>
    consistent choice.flatten && s.notConstant.all (fun t => !(representative choice.flatten t).isObj) &&
      s.inequalities.all (fun d => d.any (fun x => representative choice.flatten x.1 != representative choice.flatten x.2)))

/-- invariants.py:42-46 `get_literals` -/
def literals (f : Term V O → Tm V O) (cs : List (Part P V O)) : List (Lit P V O) :=
  if cs.any (fun c => match c with | .falsity => true | _ => false) then []
  else cs.flatMap (fun c => match c with | .lit n a => [⟨n, a.pred, a.args.map f⟩] | .falsity => [])

/-- the term for an argument in a precondition -/
def paramTm : Term V O → Tm V O
  | .var v => .param v
  | .const o => .obj o

/-- the term for an argument in an effect -/
def effTm (second : Bool) (e : LEffect P V O T) : Term V O → Tm V O
  | .var v => if (e.params.map (·.1)).contains v then .eff second v else .param v
  | .const o => .obj o

/-- the literal with the atom of the effect -/
def effLit (second : Bool) (e : LEffect P V O T) (negated : Bool) : Lit P V O := ⟨negated, e.atom.pred, e.atom.args.map (effTm second e)⟩

/-- the literals of the condition of the effect -/
def condLits (second : Bool) (e : LEffect P V O T) : List (Lit P V O) := literals (effTm second e) e.cond

/-- invariants.py:49-88 `ensure_conjunction_sat`: the constraints for literals that are true together; `eq` has two arguments -/
def ensureConjunction (eq : P) (ls : List (Lit P V O)) : System V O where
  equalities := (ls.filter (fun l => l.pred = eq && !l.negated)).map (fun l => match l.args with | [a, b] => [[(a, b)]] | _ => [[]])
  inequalities := (ls.filter (fun l => l.pred = eq && l.negated)).map (fun l => match l.args with | [a, b] => [(a, b)] | _ => []) ++
    (ls.filter (fun l => l.pred ≠ eq && !l.negated)).flatMap (fun p => (ls.filter (fun l => l.pred ≠ eq && l.negated)).flatMap (fun n =>
      if n.pred = p.pred ∧ n.args.zip p.args ≠ [] then [n.args.zip p.args] else []))
  notConstant := []

/-- invariants.py:299-317 `_get_cover_equivalence_conjunction`: each parameter is equal to its argument; `none` if the predicate has no part -/
def cover (inv : List (IPart P)) (l : Lit P V O) : Option (List (Tm V O × Tm V O)) :=
  (inv.find? (fun part => part.pred = l.pred)).map (fun part => (part.args.zip l.args).filterMap (fun x => x.1.map (fun k => (.inv k, x.2))))

/-- invariants.py:99-109 `ensure_inequality` -/
def ensureInequality (l m : Lit P V O) : System V O := ⟨[], if l.pred = m.pred ∧ l.args ≠ [] then [l.args.zip m.args] else [], []⟩

/-- all pairs of elements, in their order (itertools.combinations) -/
def pairs {α : Type} : List α → List (α × α)
  | [] => []
  | a :: l => l.map (fun b => (a, b)) ++ pairs l

/-- invariant_finder.py:49-73 `add_inequality_preconds`: pairs of parameters that are different in all reachable instances; `reach` has the values of the parameters of these instances -/
def differentParams (A : LAction P V O T F) (reach : List (List O)) : List (V × V) :=
  ((pairs A.params.zipIdx).filter (fun x => reach.all (fun os => os[x.1.2]? != os[x.2.2]?))).map (fun x => (x.1.1.1, x.2.1.1))

/-- the literals of the precondition, with inequalities of parameters (invariant_finder.py:63-71: the new precondition is simplified, so that a false condition stays one) -/
def preLits (eq : P) (A : LAction P V O T F) (reach : Option (List (List O))) : List (Lit P V O) :=
  literals paramTm (A.pre ++ (match reach with | none => [] | some r => (differentParams A r).map (fun x => .lit true ⟨eq, [.var x.1, .var x.2]⟩)))

/-- the predicate has a part in the invariant -/
def relevant (inv : List (IPart P)) (e : LEffect P V O T) : Bool := (inv.map (·.pred)).contains e.atom.pred

/-- invariant_finder.py:25-41: universal effects are doubled -/
def heavyEffects (A : LAction P V O T F) : List (LEffect P V O T) := A.effects.flatMap (fun e => if e.params.isEmpty then [e] else [e, e])

/-- invariants.py:355-363: the constraints for two add effects with different covered atoms -/
def heavySystem (eq : P) (inv : List (IPart P)) (pre : List (Lit P V O)) (e1 e2 : LEffect P V O T) : Option (System V O) :=
  match cover inv (effLit false e1 false), cover inv (effLit true e2 false) with
  | some c1, some c2 => some (((ensureInequality (effLit false e1 false) (effLit true e2 false)).extend ⟨[[c1], [c2]], [], []⟩).extend
      (ensureConjunction eq (pre ++ condLits false e1 ++ condLits true e2 ++ [effLit false e1 true] ++ [effLit true e2 true])))
  | _, _ => none

/-- invariants.py:346-366 `_operator_too_heavy` -/
def tooHeavy (eq : P) (inv : List (IPart P)) (pre : List (Lit P V O)) (A : LAction P V O T F) : Bool :=
  (pairs ((heavyEffects A).filter (fun e => !e.negated && relevant inv e))).any (fun x =>
    match heavySystem eq inv pre x.1 x.2 with
    | none => true
    | some s => s.solvable)

/-- invariants.py:513-526 (the loop of `_balance_system`): each literal of the delete effect follows from one of the given literals; `none` if there is no such literal -/
def implied (given : List (Lit P V O)) : List (Lit P V O) → Option (List (List (List (Tm V O × Tm V O))))
  | [] => some []
  | l :: ls =>
    match given.filter (fun m => m.pred = l.pred && m.negated == l.negated) with
    | [] => none
    | m :: ms => (implied given ls).map ((m :: ms).map (fun m => l.args.zip m.args) :: ·)

/-- invariants.py:499-532 `_balance_system` -/
def balanceSystem (given : List (Lit P V O)) (e d : LEffect P V O T) : Option (System V O) :=
  (implied given (condLits true d ++ [effLit true d false])).map (fun eqs => System.extend ⟨eqs, [], []⟩ (ensureInequality (effLit false e false) (effLit true d false)))

/-- invariants.py:413-435: parameters need not be equal to constants or to each other, except if this follows from `add_cover` -/
def paramSystem (A : LAction P V O T F) (e : LEffect P V O T) (addCover : List (Tm V O × Tm V O)) : System V O :=
  let params : List (Tm V O) := A.params.map (fun p => .param p.1) ++ e.params.map (fun p => .eff false p.1)
  ⟨[], ((pairs params).filter (fun x => representative addCover x.1 != representative addCover x.2)).map (fun x => [x]), params.filter (fun t => !(representative addCover t).isObj)⟩

/-- invariants.py:457-497 `_balances` -/
def balances (inv : List (IPart P)) (given : List (Lit P V O)) (A : LAction P V O T F) (e : LEffect P V O T) (addCover : List (Tm V O × Tm V O)) (d : LEffect P V O T) : Bool :=
  match balanceSystem given e d, cover inv (effLit true d false) with
  | some b, some delCover => (((⟨[[addCover], [delCover]], [], []⟩ : System V O).extend b).extend (paramSystem A e addCover)).solvable
  | _, _ => false

/-- invariants.py:381-445 `_add_effect_unbalanced`; `none` is an error: the cover is not consistent, so that it has no representatives -/
def effectUnbalanced (inv : List (IPart P)) (pre : List (Lit P V O)) (A : LAction P V O T F) (e : LEffect P V O T) (dels : List (LEffect P V O T)) : Option Bool :=
  match cover inv (effLit false e false) with
  | none => none
  | some addCover => if consistent addCover then some (!dels.any (balances inv (pre ++ condLits false e ++ [effLit false e true]) A e addCover)) else none

/-- invariants.py:368-379 `_operator_unbalanced` -/
def unbalanced (inv : List (IPart P)) (pre : List (Lit P V O)) (A : LAction P V O T F) : List (LEffect P V O T) → Option Bool
  | [] => some false
  | e :: es =>
    match effectUnbalanced inv pre A e (A.effects.filter (fun d => relevant inv d && d.negated)) with
    | none => none
    | some true => some true
    | some false => unbalanced inv pre A es

/-- invariants.py:339-343: the action is neither too heavy nor unbalanced -/
def actionBalanced (eq : P) (inv : List (IPart P)) (A : LAction P V O T F) (reach : Option (List (List O))) : Option Bool :=
  if tooHeavy eq inv (preLits eq A reach) A then some false
  else (unbalanced inv (preLits eq A reach) A (A.effects.filter (fun e => relevant inv e && !e.negated))).map (!·)

/-- invariants.py:319-344 `check_balance` for actions in some order: all actions that add atoms of the invariant are checked (for new candidates see `newCandidates`) -/
def checkBalance (eq : P) (inv : List (IPart P)) : List (LAction P V O T F × Option (List (List O))) → Option Bool
  | [] => some true
  | (A, reach) :: rest =>
    if A.effects.any (fun e => relevant inv e && !e.negated) then
      match actionBalanced eq inv A reach with
      | none => none
      | some false => some false
      | some true => checkBalance eq inv rest
    else checkBalance eq inv rest

/-- invariants.py:189-194, 216: the parameters of the invariant whose argument in the literal is `key` -/
def ownParams (part : IPart P) (own : List (Term V O)) (key : Term V O) : List (Option Nat) := (part.args.zip own).filterMap (fun x => if x.1.isSome && x.2 == key then some x.1 else none)

/-- invariants.py:199-201 `other_arg_to_pos[key]` -/
def positions (other : List (Term V O)) (key : Term V O) : List Nat := (List.range other.length).filter (fun i => other[i]? == some key)

/-- invariants.py:213-226: the positions of each argument and the parameters for them; `none` if there is no mapping -/
def factored (part : IPart P) (own other : List (Term V O)) : Nat → List (Term V O) → Option (List (List Nat × List (Option Nat)))
  | _, [] => some []
  | allowed, key :: keys =>
    if (ownParams part own key).length = (positions other key).length then (factored part own other allowed keys).map ((positions other key, ownParams part own key) :: ·)
    else if (ownParams part own key).length + 1 = (positions other key).length ∧ allowed ≠ 0 then (factored part own other 0 keys).map ((positions other key, ownParams part own key ++ [none]) :: ·)
    else none

/-- invariants.py:17-39 `instantiate_factored_mapping` (the order of permutations may differ) -/
def mappings (pairs : List (List Nat × List (Option Nat))) : List (List (Nat × Option Nat)) := (product (pairs.map (fun x => x.2.permutations'.map (fun img => x.1.zip img)))).map List.flatten

/-- invariants.py:142-146 `arity` of a part (at most one argument is counted) -/
def partArity (part : IPart P) : Nat := (part.args.filterMap id).length

/-- invariants.py:160-227 `possible_mappings`; the keys are the arguments of the other literal, once each -/
def possibleMappings (part : IPart P) (own other : List (Term V O)) : List (List (Nat × Option Nat)) :=
  if other.length = partArity part ∨ other.length = partArity part + 1 then
    match factored part own other (other.length - partArity part) other.dedup with
    | none => []
    | some pairs => mappings pairs
  else []

/-- invariants.py:229-258 `possible_matches` -/
def possibleMatches (part : IPart P) (own other : SymAtom P V O) : List (IPart P) :=
  (possibleMappings part own.args other.args).map (fun mapping => ⟨other.pred, mapping.foldl (fun args x => args.set x.1 x.2) (List.replicate other.args.length none)⟩)

/-- invariants.py:447-455 `_refine_candidate` -/
def refinements (inv : List (IPart P)) (A : LAction P V O T F) (e : LEffect P V O T) : List (List (IPart P)) :=
  match inv.find? (fun part => part.pred = e.atom.pred) with
  | none => []
  | some part => (A.effects.filter (fun d => d.negated && !relevant inv d)).flatMap (fun d => (possibleMatches part e.atom d.atom).map (fun m => inv ++ [m]))

/-- invariants.py:375-378, 443-445: the new candidates for the first add effect that is not balanced -/
def refineAt (inv : List (IPart P)) (pre : List (Lit P V O)) (A : LAction P V O T F) : List (LEffect P V O T) → List (List (IPart P))
  | [] => []
  | e :: es =>
    match effectUnbalanced inv pre A e (A.effects.filter (fun d => relevant inv d && d.negated)) with
    | some true => refinements inv A e
    | some false => refineAt inv pre A es
    | none => []

/-- invariants.py:330-344: the new candidates of `check_balance`: those of the first action that is not balanced, if it is not too heavy -/
def newCandidates (eq : P) (inv : List (IPart P)) : List (LAction P V O T F × Option (List (List O))) → List (List (IPart P))
  | [] => []
  | (A, reach) :: rest =>
    if A.effects.any (fun e => relevant inv e && !e.negated) then
      if tooHeavy eq inv (preLits eq A reach) A then []
      else if actionBalanced eq inv A reach = some true then newCandidates eq inv rest
      else refineAt inv (preLits eq A reach) A (A.effects.filter (fun e => relevant inv e && !e.negated))
    else newCandidates eq inv rest

/-- invariant_finder.py:82-91 `get_initial_invariants`; `preds` has the predicates with their numbers of arguments -/
def initialInvariants (preds : List (P × Nat)) (actions : List (LAction P V O T F)) : List (List (IPart P)) :=
  (preds.filter (fun x => actions.any (fun A => A.effects.any (fun e => e.atom.pred = x.1)))).flatMap (fun x =>
    [⟨x.1, (List.range x.2).map some⟩] :: (List.range x.2).map (fun j => [⟨x.1, (List.range j).map some ++ none :: (List.range' j (x.2 - 1 - j)).map some⟩]))

/-- invariants.py:275-276: invariants are equal if they have the same parts -/
def sameParts (a b : List (IPart P)) : Bool := a.all (b.contains ·) && b.all (a.contains ·)

/-- invariant_finder.py:102-105 `enqueue_func`, for all new candidates -/
def enqueue (limit : Nat) (queue seen : List (List (IPart P))) : List (List (IPart P)) → List (List (IPart P)) × List (List (IPart P))
  | [] => (queue, seen)
  | c :: cs => if seen.length < limit ∧ seen.any (sameParts c) = false then enqueue limit (queue ++ [c]) (seen ++ [c]) cs else enqueue limit queue seen cs

/-- invariant_finder.py:107-114: the loop of `find_invariants`.  Each candidate is checked with the actions in another order (the next one of `orders`); the loop also stops when there is no further order (the time limit) -/
def findLoop (eq : P) (limit : Nat) : List (List (LAction P V O T F × Option (List (List O)))) → List (List (IPart P)) → List (List (IPart P)) → Option (List (List (IPart P)))
  | [], _, _ => some []
  | _ :: _, [], _ => some []
  | acts :: orders, c :: queue, seen =>
    match checkBalance eq c acts with
    | none => none
    | some true => (findLoop eq limit orders queue seen).map (c :: ·)
    | some false => findLoop eq limit orders (enqueue limit queue seen (newCandidates eq c acts)).1 (enqueue limit queue seen (newCandidates eq c acts)).2

/-- invariant_finder.py:93-114 `find_invariants` -/
def findInvariants (eq : P) (limit : Nat) (preds : List (P × Nat)) (actions : List (LAction P V O T F)) (orders : List (List (LAction P V O T F × Option (List (List O))))) : Option (List (List (IPart P))) :=
  findLoop eq limit orders ((initialInvariants preds actions).take limit) ((initialInvariants preds actions).take limit)

/-- invariants.py:290-291 `arity`: the number of parameters of the first part -/
def arity (inv : List (IPart P)) : Nat := ((inv.map partArity).head?).getD 0

/-- invariants.py:148-153, 293-294 `get_parameters` (as a tuple, invariant_finder.py:128-129); `none` is an error -/
def parameters (n : Nat) (part : IPart P) (a : GAtom P O) : Option (List O) :=
  Mas.mapAll (fun k => ((part.args.zip a.args).find? (fun x => x.1 = some k)).map (·.2)) (List.range n)

/-- invariants.py:155-158 `instantiate`: an atom with a counted argument `none` (the variable "?X"); `none` is an error -/
def instantiatePart (os : List O) (part : IPart P) : Option (P × List (Option O)) :=
  (Mas.mapAll (fun a : Option Nat => match a with | none => some none | some k => os[k]?.map some) part.args).map (part.pred, ·)

/-- invariant_finder.py:117-134: the keys of groups, once for each initial atom of the group -/
def groupKeys (invs : List (List (IPart P))) (init : List (GAtom P O)) : Option (List (List (IPart P) × List O)) :=
  Mas.mapAll (fun x : List (IPart P) × GAtom P O => (x.1.find? (fun part => part.pred = x.2.pred)).bind (fun part => (parameters (arity x.1) part x.2).map (x.1, ·)))
    (init.flatMap (fun a => (invs.filter (fun inv => (inv.map (·.pred)).contains a.pred)).map (·, a)))

/-- invariant_finder.py:116-142 `useful_groups`: groups with one initial atom (the code sorts the parts of a group) -/
def usefulGroups (invs : List (List (IPart P))) (init : List (GAtom P O)) : Option (List (List (P × List (Option O)))) :=
  (groupKeys invs init).bind (fun keys => Mas.mapAll (fun key => Mas.mapAll (instantiatePart key.2) key.1) (keys.filter (fun key => keys.count key = 1)))

/-- invariant_finder.py:145-150 `get_groups` -/
def getGroups (eq : P) (limit : Nat) (preds : List (P × Nat)) (actions : List (LAction P V O T F)) (orders : List (List (LAction P V O T F × Option (List (List O))))) (init : List (GAtom P O)) : Option (List (List (P × List (Option O)))) :=
  (findInvariants eq limit preds actions orders).bind (usefulGroups · init)

end Verif.Invariants
