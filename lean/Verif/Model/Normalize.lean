import Verif.Spec.Pddl
import Verif.Model.MasTransition

/-
Model of src/translate/normalize.py (without the rules for the exploration, see Instantiate.lean) and of the methods of src/translate/pddl/conditions.py that it uses.

The constructors of `Action` and `Axiom` rename quantified variables that were used before; here they are taken to be different already (Uniquify.lean models the renaming).  Actions that are made by splitting a precondition share their list of effects in the code,
so that steps for effects are done several times for the same object; here every action has its own list, and every step is done once.
-/
namespace Verif.Normalize
open Verif.Datalog Verif.Lifted Verif.Pddl

/-- the names "new-axiom@0", "new-axiom@1", … (tasks.py:36) and the order of strings (normalize.py:159) -/
structure Env (P V : Type) where
  newAxiom : Nat → P
  sortVars : List V → List V

section
variable {P V O T F : Type}

mutual
/-- conditions.py:117-118, 128-129, 173-174, 193-194, 251-252, 264-265, 349-350, 370-371 `negate` -/
def negate : Cond P V O T → Cond P V O T
  | .truth => .falsity
  | .falsity => .truth
  | .lit n a => .lit (!n) a
  | .conj cs => .disj (negateAll cs)
  | .disj cs => .conj (negateAll cs)
  | .all ps b => .ex ps (negate b)
  | .ex ps b => .all ps (negate b)
def negateAll : List (Cond P V O T) → List (Cond P V O T)
  | [] => []
  | c :: cs => negate c :: negateAll cs
end

/-- conditions.py:147-155 (the loop): the parts of a conjunction; `none` if there is a part that is never true -/
def conjParts : List (Cond P V O T) → Option (List (Cond P V O T))
  | [] => some []
  | .conj qs :: cs => (conjParts cs).map (qs ++ ·)
  | .falsity :: _ => none
  | .truth :: cs => conjParts cs
  | c :: cs => (conjParts cs).map (c :: ·)

/-- conditions.py:178-186 (the loop): the parts of a disjunction; `none` if there is a part that is always true -/
def disjParts : List (Cond P V O T) → Option (List (Cond P V O T))
  | [] => some []
  | .disj qs :: cs => (disjParts cs).map (qs ++ ·)
  | .truth :: _ => none
  | .falsity :: cs => disjParts cs
  | c :: cs => (disjParts cs).map (c :: ·)

/-- conditions.py:147-160 `Conjunction._simplified` -/
def simplifyConj (cs : List (Cond P V O T)) : Cond P V O T :=
  match conjParts cs with
  | none => .falsity
  | some [] => .truth
  | some [c] => c
  | some ds => .conj ds

/-- conditions.py:178-191 `Disjunction._simplified` -/
def simplifyDisj (cs : List (Cond P V O T)) : Cond P V O T :=
  match disjParts cs with
  | none => .truth
  | some [] => .falsity
  | some [c] => c
  | some ds => .disj ds

mutual
/-- conditions.py:37-47, 222-226 `simplified` -/
def simplify : Cond P V O T → Cond P V O T
  | .truth => .truth
  | .falsity => .falsity
  | .lit n a => .lit n a
  | .conj cs => simplifyConj (simplifyAll cs)
  | .disj cs => simplifyDisj (simplifyAll cs)
  | .all ps b =>
    match simplify b with
    | .truth => .truth
    | .falsity => .falsity
    | c => .all ps c
  | .ex ps b =>
    match simplify b with
    | .truth => .truth
    | .falsity => .falsity
    | c => .ex ps c
def simplifyAll : List (Cond P V O T) → List (Cond P V O T)
  | [] => []
  | c :: cs => simplify c :: simplifyAll cs
end

mutual
/-- conditions.py:88-92, 254-255 `has_universal_part` -/
def hasAll : Cond P V O T → Bool
  | .conj cs => anyHasAll cs
  | .disj cs => anyHasAll cs
  | .all _ _ => true
  | .ex _ b => hasAll b
  | _ => false
def anyHasAll : List (Cond P V O T) → Bool
  | [] => false
  | c :: cs => hasAll c || anyHasAll cs
end

mutual
/-- conditions.py:76-80, 196-197 `has_disjunction` -/
def hasDisj : Cond P V O T → Bool
  | .conj cs => anyHasDisj cs
  | .disj _ => true
  | .all _ b => hasDisj b
  | .ex _ b => hasDisj b
  | _ => false
def anyHasDisj : List (Cond P V O T) → Bool
  | [] => false
  | c :: cs => hasDisj c || anyHasDisj cs
end

mutual
/-- conditions.py:82-86, 271-272 `has_existential_part` -/
def hasEx : Cond P V O T → Bool
  | .conj cs => anyHasEx cs
  | .disj cs => anyHasEx cs
  | .all _ b => hasEx b
  | .ex _ _ => true
  | _ => false
def anyHasEx : List (Cond P V O T) → Bool
  | [] => false
  | c :: cs => hasEx c || anyHasEx cs
end

variable [DecidableEq P] [DecidableEq V] [DecidableEq O] [DecidableEq T]

mutual
/-- conditions.py:70-74, 235-239, 331-332 `free_variables` (a set in the code) -/
def freeVars : Cond P V O T → List V
  | .truth => []
  | .falsity => []
  | .lit _ a => a.vars
  | .conj cs => freeVarsAll cs
  | .disj cs => freeVarsAll cs
  | .all ps b => (freeVars b).filter (fun v => !(ps.map (·.1)).contains v)
  | .ex ps b => (freeVars b).filter (fun v => !(ps.map (·.1)).contains v)
def freeVarsAll : List (Cond P V O T) → List V
  | [] => []
  | c :: cs => freeVars c ++ freeVarsAll cs
end

mutual
/-- conditions.py:105-106, 136-140, 211-216, 286-291 `__eq__` -/
def same : Cond P V O T → Cond P V O T → Bool
  | .truth, .truth => true
  | .falsity, .falsity => true
  | .lit n a, .lit m b => n == m && a == b
  | .conj cs, .conj ds => sameAll cs ds
  | .disj cs, .disj ds => sameAll cs ds
  | .all ps b, .all qs c => ps == qs && same b c
  | .ex ps b, .ex qs c => ps == qs && same b c
  | _, _ => false
def sameAll : List (Cond P V O T) → List (Cond P V O T) → Bool
  | [], [] => true
  | c :: cs, d :: ds => same c d && sameAll cs ds
  | _, _ => false
end

/-- the new axioms so far: their parameters and conditions -/
abbrev New (P V O T : Type) := List (List (V × T) × Cond P V O T)

/-- normalize.py:159-160: the parameters of a new axiom; `none` if the type of a variable is not known (`KeyError`) -/
def typedParams (e : Env P V) (types : List (V × T)) (c : Cond P V O T) : Option (List (V × T)) :=
  Mas.mapAll (fun (v : V) => (types.lookup v).map (fun t => (v, t))) (e.sortVars (freeVars c).dedup)

/-- normalize.py:161: the last axiom that was stored with the condition and the parameters -/
def findAxiom (new : New P V O T) (params : List (V × T)) (c : Cond P V O T) : Option Nat :=
  (new.zipIdx.reverse.find? (fun x => x.1.1 == params && same x.1.2 c)).map (·.2)

/-- normalize.py:166: the negated atom of a new axiom -/
def newLit (e : Env P V) (i : Nat) (params : List (V × T)) : Cond P V O T := .lit true ⟨e.newAxiom i, params.map (fun p => .var p.1)⟩

/-- normalize.py:158-166: a universal condition, whose negation is `.ex ps c`; `rest` is the result of `recurse` for `c` -/
def universal (e : Env P V) (types : List (V × T)) (ps : List (V × T)) (c : Cond P V O T) (new : New P V O T) (rest : Option (Cond P V O T × New P V O T)) : Option (Cond P V O T × New P V O T) :=
  match typedParams e types (.ex ps c) with
  | none => none
  | some params =>
    match findAxiom new params (.ex ps c) with
    | some i => some (newLit e i params, new)
    | none =>
      match rest with
      | none => none
      | some r => some (newLit e r.2.length params, r.2 ++ [(params, .ex ps r.1)])

mutual
/-- normalize.py:155-169 `recurse` for the condition, or for its negation if `neg` is true (the code calls `recurse` for the negation of a universal condition, which is an existential condition) -/
def removeAll (e : Env P V) (types : List (V × T)) (neg : Bool) : Cond P V O T → New P V O T → Option (Cond P V O T × New P V O T)
  | .truth, new => some (if neg then .falsity else .truth, new)
  | .falsity, new => some (if neg then .truth else .falsity, new)
  | .lit n a, new => some (.lit (n != neg) a, new)
  | .conj cs, new => (removeAlls e types neg cs new).map (fun r => (if neg then .disj r.1 else .conj r.1, r.2))
  | .disj cs, new => (removeAlls e types neg cs new).map (fun r => (if neg then .conj r.1 else .disj r.1, r.2))
  | .all ps b, new => if neg then (removeAll e types true b new).map (fun r => (.ex ps r.1, r.2)) else universal e types ps (negate b) new (removeAll e types true b new)
  | .ex ps b, new => if neg then universal e types ps b new (removeAll e types false b new) else (removeAll e types false b new).map (fun r => (.ex ps r.1, r.2))
def removeAlls (e : Env P V) (types : List (V × T)) (neg : Bool) : List (Cond P V O T) → New P V O T → Option (List (Cond P V O T) × New P V O T)
  | [], new => some ([], new)
  | c :: cs, new =>
    match removeAll e types neg c new with
    | none => none
    | some r => (removeAlls e types neg cs r.2).map (fun r' => (r.1 :: r'.1, r'.2))
end

/-- normalize.py:174-176 -/
def removeCond (e : Env P V) (types : List (V × T)) (c : Cond P V O T) (new : New P V O T) : Option (Cond P V O T × New P V O T) :=
  if hasAll c then removeAll e types false c new else some (c, new)

/-- normalize.py:172-176 for the effects of an action -/
def removeEffects (e : Env P V) (types : List (V × T)) : List (PEffect P V O T) → New P V O T → Option (List (PEffect P V O T) × New P V O T)
  | [], new => some ([], new)
  | f :: fs, new =>
    match removeCond e types f.cond new with
    | none => none
    | some r => (removeEffects e types fs r.2).map (fun r' => ({ f with cond := r.1 } :: r'.1, r'.2))

/-- normalize.py:172-176 for an action; the map of types (actions.py:46-50) has all variables of the action -/
def removeAction (e : Env P V) (A : PAction P V O T F) (new : New P V O T) : Option (PAction P V O T F × New P V O T) :=
  match removeCond e A.binders A.pre new with
  | none => none
  | some r => (removeEffects e A.binders A.effects r.2).map (fun r' => ({ A with pre := r.1, effects := r'.1 }, r'.2))

/-- normalize.py:172-176 for all actions -/
def removeActions (e : Env P V) : List (PAction P V O T F) → New P V O T → Option (List (PAction P V O T F) × New P V O T)
  | [], new => some ([], new)
  | A :: As, new =>
    match removeAction e A new with
    | none => none
    | some r => (removeActions e As r.2).map (fun r' => (r.1 :: r'.1, r'.2))

/-- normalize.py:172-176 for all axioms -/
def removeAxioms (e : Env P V) : List (PAxiom P V O T) → New P V O T → Option (List (PAxiom P V O T) × New P V O T)
  | [], new => some ([], new)
  | x :: xs, new =>
    match removeCond e x.binders x.cond new with
    | none => none
    | some r => (removeAxioms e xs r.2).map (fun r' => ({ x with cond := r.1 } :: r'.1, r'.2))

/-- the conditions of a task without universal quantifiers, and the new axioms: normalize.py:154-176 `remove_universal_quantifiers`, 136-143 `all_conditions` -/
def removeUniversals (e : Env P V) (Q : PTask P V O T F) : Option (PTask P V O T F × New P V O T) :=
  match removeActions e Q.actions [] with
  | none => none
  | some r =>
    match removeAxioms e Q.axioms r.2 with
    | none => none
    | some r' => (removeCond e Q.goal.bound Q.goal r'.2).map (fun g => ({ Q with actions := r.1, axioms := r'.1, goal := g.1 }, g.2))

section
/-- normalize.py:329-335: the goal is a literal or a conjunction of literals -/
def isLit : Cond P V O T → Bool
  | .lit _ _ => true
  | _ => false

def simpleGoal : Cond P V O T → Bool
  | .lit _ _ => true
  | .conj cs => cs.all isLit
  | _ => false

/-- normalize.py:327-337 `substitute_complicated_goal` -/
def substituteGoal (e : Env P V) (r : PTask P V O T F × New P V O T) : PTask P V O T F × New P V O T :=
  if simpleGoal r.1.goal then r else ({ r.1 with goal := .lit false ⟨e.newAxiom r.2.length, []⟩ }, r.2 ++ [([], r.1.goal)])

/-- tasks.py:35-41 `add_axiom`: a task with its new axioms -/
def addAxioms (e : Env P V) (r : PTask P V O T F × New P V O T) : PTask P V O T F :=
  { r.1 with axioms := r.1.axioms ++ r.2.zipIdx.map (fun x => ⟨e.newAxiom x.2, x.1.1, x.1.1.length, x.1.2⟩) }

/-- normalize.py:190-195: the parts of the disjunctions -/
def disjunctions : List (Cond P V O T) → List (List (Cond P V O T))
  | [] => []
  | .disj ds :: cs => ds :: disjunctions cs
  | _ :: cs => disjunctions cs

/-- normalize.py:190-195: the other conditions -/
def notDisjunctions : List (Cond P V O T) → List (Cond P V O T)
  | [] => []
  | .disj _ :: cs => notDisjunctions cs
  | c :: cs => c :: notDisjunctions cs

/-- normalize.py:215-222: distribute conjunctions over disjunctions, from the last disjunction to the first one -/
def distribute (others : List (Cond P V O T)) (ds : List (List (Cond P V O T))) : List (Cond P V O T) :=
  ds.foldr (fun d result => result.flatMap (fun p1 => d.map (fun p2 => .conj [p1, p2]))) [.conj others]

mutual
/-- normalize.py:187-223 `recurse` of `build_DNF`; `none` is a failed assertion (line 214) -/
def dnf : Cond P V O T → Option (Cond P V O T)
  | .truth => some .truth
  | .falsity => some .falsity
  | .lit n a => some (.lit n a)
  | .conj cs => (dnfs cs).map (fun ds => if (disjunctions ds).isEmpty then .conj cs else .disj (distribute (notDisjunctions ds) (disjunctions ds)))
  | .disj cs => (dnfs cs).map (fun ds => if (disjunctions ds).isEmpty then .disj cs else .disj (notDisjunctions ds ++ (disjunctions ds).flatten))
  | .all ps b =>
    match dnf b with
    | none => none
    | some (.disj _) => none
    | some _ => some (.all ps b)
  | .ex ps b =>
    match dnf b with
    | none => none
    | some (.disj ds) => some (.disj (ds.map (.ex ps)))
    | some _ => some (.ex ps b)
def dnfs : List (Cond P V O T) → Option (List (Cond P V O T))
  | [] => some []
  | c :: cs =>
    match dnf c with
    | none => none
    | some d => (dnfs cs).map (d :: ·)
end

/-- normalize.py:226-227 -/
def dnfCond (c : Cond P V O T) : Option (Cond P V O T) := if hasDisj c then (dnf c).map simplify else some c

/-- normalize.py:251-256: the existential conditions -/
def existentials : List (Cond P V O T) → List (List (V × T) × Cond P V O T)
  | [] => []
  | .ex ps b :: cs => (ps, b) :: existentials cs
  | _ :: cs => existentials cs

/-- normalize.py:251-256: the other conditions -/
def notExistentials : List (Cond P V O T) → List (Cond P V O T)
  | [] => []
  | .ex _ _ :: cs => notExistentials cs
  | c :: cs => c :: notExistentials cs

mutual
/-- normalize.py:248-274 `recurse` of `move_existential_quantifiers`; `none` is a failed assertion (line 267) -/
def move : Cond P V O T → Option (Cond P V O T)
  | .truth => some .truth
  | .falsity => some .falsity
  | .lit n a => some (.lit n a)
  | .conj cs => (moves cs).map (fun ds => if (existentials ds).isEmpty then .conj cs else .ex ((existentials ds).flatMap (·.1)) (.conj (notExistentials ds ++ (existentials ds).map (·.2))))
  | .disj cs =>
    match moves cs with
    | none => none
    | some ds => if (existentials ds).isEmpty then some (.disj cs) else none
  | .all ps b =>
    match move b with
    | none => none
    | some (.ex _ _) => none
    | some _ => some (.all ps b)
  | .ex ps b =>
    match move b with
    | none => none
    | some (.ex qs c) => some (.ex (ps ++ qs) c)
    | some _ => some (.ex ps b)
def moves : List (Cond P V O T) → Option (List (Cond P V O T))
  | [] => some []
  | c :: cs =>
    match move c with
    | none => none
    | some d => (moves cs).map (d :: ·)
end

/-- normalize.py:277-278 -/
def moveCond (c : Cond P V O T) : Option (Cond P V O T) := if hasEx c then (move c).map simplify else some c

/-- the alternatives of a condition: normalize.py:230-238 -/
def alternatives : Cond P V O T → List (Cond P V O T)
  | .disj cs => cs
  | c => [c]

/-- normalize.py:230-238 `split_disjunctions`: objects with a disjunction as condition are removed, and copies with its parts are added at the end -/
def splitAll {α : Type} (cond : α → Cond P V O T) (set : α → Cond P V O T → α) (xs : List α) : List α :=
  xs.filter (fun x => !(cond x).isDisj) ++ (xs.filter (fun x => (cond x).isDisj)).flatMap (fun x => (alternatives (cond x)).map (set x))

/-- normalize.py:284-325: quantified variables that become parameters -/
def exParams : Cond P V O T → List (V × T)
  | .ex ps _ => ps
  | _ => []

/-- normalize.py:284-325: the condition without its existential quantifier -/
def exBody : Cond P V O T → Cond P V O T
  | .ex _ b => b
  | c => c

/-- normalize.py:413-418: a part of a condition; `none` is a failed assertion -/
def toPart : Cond P V O T → Option (Part P V O)
  | .lit n a => some (.lit n a)
  | .falsity => some .falsity
  | _ => none

/-- normalize.py:403-412: the parts of a condition after normalisation; `none` is a failed assertion (line 418, "Condition not normalized") -/
def toParts : Cond P V O T → Option (List (Part P V O))
  | .truth => some []
  | .conj cs => Mas.mapAll toPart cs
  | c => (toPart c).map (fun p => [p])

/-- a condition after `move_existential_quantifiers` and `eliminate_existential_quantifiers_…`: new parameters and parts -/
def finish (c : Cond P V O T) : Option (List (V × T) × List (Part P V O)) :=
  match moveCond c with
  | none => none
  | some d => (toParts (exBody d)).map (fun ps => (exParams d, ps))

/-- normalize.py:318-325 `eliminate_existential_quantifiers_from_conditional_effects` -/
def finishEffect (f : PEffect P V O T) : Option (LEffect P V O T) := (finish f.cond).map (fun r => ⟨f.params ++ r.1, r.2, f.negated, f.atom⟩)

/-- normalize.py:303-313 `eliminate_existential_quantifiers_from_preconditions` -/
def finishAction (A : PAction P V O T F) : Option (LAction P V O T F) :=
  match finish A.pre with
  | none => none
  | some r => (Mas.mapAll finishEffect A.effects).map (fun fs => ⟨A.name, A.params ++ r.1, A.external, r.2, fs, A.cost⟩)

/-- normalize.py:284-296 `eliminate_existential_quantifiers_from_axioms` -/
def finishAxiom (x : PAxiom P V O T) : Option (LAxiom P V O T) := (finish x.cond).map (fun r => ⟨x.pred, x.params ++ r.1, x.external, r.2⟩)

/-- normalize.py:186-227 `build_DNF` for an effect -/
def dnfEffect (f : PEffect P V O T) : Option (PEffect P V O T) := (dnfCond f.cond).map (fun c => { f with cond := c })

/-- normalize.py:186-227 `build_DNF` for an action -/
def dnfAction (A : PAction P V O T F) : Option (PAction P V O T F) :=
  match dnfCond A.pre with
  | none => none
  | some c => (Mas.mapAll dnfEffect A.effects).map (fun fs => { A with pre := c, effects := fs })

/-- normalize.py:186-227 `build_DNF` for an axiom -/
def dnfAxiom (x : PAxiom P V O T) : Option (PAxiom P V O T) := (dnfCond x.cond).map (fun c => { x with cond := c })

/-- normalize.py:230-238 for an action: effects -/
def splitEffects (A : PAction P V O T F) : PAction P V O T F := { A with effects := splitAll (·.cond) (fun f c => { f with cond := c }) A.effects }

/-- normalize.py:230-238 for actions -/
def splitActions (As : List (PAction P V O T F)) : List (PAction P V O T F) := splitAll (·.pre) (fun A c => { A with pre := c }) (As.map splitEffects)

/-- normalize.py:230-238 for axioms -/
def splitAxioms (xs : List (PAxiom P V O T)) : List (PAxiom P V O T) := splitAll (·.cond) (fun x c => { x with cond := c }) xs

/-- normalize.py:186-325 for actions -/
def finishActions (As : List (PAction P V O T F)) : Option (List (LAction P V O T F)) :=
  match Mas.mapAll dnfAction As with
  | none => none
  | some Bs => Mas.mapAll finishAction (splitActions Bs)

/-- normalize.py:186-325 for axioms -/
def finishAxioms (xs : List (PAxiom P V O T)) : Option (List (LAxiom P V O T)) :=
  match Mas.mapAll dnfAxiom xs with
  | none => none
  | some ys => Mas.mapAll finishAxiom (splitAxioms ys)

/-- normalize.py:225-238, 276-278, 98-102 for the goal, which may not be a disjunction and has no parameters -/
def finishGoal (c : Cond P V O T) : Option (List (Part P V O)) :=
  match dnfCond c with
  | none => none
  | some d =>
    if d.isDisj then none
    else
      match finish d with
      | none => none
      | some r => if r.1.isEmpty then some r.2 else none

/-- normalize.py:345-350: the steps after `substitute_complicated_goal` -/
def finishTask (Q : PTask P V O T F) : Option (LTask P V O T F) :=
  match finishActions Q.actions with
  | none => none
  | some actions =>
    match finishAxioms Q.axioms with
    | none => none
    | some axioms => (finishGoal Q.goal).map (fun goal => ⟨Q.eq, Q.objectName, Q.supertypes, Q.objects, Q.init, Q.values, goal, actions, axioms, Q.metric⟩)
end

/-- the results of `normalize` -/
inductive Outcome (P V O T F : Type) where
  | failed
  | derivedPredicate
  | ok (task : LTask P V O T F)

/-- normalize.py:355-375 `verify_axiom_predicates` -/
def verify (L : LTask P V O T F) : Bool :=
  L.init.all (fun a => !(L.axioms.map (·.pred)).contains a.pred) && L.actions.all (fun A => A.effects.all (fun f => !(L.axioms.map (·.pred)).contains f.atom.pred))

/-- normalize.py:343-353 `normalize`: a failed assertion (or `KeyError`), the error "derived predicate appears in", or the new task -/
def normalize (e : Env P V) (Q : PTask P V O T F) : Outcome P V O T F :=
  match removeUniversals e Q with
  | none => .failed
  | some r =>
    match finishTask (addAxioms e (substituteGoal e r)) with
    | none => .failed
    | some L => if verify L then .ok L else .derivedPredicate
end

end Verif.Normalize
