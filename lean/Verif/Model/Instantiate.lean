import Verif.Spec.Lifted
import Verif.Model.PrologProgram

/-
Model of src/translate/instantiate.py, of the Datalog program that pddl_to_prolog.py and normalize.py make from a normalised task (before its normalisation, see PrologProgram.lean), and of the methods "instantiate" in src/translate/pddl/.

Predicates of the program are strings or Python objects; here they are constructors of `DPred`, so that names like "@goal-reachable" cannot be names of predicates of the task.  Actions and axioms are identified by their index.
Existential quantifiers in conditions are left out: after normalisation there are none.
-/
namespace Verif.Instantiate
open Verif.Datalog Verif.Lifted
open Verif.Strips (Literal)

/-- predicates of the Datalog program: those of the task, types ("type@t"), functions ("@def-f"), actions, axioms, "@goal-reachable", "@always-false", "@object" and "p$0", "p$1", … -/
inductive DPred (P T F : Type) where
  | pred (p : P)
  | type (t : T)
  | fn (f : F)
  | action (i : Nat)
  | axiom (i : Nat)
  | goal
  | never
  | object
  | new (i : Nat)
deriving DecidableEq

section
variable {P V O T F : Type}

/-- an atom of the task in the program -/
def lift (a : SymAtom P V O) : SymAtom (DPred P T F) V O := ⟨.pred a.pred, a.args⟩

/-- a ground atom of the task in the program -/
def up (a : GAtom P O) : GAtom (DPred P T F) O := ⟨.pred a.pred, a.args⟩

/-- pddl_types.py:66-70 `get_atom` -/
def typeAtom (p : V × T) : SymAtom (DPred P T F) V O := ⟨.type p.2, [.var p.1]⟩

/-- normalize.py:419-420: positive literals -/
def positive : Part P V O → Option (SymAtom (DPred P T F) V O)
  | .lit false a => some (lift a)
  | _ => none

/-- normalize.py:413 -/
def isFalsity : Part P V O → Bool
  | .falsity => true
  | _ => false

/-- normalize.py:385-426 `condition_to_rule_body` -/
def ruleBody (params : List (V × T)) (cond : List (Part P V O)) (pne : List (SymAtom (DPred P T F) V O)) : List (SymAtom (DPred P T F) V O) :=
  if cond.any isFalsity then [⟨.never, []⟩] else params.map typeAtom ++ cond.filterMap positive ++ pne

/-- normalize.py:119-124 `get_action_predicate` -/
def actionAtom (i : Nat) (A : LAction P V O T F) : SymAtom (DPred P T F) V O := ⟨.action i, A.params.map (fun p => .var p.1)⟩

/-- normalize.py:126-131 `get_axiom_predicate` -/
def axiomAtom (i : Nat) (x : LAxiom P V O T) : SymAtom (DPred P T F) V O := ⟨.axiom i, x.params.map (fun p => .var p.1)⟩

/-- normalize.py:32-36, 133-134 `get_pne_definition_predicate` -/
def pneAtoms : CostExpr V O F → List (SymAtom (DPred P T F) V O)
  | .fn f args => [⟨.fn f, args⟩]
  | _ => []

/-- normalize.py:55-61 `EffectConditionProxy.build_rules` -/
def effectRule (i : Nat) (A : LAction P V O T F) (e : LEffect P V O T) : List (Clause (DPred P T F) V O) :=
  if e.negated then [] else [⟨lift e.atom, actionAtom i A :: ruleBody [] e.cond []⟩]

/-- normalize.py:24-40 `PreconditionProxy.build_rules`, 136-140 -/
def actionRules (i : Nat) (A : LAction P V O T F) : List (Clause (DPred P T F) V O) := ⟨actionAtom i A, ruleBody A.params A.pre (pneAtoms A.cost)⟩ :: A.effects.flatMap (effectRule i A)

/-- normalize.py:75-83 `AxiomConditionProxy.build_rules` -/
def axiomRules (i : Nat) (x : LAxiom P V O T) : List (Clause (DPred P T F) V O) :=
  [⟨axiomAtom i x, ruleBody x.params x.cond []⟩, ⟨⟨.pred x.pred, (x.params.take x.external).map (fun p => .var p.1)⟩, [axiomAtom i x]⟩]

/-- normalize.py:103-106 `GoalConditionProxy.build_rules`, 136-143 `all_conditions`, 379-383 `build_exploration_rules` -/
def rules (L : LTask P V O T F) : List (Clause (DPred P T F) V O) :=
  L.actions.zipIdx.flatMap (fun x => actionRules x.2 x.1) ++ L.axioms.zipIdx.flatMap (fun x => axiomRules x.2 x.1) ++ [⟨⟨.goal, []⟩, ruleBody [] L.goal []⟩]

/-- pddl_to_prolog.py:145-161 `translate_typed_object`, `translate_facts`; the order of atoms and assignments in the initial state is left out -/
def facts (L : LTask P V O T F) : List (GAtom (DPred P T F) O) :=
  L.objects.flatMap (fun x => (x.2 :: L.supertypes x.2).map (fun t => ⟨.type t, [x.1]⟩)) ++ L.init.map up ++ L.values.map (fun x => ⟨.fn x.1.1, x.1.2⟩)

/-- Names of the program: equality is that of the task (pddl_to_prolog.py:126), other names are new: "@object" (lines 65, 68), "p$0", … (line 17) and "?x@0", … (line 124) -/
structure Names (e : PrologProgram.Env (DPred P T F) V O) (L : LTask P V O T F) : Prop where
  ok : e.Ok
  eq : e.eq = .pred L.eq
  object : e.object = .object
  name : ∀ i, e.name i = .new i
  fresh : ∀ v i, e.fresh v i ∉ L.vars

variable [DecidableEq P] [DecidableEq V] [DecidableEq O] [DecidableEq T] [DecidableEq F]

/-- instantiate.py:13-18: the predicates that actions or axioms change -/
def fluentPreds (L : LTask P V O T F) : List P := L.actions.flatMap (fun A => A.effects.map (fun e => e.atom.pred)) ++ L.axioms.map (·.pred)

/-- the atom of the task -/
def down (a : GAtom (DPred P T F) O) : Option (GAtom P O) :=
  match a.pred with
  | .pred p => some ⟨p, a.args⟩
  | _ => none

/-- instantiate.py:12-20 `get_fluent_facts` -/
def fluentFacts (L : LTask P V O T F) (model : List (GAtom (DPred P T F) O)) : List (GAtom P O) := (model.filterMap down).filter (fun a => (fluentPreds L).contains a.pred)

/-- instantiate.py:22-31 `get_objects_by_type`: the objects of a type.  A type that was not declared has no supertypes here; in the code, this is an error -/
def objectsByType (L : LTask P V O T F) (t : T) : List O := L.objects.flatMap (fun x => ((x.2 :: L.supertypes x.2).filter (fun u => u == t)).map (fun _ => x.1))

/-- a dictionary from variables to objects, changed for some variables (effects.py:55, 59-60; instantiate.py:90-91, 100-101) -/
def update (m : List (V × O)) : List V → List O → List (V × O)
  | v :: vs, o :: os => update ((v, o) :: m) vs os
  | _, _ => m

/-- conditions.py:342, 363, f_expression.py:48: an argument; `none` for a variable without value, which stays as it is in the code -/
def value (m : List (V × O)) : Term V O → Option O
  | .var v => m.lookup v
  | .const o => some o

/-- conditions.py:342-343, 363-364 -/
def groundAtom (m : List (V × O)) (a : SymAtom P V O) : Option (GAtom P O) := (Mas.mapAll (value m) a.args).map (fun args => ⟨a.pred, args⟩)

/-- a result, the exception `Impossible` or another exception -/
inductive Outcome (α : Type) where
  | ok (a : α)
  | impossible
  | error
deriving DecidableEq

/-- conditions.py:341-347, 362-368: `Atom.instantiate`, `NegatedAtom.instantiate` for an atom without variables -/
def instLiteral (init fluent : List (GAtom P O)) (negated : Bool) (g : GAtom P O) : Outcome (List (Literal (GAtom P O))) :=
  if fluent.contains g then .ok [⟨negated, g⟩]
  else if negated then (if init.contains g then .impossible else .ok [])
  else if init.contains g then .ok [] else .impossible

/-- conditions.py:114-115, 341-347, 362-368: one part of a condition -/
def instPart (m : List (V × O)) (init fluent : List (GAtom P O)) : Part P V O → Outcome (List (Literal (GAtom P O)))
  | .falsity => .impossible
  | .lit negated a => match groundAtom m a with
    | none => .error
    | some g => instLiteral init fluent negated g

/-- conditions.py:125-126, 168-171: a condition -/
def instCond (m : List (V × O)) (init fluent : List (GAtom P O)) : List (Part P V O) → Outcome (List (Literal (GAtom P O)))
  | [] => .ok []
  | c :: cs => match instPart m init fluent c with
    | .ok l => match instCond m init fluent cs with
      | .ok ls => .ok (l ++ ls)
      | .impossible => .impossible
      | .error => .error
    | .impossible => .impossible
    | .error => .error

/-- effects.py:64-74 `_instantiate`: the pair of condition and literal, if there is one; `none` is an exception (`Impossible` for the literal of the effect is not caught) -/
def instEffectOnce (m : List (V × O)) (init fluent : List (GAtom P O)) (e : LEffect P V O T) : Option (List (List (Literal (GAtom P O)) × Literal (GAtom P O))) :=
  match instCond m init fluent e.cond with
  | .error => none
  | .impossible => some []
  | .ok cond => match instPart m init fluent (.lit e.negated e.atom) with
    | .ok ls => some (ls.map (fun l => (cond, l)))
    | _ => none

/-- effects.py:11-19 `cartesian_product` -/
def cartesian : List (List O) → List (List O)
  | [] => [[]]
  | l :: ls => (cartesian ls).flatMap (fun t => l.map (· :: t))

/-- effects.py:52-63 `instantiate` -/
def instEffect (L : LTask P V O T F) (m : List (V × O)) (init fluent : List (GAtom P O)) (e : LEffect P V O T) : Option (List (List (Literal (GAtom P O)) × Literal (GAtom P O))) :=
  (Mas.mapAll (fun t => instEffectOnce (update m (e.params.map (·.1)) t) init fluent e) (cartesian (e.params.map (fun p => objectsByType L p.2)))).map List.flatten

/-- actions.py:118-120: the effects that add an atom -/
def addEffects (effects : List (List (Literal (GAtom P O)) × Literal (GAtom P O))) : List (List (Literal (GAtom P O)) × Literal (GAtom P O)) := effects.filter (fun x => !x.2.negated)

/-- actions.py:125-127: the effects that delete an atom; those that also add it under the same condition are left out -/
def delEffects (effects : List (List (Literal (GAtom P O)) × Literal (GAtom P O))) : List (List (Literal (GAtom P O)) × Literal (GAtom P O)) :=
  effects.filter (fun x => x.2.negated && !(addEffects effects).contains (x.1, ⟨false, x.2.atom⟩))

/-- actions.py:98-105, f_expression.py:47-55: the cost; `none` if an assertion fails (the function is not "total-cost") -/
def instCost (L : LTask P V O T F) (m : List (V × O)) : CostExpr V O F → Option Nat
  | .none => some (if L.metric then 0 else 1)
  | .const n => some (if L.metric then n else 1)
  | .fn f args => if L.metric then (match Mas.mapAll (value m) args with
    | none => none
    | some os => L.values.reverse.lookup (f, os)) else some 1

/-- actions.py:83-85: the name, without parentheses; `none` if a parameter has no value (KeyError) -/
def instName (L : LTask P V O T F) (m : List (V × O)) (A : LAction P V O T F) : Option (List Char) :=
  (Mas.mapAll (fun p => m.lookup p.1) (A.params.take A.external)).map (fun os => A.name ++ ' ' :: [' '].intercalate (os.map L.objectName))

/-- actions.py:97-108: the action with the given effects, or no action; `none` is an exception -/
def finishAction (keepNoOps : Bool) (L : LTask P V O T F) (m : List (V × O)) (A : LAction P V O T F) (name : List Char) (pre : List (Literal (GAtom P O))) (effects : List (List (Literal (GAtom P O)) × Literal (GAtom P O))) :
    Option (Option (Strips.Action (GAtom P O))) :=
  if !effects.isEmpty || keepNoOps then (instCost L m A.cost).map (fun c => some ⟨name, pre, addEffects effects ++ delEffects effects, c⟩) else some none

/-- actions.py:74-108 `Action.instantiate`, 111-128 `PropositionalAction`: no action if the precondition is impossible or there are no effects; `none` is an exception -/
def instAction (keepNoOps : Bool) (L : LTask P V O T F) (fluent : List (GAtom P O)) (A : LAction P V O T F) (m : List (V × O)) : Option (Option (Strips.Action (GAtom P O))) :=
  match instName L m A, instCond m L.init fluent A.pre with
  | none, _ => none
  | some _, .error => none
  | some _, .impossible => some none
  | some name, .ok pre => match Mas.mapAll (instEffect L m L.init fluent) A.effects with
    | none => none
    | some es => finishAction keepNoOps L m A name pre es.flatten

/-- axioms.py:30-46 `Axiom.instantiate` -/
def instAxiom (L : LTask P V O T F) (fluent : List (GAtom P O)) (x : LAxiom P V O T) (m : List (V × O)) : Option (Option (Strips.Rule (GAtom P O))) :=
  match Mas.mapAll (fun p => m.lookup p.1) (x.params.take x.external), instCond m L.init fluent x.cond with
  | none, _ => none
  | some _, .error => none
  | some _, .impossible => some none
  | some args, .ok body => some (some ⟨body, ⟨x.pred, args⟩⟩)

/-- instantiate.py:33-52 `instantiate_goal`: `none` in the result if the goal is impossible -/
def instGoal (L : LTask P V O T F) (fluent : List (GAtom P O)) : Option (Option (List (Literal (GAtom P O)))) :=
  match instCond [] L.init fluent L.goal with
  | .error => none
  | .impossible => some none
  | .ok l => some (some l)

/-- the result of the instantiation; `params` has, for each action, the values of its parameters in the reachable instances -/
structure Grounded (P O : Type) where
  relaxedReachable : Bool
  fluent : List (GAtom P O)
  actions : List (Strips.Action (GAtom P O))
  goal : Option (List (Literal (GAtom P O)))
  axioms : List (Strips.Rule (GAtom P O))
  params : List (List (List O))

/-- instantiate.py:80-88 `reachable_action_parameters`: the values of the `n` parameters of the action `i` -/
def actionArgs (i n : Nat) (a : GAtom (DPred P T F) O) : Option (List O) :=
  match a.pred with
  | .action j => if j = i then some (a.args.take n) else none
  | _ => none

/-- instantiate.py:78-88: the dictionary as a list -/
def reachableParams (L : LTask P V O T F) (model : List (GAtom (DPred P T F) O)) : List (List (List O)) := L.actions.zipIdx.map (fun x => model.filterMap (actionArgs x.2 x.1.params.length))

/-- instantiate.py:79-97: the instances for atoms with an action as the predicate -/
def modelActions (keepNoOps : Bool) (L : LTask P V O T F) (fluent : List (GAtom P O)) (a : GAtom (DPred P T F) O) : Option (Option (Strips.Action (GAtom P O))) :=
  match a.pred with
  | .action i => match L.actions[i]? with
    | none => none
    | some A => instAction keepNoOps L fluent A (update [] (A.params.map (·.1)) a.args)
  | _ => some none

/-- instantiate.py:98-104: the instances for atoms with an axiom as the predicate -/
def modelAxioms (L : LTask P V O T F) (fluent : List (GAtom P O)) (a : GAtom (DPred P T F) O) : Option (Option (Strips.Rule (GAtom P O))) :=
  match a.pred with
  | .axiom i => match L.axioms[i]? with
    | none => none
    | some x => instAxiom L fluent x (update [] (x.params.map (·.1)) a.args)
  | _ => some none

/-- instantiate.py:105-106 -/
def isGoal (a : GAtom (DPred P T F) O) : Bool :=
  match a.pred with
  | .goal => true
  | _ => false

/-- instantiate.py:56-112 `instantiate`; the axioms are sorted in the code -/
def instantiate (keepNoOps : Bool) (L : LTask P V O T F) (model : List (GAtom (DPred P T F) O)) : Option (Grounded P O) :=
  match Mas.mapAll (modelActions keepNoOps L (fluentFacts L model)) model, Mas.mapAll (modelAxioms L (fluentFacts L model)) model, instGoal L (fluentFacts L model) with
  | some as, some xs, some goal => some ⟨model.any isGoal, fluentFacts L model, as.filterMap id, goal, xs.filterMap id, reachableParams L model⟩
  | _, _, _ => none

/-- instantiate.py:115-119 `explore`; the first argument bounds the number of iterations of the exploration (see BuildModel.lean) -/
def explore (n : Nat) (e : PrologProgram.Env (DPred P T F) V O) (keepNoOps : Bool) (L : LTask P V O T F) : Option (Grounded P O) :=
  match PrologProgram.translate e (facts L) (rules L) with
  | none => none
  | some prog => match BuildModel.computeModel n prog.1 prog.2 with
    | .ok model => instantiate keepNoOps L model
    | _ => none

/-- the grounded task, for an instantiated goal; derived atoms are the heads of axioms -/
def task (L : LTask P V O T F) (G : Grounded P O) (goal : List (Literal (GAtom P O))) : Strips.StripsTask (GAtom P O) := ⟨L.init, goal, G.actions, G.axioms, G.axioms.map (fun r => (r.head, 0)), L.metric⟩

end
end Verif.Instantiate
