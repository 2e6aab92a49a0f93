import Verif.Spec.SasPlans
import Verif.Model.MasTransition

/-
Model of src/translate/simplify.py: facts that are not reachable in the domain transition graph of their variable are removed from a task of the translator, and so are variables with a single value.

`none` is an exception of Python that is not caught (a failed assertion or an index out of range).
-/
namespace Verif.Simplify
open Verif.SasFile
open Verif.Mas (mapAll)

/-- a dict of Python from variables to values -/
def lookup (d : List Fact) (v : Nat) : Option Nat := (d.find? (fun f => f.var == v)).map (·.val)

/-- sas_tasks.py:421-423: prevail conditions -/
def addPrevail : List Fact → List Fact → Option (List Fact)
  | [], d => some d
  | f :: fs, d => match lookup d f.var with | none => addPrevail fs (d ++ [f]) | some _ => none

/-- sas_tasks.py:424-427: values before effects -/
def addPre : List PrePost → List Fact → Option (List Fact)
  | [], d => some d
  | e :: es, d =>
    match e.pre with
    | none => addPre es d
    | some x =>
      match lookup d e.var with
      | none => addPre es (d ++ [⟨e.var, x⟩])
      | some y => if y = x then addPre es d else none

/-- sas_tasks.py:413-428 `get_applicability_conditions`; keys are unique, so sorting is by variables -/
def applicability (o : SasOperator) : Option (List Fact) :=
  match addPrevail o.prevail [] with
  | none => none
  | some d =>
    match addPre o.prePost d with
    | none => none
    | some d => some (d.insertionSort (fun a b => a.var ≤ b.var))

/-- simplify.py:119-142 `get_effective_pre`, from `result`; -1 is the inner `none`, None is the outer one -/
def effectivePre (v : Nat) : Option Nat → List Fact → Option (Option Nat)
  | r, [] => some r
  | r, c :: cs =>
    if c.var = v then
      match r with
      | none => effectivePre v (some c.val) cs
      | some x => if c.val ≠ x then none else effectivePre v r cs
    else effectivePre v r cs

/-- simplify.py:108-117 `add_arc`: the arcs that are added -/
def arcs (size : Nat) (pre : Option Nat) (post : Nat) : List (Nat × Nat) :=
  match pre with
  | none => ((List.range size).filter (fun x => x ≠ post)).map (fun x => (x, post))
  | some x => [(x, post)]

/-- simplify.py:147-149 for one effect -/
def effectArcs (size : Nat) (d : List Fact) (e : PrePost) : List (Nat × Nat) :=
  match effectivePre e.var (lookup d e.var) e.conds with
  | none => []
  | some p => arcs size p e.post

/-- simplify.py:144-149 for one operator and the arcs of the variable `v` -/
def operatorArcs (v size : Nat) (o : SasOperator) : Option (List (Nat × Nat)) :=
  match applicability o with
  | none => none
  | some d => some ((o.prePost.filter (fun e => e.var == v)).flatMap (effectArcs size d))

/-- simplify.py:91-154 `build_dtgs`: the arcs of the graph of the variable `v`.  The code fills the graphs of all variables at the same time. -/
def dtgArcs (T : SasTask) (v size : Nat) : Option (List (Nat × Nat)) :=
  match mapAll (operatorArcs v size) T.operators with
  | none => none
  | some as => some (as.flatten ++ (T.axioms.filter (fun a => a.effect.var == v)).flatMap (fun a => arcs size none a.effect.val))

/-- simplify.py:69-79 `reachable`; the first argument bounds the number of iterations.  The code takes values from the end of the queue, and the order in which new ones are appended is not determined. -/
def reachLoop (as : List (Nat × Nat)) : Nat → List Nat → List Nat → Option (List Nat)
  | _, [], seen => some seen
  | 0, _ :: _, _ => none
  | fuel + 1, u :: queue, seen =>
    reachLoop as fuel ((((as.filter (fun a => a.1 == u)).map (·.2)).dedup.filter (fun w => !seen.contains w)) ++ queue)
      (seen ++ ((as.filter (fun a => a.1 == u)).map (·.2)).dedup.filter (fun w => !seen.contains w))

def reachable (as : List (Nat × Nat)) (init : Nat) : Option (List Nat) := reachLoop as (as.length + 1) [init] [init]

/-- always_false, always_true, or a new value -/
inductive NewValue where
  | never
  | always
  | value (x : Nat)
deriving DecidableEq

/-- neither always_false nor always_true -/
def isValue : NewValue → Bool
  | .value _ => true
  | _ => false

/-- simplify.py:200-225 `register_variable`: the new values; whether the variable is kept -/
def register (size init : Nat) (dom : List Nat) : Option (Bool × List NewValue) :=
  if 1 ≤ dom.length ∧ dom.length ≤ size ∧ init ∈ dom then
    if dom.length = 1 then
      if init < size then some (false, (List.range size).map (fun x => if x = init then .always else .never)) else none
    else
      if ((List.range size).filter (fun x => dom.contains x)).length = dom.length then
        some (true, (List.range size).map (fun x => if dom.contains x then .value ((List.range x).filter (fun y => dom.contains y)).length else .never))
      else none
  else none

/-- the renaming: new number of the variable, and new values -/
abbrev Renaming := List (Option Nat × List NewValue)

/-- simplify.py:480-484 `build_renaming`; `n` is new_var_count -/
def buildRenaming (T : SasTask) : List (SasVariable × Nat) → Nat → Nat → Option Renaming
  | [], _, _ => some []
  | (x, init) :: vs, v, n =>
    match dtgArcs T v x.valueNames.length with
    | none => none
    | some as =>
      match reachable as init with
      | none => none
      | some dom =>
        match register x.valueNames.length init dom with
        | none => none
        | some (b, values) =>
          match buildRenaming T vs (v + 1) (if b then n + 1 else n) with
          | none => none
          | some r => some ((if b then some n else none, values) :: r)

section
variable (R : Renaming)

/-- simplify.py:462-466 `translate_pair` -/
def translatePair (f : Fact) : Option (Option Nat × NewValue) :=
  match R[f.var]? with
  | none => none
  | some (v, values) => match values[f.val]? with | none => none | some x => some (v, x)

/-- simplify.py:468-478 `convert_pairs`; the inner `none` is Impossible -/
def convertPairs : List Fact → Option (Option (List Fact))
  | [] => some (some [])
  | f :: fs =>
    match translatePair R f with
    | none => none
    | some (_, .never) => some none
    | some (_, .always) => convertPairs fs
    | some (none, .value _) => none
    | some (some v, .value x) =>
      match convertPairs fs with
      | none => none
      | some none => some none
      | some (some l) => some (some (⟨v, x⟩ :: l))

/-- simplify.py:237-261 `apply_to_variables`, `apply_to_value_names`: kept variables and the names of the kept values.  New numbers are in the order of the old ones. -/
def newVariable (x : SasVariable) (r : Option Nat × List NewValue) : Option SasVariable :=
  match r.1 with
  | none => none
  | some _ => some ⟨x.layer, ((x.valueNames.zip r.2).filter (fun p => isValue p.2)).map (·.1)⟩

def newVariables (vs : List SasVariable) : List SasVariable := vs.zipIdx.filterMap (fun p => match R[p.2]? with | none => none | some r => newVariable p.1 r)

/-- simplify.py:267-271: a fact of a mutex group -/
def mutexFact (f : Fact) : Option (Option Fact) :=
  match translatePair R f with
  | none => none
  | some (some v, .value x) => some (some ⟨v, x⟩)
  | some (none, .value _) => none
  | some (_, _) => some none

/-- simplify.py:263-275 `apply_to_mutexes` -/
def newMutexes (ms : List (List Fact)) : Option (List (List Fact)) :=
  match mapAll (fun m => mapAll (mutexFact R) m) ms with
  | none => none
  | some ls => some ((ls.map (fun l => l.filterMap id)).filter (fun l => decide (2 ≤ l.length)))

/-- simplify.py:277-287 `apply_to_init`.  New variables are numbered in the order of the old ones, so the new values are in this order. -/
def newInit (init : List Nat) : Option (List Nat) :=
  match convertPairs R ((init.zipIdx).map (fun p => ⟨p.2, p.1⟩)) with
  | some (some l) => some (l.map (·.val))
  | _ => none

/-- simplify.py:444-449: does a condition contradict the conditions of the operator? -/
def contradicts (d : List Fact) (cs : List Fact) : Bool := cs.any (fun c => match lookup d c.var with | none => false | some y => y ≠ c.val)

/-- simplify.py:444-460: the end of `translate_pre_post` -/
def finishPrePost (d : List Fact) (v : Option Nat) (pre : Option NewValue) (post : NewValue) (conds : List Fact) : Option (Option PrePost) :=
  if contradicts d conds then some none
  else
    match v, pre, post with
    | some v, none, .value y => some (some ⟨v, none, y, conds⟩)
    | some v, some (.value x), .value y => some (some ⟨v, some x, y, conds⟩)
    | _, _, _ => none

/-- simplify.py:426-432: translation of the value before; `none` inside is -1 -/
def newPre (e : PrePost) : Option (Option NewValue) :=
  match e.pre with
  | none => some none
  | some x =>
    match translatePair R ⟨e.var, x⟩ with
    | none => none
    | some (_, .never) => none
    | some (_, y) => some (some y)

/-- simplify.py:396-460 `translate_pre_post` -/
def translatePrePost (d : List Fact) (e : PrePost) : Option (Option PrePost) :=
  match translatePair R ⟨e.var, e.post⟩ with
  | none => none
  | some (_, .always) => some none
  | some (v, post) =>
    match newPre R e with
    | none => none
    | some pre =>
      if pre = some post then some none
      else
        match convertPairs R e.conds with
        | none => none
        | some none => some none
        | some (some conds) => finishPrePost d v pre post conds

/-- sas_tasks.py:281-301 `SASOperator.__init__`: sorted and unique -/
def mkOperator (name : List Char) (prevail : List Fact) (prePost : List PrePost) (cost : Nat) : SasOperator :=
  ⟨name, prevail.insertionSort (fun a b => toLex (a.var, a.val) ≤ toLex (b.var, b.val)), (prePost.dedup).insertionSort (fun a b => a.key ≤ b.key), cost⟩

/-- simplify.py:329-382 `translate_operator`; the inner `none` is None -/
def translateOperator (keepNoOps : Bool) (o : SasOperator) : Option (Option SasOperator) :=
  match applicability o with
  | none => none
  | some a =>
    match convertPairs R a with
    | none => none
    | some none => some none
    | some (some d) =>
      match mapAll (translatePrePost R d) o.prePost with
      | none => none
      | some es =>
        if (es.filterMap id).isEmpty && !keepNoOps then some none
        else some (some (mkOperator o.name (d.filter (fun f => !(es.filterMap id).any (fun e => e.var == f.var))) (es.filterMap id) o.cost))

/-- simplify.py:384-394 `apply_to_axiom`; the inner `none` is Impossible or DoesNothing -/
def translateAxiom (a : SasAxiom) : Option (Option SasAxiom) :=
  match convertPairs R a.conds with
  | none => none
  | some none => some none
  | some (some conds) =>
    match translatePair R a.effect with
    | none => none
    | some (_, .never) => none
    | some (_, .always) => some none
    | some (none, .value _) => none
    | some (some v, .value x) => some (some ⟨conds, ⟨v, x⟩⟩)

end

/-- how simplification ends: with an exception that is not caught, with Impossible, with TriviallySolvable, or with a new task -/
inductive Outcome where
  | error
  | impossible
  | trivial
  | simplified (T : SasTask)

/-- simplify.py:299-327: operators and axioms -/
def applyActions (R : Renaming) (keepNoOps : Bool) (T : SasTask) (vars : List SasVariable) (mutexes : List (List Fact)) (init : List Nat) (goal : List Fact) : Outcome :=
  match mapAll (translateOperator R keepNoOps) T.operators, mapAll (translateAxiom R) T.axioms with
  | some os, some as => .simplified ⟨vars, mutexes, init, goal, os.filterMap id, as.filterMap id, T.metric⟩
  | _, _ => .error

/-- simplify.py:227-235, 289-297 `apply_to_task`, `apply_to_goals` -/
def applyToTask (R : Renaming) (keepNoOps : Bool) (T : SasTask) : Outcome :=
  match newMutexes R T.mutexes, newInit R T.init with
  | some mutexes, some init =>
    match convertPairs R T.goal with
    | none => .error
    | some none => .impossible
    | some (some []) => .trivial
    | some (some (f :: fs)) => applyActions R keepNoOps T (newVariables R T.variables) mutexes init (f :: fs)
  | _, _ => .error

/-- simplify.py:487-521 `filter_unreachable_propositions` -/
def filterUnreachable (keepNoOps : Bool) (T : SasTask) : Outcome :=
  match buildRenaming T (T.variables.zip T.init) 0 0 with
  | none => .error
  | some R => applyToTask R keepNoOps T

end Verif.Simplify
