import Verif.Spec.Task

/-
Model of domain abstraction: src/search/tasks/domain_abstracted_task.{h,cc} and domain_abstracted_task_factory.cc.

Names of facts are not modelled (but their positions are checked).  `none` is an access outside of a vector, or a call of ABORT.
-/
namespace Verif.DomAbs

/-- domain_abstracted_task_factory.cc:137-144: the values that do not belong to groups -/
def setSingles (union : List Nat) : List Nat → List Nat → Nat → List Nat × Nat
  | [], m, next => (m, next)
  | x :: xs, m, next => if x ∈ union then setSingles union xs m next else setSingles union xs (m.set x next) (next + 1)

/-- domain_abstracted_task_factory.cc:151-153: the values of one group -/
def setGroup (next : Nat) : List Nat → List Nat → Option (List Nat)
  | [], m => some m
  | x :: xs, m => if x < m.length then setGroup next xs (m.set x next) else none

/-- domain_abstracted_task_factory.cc:149-157: the groups; the number of facts is at most `dom` -/
def setGroups (dom : Nat) : List (List Nat) → List Nat → Nat → Option (List Nat × Nat)
  | [], m, next => some (m, next)
  | g :: gs, m, next =>
    match setGroup next g m with
    | none => none
    | some m => if next < dom then setGroups dom gs m (next + 1) else none

/-- domain_abstracted_task_factory.cc:119-164 combine_values: the new value of each value and the new size of the domain -/
def combineValues (dom : Nat) (groups : List (List Nat)) : Option (List Nat × Nat) :=
  setGroups dom groups (setSingles groups.flatten (List.range dom) (List.range dom) 0).1 (setSingles groups.flatten (List.range dom) (List.range dom) 0).2

/-- VarToGroups (domain_abstracted_task_factory.h): the groups of some variables (a map) -/
abbrev VarToGroups := List (Nat × List (List Nat))

/-- domain_abstracted_task_factory.cc:91-106 initialize, 55-66: the new values and domains of the variables -/
def valueMaps (t : Task) (vg : VarToGroups) : Option (List (List Nat × Nat)) :=
  if vg.all (fun p => decide (p.1 < t.vars.length)) then
    t.vars.zipIdx.mapM (fun p =>
      match vg.lookup p.2 with
      | none => some (List.range p.1.domain, p.1.domain)
      | some groups => combineValues p.1.domain groups)
  else none

/-- domain_abstracted_task.h:28-36 get_abstract_value, get_abstract_fact -/
def mapFact (maps : List (List Nat × Nat)) (f : Fact) : Option Fact :=
  match maps[f.var]? with
  | none => none
  | some m => (m.1[f.val]?).map (fun x => ⟨f.var, x⟩)

/-- domain_abstracted_task.cc:59-69: preconditions and effects -/
def mapOp (maps : List (List Nat × Nat)) (o : Operator) : Option Operator :=
  match o.pre.mapM (mapFact maps), o.effects.mapM (fun e => (mapFact maps e.fact).map (fun f => (⟨e.conds, f⟩ : Effect))) with
  | some pre, some effects => some ⟨pre, effects, o.cost⟩
  | _, _ => none

/-- domain_abstracted_task.cc:79-87 convert_state_values_from_parent -/
def convert (maps : List (List Nat × Nat)) (s : State) : Option State :=
  s.zipIdx.mapM (fun p => (maps[p.2]?).bind (fun m => m.1[p.1]?))

/-- domain_abstracted_task_factory.cc:44-88 and domain_abstracted_task.cc:30-48: the task and the conversion of states -/
def abstractTask (t : Task) (vg : VarToGroups) : Option (Task × (State → Option State)) :=
  if t.axioms = [] ∧ t.ops.all (fun o => o.effects.all (fun e => decide (e.conds = []))) then
    match valueMaps t vg with
    | none => none
    | some maps =>
      match t.ops.mapM (mapOp maps), convert maps t.init, t.goal.mapM (mapFact maps) with
      | some ops, some init, some goal => some (⟨t.vars.zipWith (fun d m => { d with domain := m.2 }) maps, ops, [], init, goal⟩, convert maps)
      | _, _, _ => none
  else none

end Verif.DomAbs
