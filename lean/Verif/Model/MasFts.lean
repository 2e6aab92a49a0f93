import Verif.Model.MasDistances
import Verif.Spec.Task

/-
Model of src/search/merge_and_shrink/{merge_and_shrink_representation,factored_transition_system,fts_factory}.cc.
-/
namespace Verif.Mas
open Verif.AdaptiveQueue

/-- merge_and_shrink_representation.h:16-84: a representation with its domain size; `none` in a table is PRUNED_STATE -/
inductive Repr where
  | leaf (domain : Nat) (var : Nat) (table : List (Option Nat))
  | merge (domain : Nat) (left right : Repr) (table : List (List (Option Nat)))

def Repr.domain : Repr → Nat
  | .leaf d _ _ => d
  | .merge d _ _ _ => d

/-- merge_and_shrink_representation.cc:29-35 -/
def Repr.newLeaf (var d : Nat) : Repr := .leaf d var ((List.range d).map some)

/-- merge_and_shrink_representation.cc:83-100 -/
def Repr.newMerge (l r : Repr) : Repr :=
  .merge (l.domain * r.domain) l r ((List.range l.domain).map (fun i => (List.range r.domain).map (fun j => some (i * r.domain + j))))

/-- application of a vector to an entry which is not PRUNED_STATE -/
def mapEntry {α : Type} (m : List α) (f : α → Option Nat) : Option Nat → Option (Option Nat)
  | none => some none
  | some e => (m[e]?).map f

/-- merge_and_shrink_representation.cc:49-56, 116-125: the largest entry plus 1 -/
def newDomain (es : List (Option Nat)) : Nat := es.foldl (fun d e => max d (match e with | none => 0 | some e => e + 1)) 0

/-- application of a vector to a table -/
def mapTable {α : Type} (m : List α) (f : α → Option Nat) (table : List (Option Nat)) : Option (List (Option Nat)) := mapAll (mapEntry m f) table

/-- merge_and_shrink_representation.cc:47-57, 114-126 -/
def Repr.applyAbstraction (m : List (Option Nat)) : Repr → Option Repr
  | .leaf _ v table =>
    match mapTable m id table with
    | none => none
    | some table => some (.leaf (newDomain table) v table)
  | .merge _ l r table =>
    match mapAll (mapTable m id) table with
    | none => none
    | some table => some (.merge (newDomain table.flatten) l r table)

/-- merge_and_shrink_representation.cc:37-45, 102-112 -/
def Repr.setDistances (ds : List Nat) : Repr → Option Repr
  | .leaf d v table =>
    match mapTable ds some table with
    | none => none
    | some table => some (.leaf d v table)
  | .merge d l r table =>
    match mapAll (mapTable ds some) table with
    | none => none
    | some table => some (.merge d l r table)

/-- merge_and_shrink_representation.cc:59-62, 128-134: the value; `none` inside is PRUNED_STATE -/
def Repr.value (s : State) : Repr → Option (Option Nat)
  | .leaf _ v table =>
    match s[v]? with
    | none => none
    | some x => table[x]?
  | .merge _ l r table =>
    match l.value s, r.value s with
    | some (some a), some (some b) =>
      match table[a]? with
      | none => none
      | some row => row[b]?
    | some _, some _ => some none
    | _, _ => none

/-- merge_and_shrink_representation.cc:64-71, 136-145 -/
def Repr.total : Repr → Bool
  | .leaf _ _ table => table.all (·.isSome)
  | .merge _ l r table => table.all (fun row => row.all (·.isSome)) && (l.total && r.total)

/-- a factor of a factored transition system: factored_transition_system.h:65-69.  The three pointers of a factor are null together. -/
structure Factor where
  ts : TS
  repr : Repr
  dist : Distances

/-- factored_transition_system.h:63-75; num_active_entries is the number of factors which are not null -/
structure FTS where
  labels : Labels
  factors : List (Option Factor)
  ci : Bool
  cg : Bool

/-- factored_transition_system.cc:239-242 and the accessors: the factor with an index, undefined for an inactive factor -/
def FTS.factor (F : FTS) (i : Nat) : Option Factor := (F.factors[i]?).join

def FTS.numActive (F : FTS) : Nat := F.factors.countP (·.isSome)

/-- factored_transition_system.h:30-49, .cc:17-34: the indices an iteration visits -/
def FTS.indices (F : FTS) : List Nat := (List.range F.factors.length).filter (fun i => (F.factor i).isSome)

section
variable (O : HashOrder) (H : StdHeap Nat)

/-- distances are computed if one of them is requested: factored_transition_system.cc:49-53, 177-181 -/
def computeBoth (T : TS) (ci cg : Bool) : Option Distances := if ci || cg then computeDistances H T ci cg ⟨none, none⟩ else some ⟨none, none⟩

/-- factored_transition_system.cc:114-118: all labels are reduced, with the expected numbers -/
def reduceLabels : List (Nat × List Nat) → Labels → Option Labels
  | [], L => some L
  | e :: es, L =>
    if e.1 = L.costs.length then
      match L.reduce e.2 with
      | none => none
      | some L => reduceLabels es L
    else none

/-- factored_transition_system.cc:119-124 for the factor with index `i` -/
def reduceFactor (L : Labels) (es : List (Nat × List Nat)) (comb : Nat) (p : Option Factor × Nat) : Option (Option Factor) :=
  match p.1 with
  | none => some none
  | some f =>
    match f.ts.applyLabelReduction L es (p.2 ≠ comb) with
    | none => none
    | some T => some (some { f with ts := T })

/-- factored_transition_system.cc:111-126 -/
def FTS.applyLabelMapping (F : FTS) (es : List (Nat × List Nat)) (comb : Nat) : Option FTS :=
  match reduceLabels es F.labels with
  | none => none
  | some L =>
    match mapAll (reduceFactor L es comb) F.factors.zipIdx with
    | none => none
    | some fs => some { F with labels := L, factors := fs }

/-- factored_transition_system.cc:143-147 -/
def abstractDistances (T : TS) (rel : List (List Nat)) (ci cg : Bool) (d : Distances) : Option Distances :=
  if ci || cg then d.applyAbstraction H T rel ci cg else some d

/-- factored_transition_system.cc:128-155 for a factor; the result does not change if the relation has as many classes as there are states -/
def Factor.applyAbstraction (f : Factor) (rel : List (List Nat)) (ci cg : Bool) : Option Factor :=
  if rel.length = f.ts.size then some f
  else
    match abstractionMapping f.ts.size rel with
    | none => none
    | some m =>
      match f.ts.applyAbstraction rel m with
      | none => none
      | some T =>
        match abstractDistances H T rel ci cg f.dist, f.repr.applyAbstraction m with
        | some d, some r => some ⟨T, r, d⟩
        | _, _ => none

/-- factored_transition_system.cc:128-155 -/
def FTS.applyAbstraction (F : FTS) (i : Nat) (rel : List (List Nat)) : Option FTS :=
  match F.factor i with
  | none => none
  | some f =>
    match f.applyAbstraction H rel F.ci F.cg with
    | none => none
    | some f => some { F with factors := F.factors.set i (some f) }

/-- factored_transition_system.cc:157-185: the new factor -/
def mergeFactors (L : Labels) (ci cg : Bool) (f g : Factor) : Option Factor :=
  match f.ts.merge O L g.ts with
  | none => none
  | some T =>
    match computeBoth H T ci cg with
    | none => none
    | some d => some ⟨T, f.repr.newMerge g.repr, d⟩

/-- factored_transition_system.cc:157-185; the new factor gets the next index.  Merging a factor with itself moves from a null pointer. -/
def FTS.merge (F : FTS) (i j : Nat) : Option FTS :=
  if i = j then none
  else
    match F.factor i, F.factor j with
    | some f, some g =>
      match mergeFactors O H F.labels F.ci F.cg f g with
      | none => none
      | some h => some { F with factors := ((F.factors.set i none).set j none) ++ [some h] }
    | _, _ => none

/-! ### the atomic systems -/

/-- fts_factory.cc:99-112 -/
def createLabels (t : Task) : Labels := ⟨t.ops.map (fun o => some o.cost), if 0 < t.ops.length then 2 * t.ops.length - 1 else 0⟩

/-- fts_factory.cc:122-130: the value of the first goal on the variable -/
def goalValue (t : Task) (v : Nat) : Option Nat := (t.goal.find? (fun f => f.var == v)).map (·.val)

/-- fts_factory.cc:132-137 -/
def atomicGoals (t : Task) (v d : Nat) : List Bool :=
  (List.range d).map (fun x => match goalValue t v with | none => true | some g => x == g)

/-- fts_factory.cc:162-168: the value that `pre_val` has for a variable (the last one written) -/
def preValue (o : Operator) (v : Nat) : Option Nat := ((o.pre.filter (fun f => f.var == v)).getLast?).map (·.val)

/-- fts_factory.cc:182-194: pre_value_min to pre_value_max -/
def preValues (o : Operator) (v d : Nat) : List Nat :=
  match preValue o v with
  | none => List.range d
  | some x => [x]

/-- fts_factory.cc:203-212: cond_effect_pre_value -/
def condValue (e : Effect) : Option Nat := ((e.conds.filter (fun f => f.var == e.fact.var)).getLast?).map (·.val)

/-- fts_factory.cc:203-212: has_other_effect_cond -/
def hasOther (e : Effect) : Bool := e.conds.any (fun f => f.var != e.fact.var)

/-- fts_factory.cc:170-241: the transitions added for an effect; `d` is the domain size of its variable -/
def effectTransitions (o : Operator) (d : Nat) (e : Effect) : List (Nat × Nat) :=
  ((preValues o e.fact.var d).filter (fun x => condValue e == none || condValue e == some x)).map (fun x => (x, e.fact.val)) ++
    (if e.conds.isEmpty then [] else ((preValues o e.fact.var d).filter (fun x => hasOther e || condValue e != some x)).map (fun x => (x, x)))

/-- fts_factory.cc:240, 243-254: is the operator relevant for the variable? -/
def relevant (o : Operator) (v : Nat) : Bool := o.effects.any (fun e => e.fact.var == v) || o.pre.any (fun f => f.var == v)

/-- fts_factory.cc:262-276: transitions_by_var for one variable -/
def opTransitions (o : Operator) (v d : Nat) : List (Nat × Nat) :=
  ((o.effects.filter (fun e => e.fact.var == v)).flatMap (effectTransitions o d)) ++
    (if o.effects.any (fun e => e.fact.var == v) then [] else (o.pre.filter (fun f => f.var == v)).map (fun f => (f.val, f.val)))

/-- fts_factory.cc:305-316: the first local label with these transitions -/
def findLocal (ts : List (Nat × Nat)) (infos : List LocalLabel) : Option Nat := infos.findIdx? (fun i => decide (i.transitions = ts))

/-- fts_factory.cc:298-327: a label with its transitions is added to an equivalent local label or a new one -/
def addLabel (l c : Nat) (ts : List (Nat × Nat)) (st : List (Option Nat) × List LocalLabel) : Option (List (Option Nat) × List LocalLabel) :=
  match findLocal ts st.2 with
  | some k =>
    match st.2[k]?, setAll (some k) [l] st.1 with
    | some i, some m => some (m, st.2.set k { i with labels := i.labels ++ [l], cost := min i.cost c })
    | _, _ => none
  | none =>
    match setAll (some st.2.length) [l] st.1 with
    | none => none
    | some m => some (m, st.2 ++ [⟨[l], ts, c⟩])

/-- fts_factory.cc:256-329 for one variable, for the operators from number `l`.  `cond` is task_has_conditional_effects, which is set when the first
operator with conditional effects is treated.  The loops over operators and variables are exchanged: the data of different variables are
independent. -/
def atomicLoop (v d : Nat) : List Operator → Nat → Bool → List (Option Nat) × List LocalLabel → Option (List (Option Nat) × List LocalLabel)
  | [], _, _, st => some st
  | o :: os, l, cond, st =>
    if relevant o v then
      match addLabel l o.cost (if cond || o.effects.any (fun e => !e.conds.isEmpty) then sortUniqueTrans (opTransitions o v d) else opTransitions o v d) st with
      | none => none
      | some st => atomicLoop v d os (l + 1) (cond || o.effects.any (fun e => !e.conds.isEmpty)) st
    else atomicLoop v d os (l + 1) (cond || o.effects.any (fun e => !e.conds.isEmpty)) st

/-- fts_factory.cc:336-344: the labels of the operators that are not relevant -/
def irrelevantLabels (t : Task) (v : Nat) : List Nat := (createLabels t).active.filter (fun l => match t.ops[l]? with | none => true | some o => !relevant o v)

/-- fts_factory.cc:331-360 -/
def addIrrelevant (t : Task) (v d : Nat) (st : List (Option Nat) × List LocalLabel) : Option (List (Option Nat) × List LocalLabel) :=
  if (irrelevantLabels t v).isEmpty then some st
  else addGroup (createLabels t) (irrelevantLabels t v) ((List.range d).map (fun x => (x, x))) st.1 st.2

/-- fts_factory.cc:114-152, 379-397: the atomic transition system of a variable -/
def atomic (t : Task) (v : Nat) : Option TS :=
  match t.vars[v]?, t.init[v]? with
  | some d, some x =>
    match atomicLoop v d.domain t.ops 0 false (List.replicate (createLabels t).maxNum none, []) with
    | none => none
    | some st =>
      match addIrrelevant t v d.domain st with
      | none => none
      | some (m, infos) => some ⟨m, infos, atomicGoals t v d.domain, some x⟩
  | _, _ => none

/-- fts_factory.cc:399-431, factored_transition_system.cc:35-56: the factor of a variable -/
def atomicFactor (t : Task) (ci cg : Bool) (v : Nat) : Option (Option Factor) :=
  match t.vars[v]?, atomic t v with
  | some d, some T =>
    match computeBoth H T ci cg with
    | none => none
    | some dist => some (some ⟨T, Repr.newLeaf v d.domain, dist⟩)
  | _, _ => none

/-- fts_factory.cc:433-454 -/
def createFts (t : Task) (ci cg : Bool) : Option FTS :=
  match mapAll (atomicFactor H t ci cg) (List.range t.vars.length) with
  | none => none
  | some fs => some ⟨createLabels t, fs, ci, cg⟩

end
end Verif.Mas
