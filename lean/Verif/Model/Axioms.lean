import Verif.Spec.Axioms

/-
Model of src/search/axioms.{h,cc}, class AxiomEvaluator.

Simplifications: an `AxiomLiteral *` is the fact (var, val) it stands for; its
`condition_of` list is computed from the rules.  `queue` is a list whose head is `back()`.
An access outside a vector is the outcome `none`; so is an exhausted fuel of the loop.
-/
namespace Verif.Axioms

/-- axioms.cc:23-38: one rule per axiom, taken from its single effect (index 0) -/
def mkRules (t : Task) : Option (List Rule) :=
  t.axioms.mapM (fun a => (a.effects[0]?).map (fun e => ⟨e.conds, e.fact⟩))

/-- axioms.cc:40-50: `condition_of` of a literal: the rules (as indices) in whose condition
it occurs, once per occurrence, in axiom order -/
def conditionOf (rules : List Rule) (lit : Fact) : List Nat :=
  rules.zipIdx.flatMap (fun p => (p.1.body.filter (· = lit)).map (fun _ => p.2))

/-- axioms.cc:52-59: number of layers (`last_layer + 1`) -/
def numLayers (t : Task) : Nat :=
  t.vars.foldl (fun m v => match v.layer with | some ℓ => max m (ℓ + 1) | none => m) 0

/-- axioms.cc:61-72: negation-by-failure literals of a layer (none for the last one) -/
def nbfInfo (t : Task) (layer : Nat) : List Fact :=
  t.vars.zipIdx.filterMap (fun p =>
    match p.1.layer with
    | some ℓ => if ℓ = layer ∧ ℓ + 1 ≠ numLayers t then some ⟨p.2, p.1.default⟩ else none
    | none => none)

/-- axioms.cc:74-80 -/
def defaultValues (t : Task) : List (Option Nat) :=
  t.vars.map (fun v => if v.layer.isSome then some v.default else none)

/-- mutable data of `evaluate` -/
structure St where
  values : State
  unsat : List Int
  queue : List Fact

/-- `&axiom_literals[var][val]`: the literal must exist (axioms.cc:20-21) -/
def literal (t : Task) (f : Fact) : Option Fact := do
  let v ← t.vars[f.var]?
  if f.val < v.domain then some f else none

/-- axioms.cc:89-97: reset derived variables, enqueue the other facts -/
def initLoop (t : Task) : List (Option Nat) → Nat → St → Option St
  | [], _, st => some st
  | d :: ds, v, st =>
    match d with
    | some dv =>
      if v < st.values.length then initLoop t ds (v + 1) { st with values := st.values.set v dv } else none
    | none => do
      let x ← st.values[v]?
      let lit ← literal t ⟨v, x⟩
      initLoop t ds (v + 1) { st with queue := lit :: st.queue }

/-- axioms.cc:114-119 and 131-136: set the effect variable of a rule, enqueue the literal -/
def fire (t : Task) (r : Rule) (st : St) : Option St := do
  let x ← st.values[r.head.var]?
  if x ≠ r.head.val then do
    let lit ← literal t r.head
    some { st with values := st.values.set r.head.var r.head.val, queue := lit :: st.queue }
  else some st

/-- axioms.cc:99-121: rules without conditions fire immediately
(`unsatisfied_conditions = condition_count` is in `evaluate`) -/
def emptyRules (t : Task) : List Rule → St → Option St
  | [], st => some st
  | r :: rs, st =>
    if r.body.length = 0 then do emptyRules t rs (← fire t r st) else emptyRules t rs st

/-- axioms.cc:128-138: process the rules in which the popped literal is a condition -/
def trigger (t : Task) (rules : List Rule) : List Nat → St → Option St
  | [], st => some st
  | i :: is, st => do
    let r ← rules[i]?
    let u ← st.unsat[i]?
    let st1 := { st with unsat := st.unsat.set i (u - 1) }
    if u - 1 = 0 then do trigger t rules is (← fire t r st1) else trigger t rules is st1

/-- axioms.cc:125-139: `while (!queue.empty())` -/
def hornLoop (t : Task) (rules : List Rule) : Nat → St → Option St
  | fuel, st =>
    match st.queue with
    | [] => some st
    | lit :: q =>
      match fuel with
      | 0 => none
      | fuel + 1 => do
        let st' ← trigger t rules (conditionOf rules lit) { st with queue := q }
        hornLoop t rules fuel st'

/-- axioms.cc:148-154: enqueue the default literals of a finished layer -/
def pushNbf : List Fact → St → Option St
  | [], st => some st
  | f :: fs, st => do
    let x ← st.values[f.var]?
    if x = f.val then pushNbf fs { st with queue := f :: st.queue } else pushNbf fs st

/-- axioms.cc:123-156: the loop over layers; `n` layers left, `layer` is the current one -/
def layerLoop (t : Task) (rules : List Rule) (fuel : Nat) : Nat → Nat → St → Option St
  | 0, _, st => some st
  | n + 1, layer, st => do
    let st1 ← hornLoop t rules fuel st
    let st2 ← if n ≠ 0 then pushNbf (nbfInfo t layer) st1 else some st1
    layerLoop t rules fuel n (layer + 1) st2

/-- axioms.cc:84-157 `AxiomEvaluator::evaluate` on the unpacked state -/
def evaluate (t : Task) (s : State) : Option State :=
  if t.axioms.length > 0 then do
    let rules ← mkRules t
    let st0 ← initLoop t (defaultValues t) 0 { values := s, unsat := rules.map (fun r => (r.body.length : Int)), queue := [] }
    let st1 ← emptyRules t rules st0
    let st2 ← layerLoop t rules (t.vars.length + 2 * rules.length + 1) (numLayers t) 0 st1
    some st2.values
  else some s

end Verif.Axioms
