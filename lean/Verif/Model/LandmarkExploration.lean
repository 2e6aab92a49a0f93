import Verif.Model.Landmarks

/-
Model of the relaxed exploration that is used to find landmarks and achievers
(src/search/landmarks/exploration.{h,cc}, util.cc, landmark_factory.cc, landmark_factory_relaxation.cc).

A vector of vectors that is indexed by the variable and the value of a fact is modelled by a list of facts or a function of facts,
with an explicit check of the indices.  An access outside of a vector and a failed assertion give `none`.  Hash sets are lists
without duplicates; where the code iterates over a hash set and the order matters, the order is a parameter.
-/
namespace Verif.Landmarks

/-- the indices of the fact are in the range of a vector `v[var][value]` with the sizes of the domains -/
def hasFact (t : Task) (f : Fact) : Bool :=
  match t.vars[f.var]? with
  | none => false
  | some d => decide (f.val < d.domain)

/-- inserting an element in a hash set -/
def insertSet {α : Type} [BEq α] (l : List α) (a : α) : List α := if l.contains a then l else l ++ [a]

/-- inserting the elements of a list in a hash set -/
def insertAll {α : Type} [BEq α] (l : List α) (as : List α) : List α := as.foldl insertSet l

/-- the operators and axioms with their ids (util.cc:69 `get_operator_or_axiom_id`), in the order in which they are visited by
all loops over operators and axioms -/
def opsAndAxioms (t : Task) : List (Int × Operator) :=
  t.ops.zipIdx.map (fun x => ((x.2 : Int), x.1)) ++ t.axioms.zipIdx.map (fun x => (-(x.2 : Int) - 1, x.1))

/-- util.cc:60 `get_operator_or_axiom` -/
def getOperatorOrAxiom (t : Task) (id : Int) : Option Operator :=
  if id < 0 then t.axioms[(-id - 1).toNat]? else t.ops[id.toNat]?

/-! ### Relaxed exploration (line numbers of exploration.cc) -/

/-- exploration.h:37 `UnaryOperator`, without the members that change -/
structure UnaryOp where
  id : Int
  pre : List Fact
  eff : Fact
deriving DecidableEq, Repr

/-- line 56 and line 116 `build_unary_operators`.  The code sorts the preconditions, which does not matter. -/
def unaryOperators (t : Task) : List UnaryOp :=
  (opsAndAxioms t).flatMap (fun x => x.2.effects.map (fun e => ⟨x.1, x.2.pre ++ e.conds, e.fact⟩))

/-- the members that change: `reached` of all propositions, the queue, `num_unsatisfied_preconditions` of the unary operators -/
structure ExSt where
  reached : List Fact
  queue : List Fact
  unsat : List Int
deriving DecidableEq, Repr

/-- line 265 `enqueue_if_necessary` -/
def enqueueIfNecessary (t : Task) (st : ExSt) (f : Fact) : Option ExSt :=
  if hasFact t f then
    if st.reached.contains f then some st else some { st with reached := st.reached ++ [f], queue := st.queue ++ [f] }
  else none

/-- line 147 `set_state_atoms_reached`; `excluded` are the excluded propositions -/
def setStateAtomsReached (t : Task) (excluded : List Fact) : List (Nat × Nat) → ExSt → Option ExSt
  | [], st => some st
  | x :: xs, st =>
    if excluded.contains ⟨x.2, x.1⟩ then setStateAtomsReached t excluded xs st
    else
      match enqueueIfNecessary t st ⟨x.2, x.1⟩ with
      | none => none
      | some st => setStateAtomsReached t excluded xs st

/-- line 170 `get_excluded_operators` -/
def getExcludedOperators (t : Task) (excluded : List Fact) (unary : Bool) : List Int :=
  if unary then []
  else (t.ops.zipIdx.filter (fun x => x.1.effects.any (fun e => e.conds.isEmpty && excluded.contains e.fact))).map (fun x => (x.2 : Int))

/-- lines 204-210: the flag `excluded` of a unary operator -/
def UnaryOp.isExcluded (excluded : List Fact) (ids : List Int) (u : UnaryOp) : Bool := excluded.contains u.eff || ids.contains u.id

/-- line 192 `initialize_operator_data`: the effects that are enqueued -/
def initializeOperatorData (t : Task) (excl : UnaryOp → Bool) : List UnaryOp → ExSt → Option ExSt
  | [], st => some st
  | u :: us, st =>
    if excl u then initializeOperatorData t excl us st
    else if u.pre.length = 0 then
      match enqueueIfNecessary t st u.eff with
      | none => none
      | some st => initializeOperatorData t excl us st
    else initializeOperatorData t excl us st

/-- lines 132-135: the numbers of the unary operators in `precondition_of` of a proposition -/
def preconditionOf (us : List UnaryOp) (f : Fact) : List Nat := us.zipIdx.flatMap (fun x => (x.1.pre.filter (· == f)).map (fun _ => x.2))

/-- lines 252-261: the loop over the triggered operators -/
def triggerOperators (t : Task) (us : List UnaryOp) (excl : UnaryOp → Bool) : List Nat → ExSt → Option ExSt
  | [], st => some st
  | i :: is, st =>
    match us[i]?, st.unsat[i]? with
    | some u, some n =>
      if excl u then triggerOperators t us excl is st
      else if n - 1 < 0 then none
      else if n - 1 = 0 then
        match enqueueIfNecessary t { st with unsat := st.unsat.set i (n - 1) } u.eff with
        | none => none
        | some st => triggerOperators t us excl is st
      else triggerOperators t us excl is { st with unsat := st.unsat.set i (n - 1) }
    | _, _ => none

/-- line 245 `relaxed_exploration`.  The first argument bounds the number of iterations. -/
def relaxedExploration (t : Task) (us : List UnaryOp) (excl : UnaryOp → Bool) : Nat → ExSt → Option ExSt
  | 0, _ => none
  | n + 1, st =>
    match st.queue with
    | [] => some st
    | f :: q =>
      match triggerOperators t us excl (preconditionOf us f) { st with queue := q } with
      | none => none
      | some st => relaxedExploration t us excl n st

/-- the number of propositions -/
def numFacts (t : Task) : Nat := (t.vars.map (·.domain)).sum

/-- line 286 `compute_relaxed_reachability`: the propositions that are reached -/
def computeRelaxedReachability (t : Task) (excluded : List Fact) (unary : Bool) : Option (List Fact) :=
  if excluded.all (hasFact t) && (unaryOperators t).all (fun u => hasFact t u.eff && u.pre.all (hasFact t)) then
    match setStateAtomsReached t excluded t.init.zipIdx ⟨[], [], (unaryOperators t).map (fun u => (u.pre.length : Int))⟩ with
    | none => none
    | some st =>
      match initializeOperatorData t (UnaryOp.isExcluded excluded (getExcludedOperators t excluded unary)) (unaryOperators t) st with
      | none => none
      | some st =>
        (relaxedExploration t (unaryOperators t) (UnaryOp.isExcluded excluded (getExcludedOperators t excluded unary)) (numFacts t + 1) st).map (·.reached)
  else none

/-! ### Achievers -/

/-- util.cc:13 `condition_is_reachable` -/
def conditionIsReachable (t : Task) (reached : List Fact) : List Fact → Option Bool
  | [] => some true
  | f :: fs =>
    if hasFact t f then
      if reached.contains f then conditionIsReachable t reached fs else some false
    else none

/-- util.cc:38-41: `any_of` -/
def someEffectReaches (t : Task) (reached : List Fact) (atoms : List Fact) : List Effect → Option Bool
  | [] => some false
  | e :: es =>
    if atoms.contains e.fact then
      match conditionIsReachable t reached e.conds with
      | none => none
      | some true => some true
      | some false => someEffectReaches t reached atoms es
    else someEffectReaches t reached atoms es

/-- util.cc:26 `possibly_reaches_landmark` -/
def possiblyReachesLandmark (t : Task) (o : Operator) (reached : List Fact) (atoms : List Fact) : Option Bool :=
  match conditionIsReachable t reached o.pre with
  | none => none
  | some false => some false
  | some true => someEffectReaches t reached atoms o.effects

/-- landmark_factory.cc:34-56: the entry of a fact in `operators_providing_effect` -/
def operatorsIncludingEffect (t : Task) (f : Fact) : List Int :=
  (opsAndAxioms t).flatMap (fun x => (x.2.effects.filter (fun e => e.fact == f)).map (fun _ => x.1))

/-- landmark_factory_relaxation.cc:30 `compute_possible_achievers`; the result also says whether a variable is derived -/
def computePossibleAchievers (t : Task) : List Fact → List Int × Bool → Option (List Int × Bool)
  | [], r => some r
  | f :: fs, r =>
    if hasFact t f then
      match t.vars[f.var]? with
      | none => none
      | some d => computePossibleAchievers t fs (insertAll r.1 (operatorsIncludingEffect t f), r.2 || d.layer.isSome)
    else none

/-- landmark_factory_relaxation.cc:42 `compute_first_achievers` -/
def computeFirstAchievers (t : Task) (reached : List Fact) (atoms : List Fact) : List Int → Option (List Int)
  | [] => some []
  | id :: ids =>
    match getOperatorOrAxiom t id with
    | none => none
    | some o =>
      match possiblyReachesLandmark t o reached atoms, computeFirstAchievers t reached atoms ids with
      | some true, some l => some (id :: l)
      | some false, some l => some l
      | _, _ => none

/-- landmark_factory_relaxation.cc:58-64: the body of the loop of `calc_achievers`.  The landmark has no achievers before. -/
def calcAchieversNode (t : Task) (n : Node) : Option Node :=
  match computePossibleAchievers t n.landmark.atoms ([], n.landmark.isDerived), computeRelaxedReachability t n.landmark.atoms false with
  | some (possible, derived), some reached =>
    match computeFirstAchievers t reached n.landmark.atoms possible with
    | none => none
    | some first => some { n with landmark := { n.landmark with isDerived := derived, firstAchievers := first, possibleAchievers := possible } }
  | _, _ => none

/-- landmark_factory_relaxation.cc:54 `calc_achievers` -/
def calcAchievers (t : Task) : Graph → Option Graph
  | [] => some []
  | n :: g =>
    match calcAchieversNode t n, calcAchievers t g with
    | some n, some g => some (n :: g)
    | _, _ => none

end Verif.Landmarks
