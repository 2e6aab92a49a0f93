import Verif.Model.SearchSpace

/-
Model of src/search/search_algorithms/iterated_search.cc.

The component searches are arbitrary: `run i bound` is the outcome of SearchAlgorithm::search
of component `i` with the given bound (a plan or nothing; it can depend on everything that
happened before), `bound i` is the bound with which component `i` is created.  `none` is undefined
behaviour or an integer overflow.  The program can also end within a component search (exit
codes), and components can run forever; neither is a step of the model.
Not modelled: the retained components (the set which keeps caches alive), except that the
released entries of task_independent_searches must not be used; statistics and logging.
-/
namespace Verif.Iterated

/-- the options of iterated search -/
structure Options where
  passBound : Bool
  repeatLast : Bool
  continueOnFail : Bool
  continueOnSolve : Bool
  bound : Int

/-- the component searches -/
structure Comps (σ : Type) where
  bound : Nat → Int
  run : σ → Nat → Int → Option (List Nat) × σ

/-- a component search that was run: its index, the bound and the outcome.  This log is not
part of the program, it is kept to state what the program does. -/
structure Call where
  index : Nat
  bound : Int
  outcome : Option (List Nat)

/-- the members of IteratedSearch that change, the plan files saved by the plan manager, and
the log.  An entry of `searches` is `false` if the pointer has been set to nullptr. -/
structure St (σ : Type) where
  searches : List Bool
  phase : Nat
  lastFound : Bool
  bestBound : Int
  iteratedFound : Bool
  saved : List (List Nat)
  plan : Option (List Nat)
  env : σ
  calls : List Call

/-- search_algorithm.h:28-33 without TIMEOUT -/
inductive Status where
  | inProgress | failed | solved
deriving DecidableEq

variable {σ : Type}

/-- iterated_search.cc:15-32 for `k` component searches -/
def St.new (opts : Options) (k : Nat) (env : σ) : St σ := ⟨List.replicate k true, 0, false, opts.bound, false, [], none, env, []⟩

/-- plan_manager.cc:14-21 -/
def calculatePlanCost (cost : Nat → Nat) : Int → List Nat → Option Int
  | c, [] => some c
  | c, o :: π =>
    match Search.plus c (cost o) with
    | none => none
    | some c => calculatePlanCost cost c π

/-- iterated_search.cc:95-113: the index of the search to be run; `none` is nullptr -/
def currentSearch (opts : Options) (st : St σ) : Option Nat :=
  if st.phase ≥ st.searches.length then
    if opts.repeatLast && st.lastFound then some (st.searches.length - 1) else none
  else some st.phase

/-- iterated_search.cc:34-75: the entries of task_independent_searches that are used by
update_retention_set -/
def retained (opts : Options) (st : St σ) : List Bool :=
  if st.phase ≥ st.searches.length && opts.repeatLast then st.searches.drop (st.searches.length - 1) else st.searches.drop st.phase

/-- iterated_search.cc:127-139 for the outcome of the search -/
def treatOutcome (cost : Nat → Nat) (outcome : Option (List Nat)) (st : St σ) : Option (St σ) :=
  match outcome with
  | none => some { st with lastFound := false }
  | some π =>
    match calculatePlanCost cost 0 π with
    | none => none
    | some c =>
      if c < st.bestBound then some { st with lastFound := true, iteratedFound := true, saved := st.saved ++ [π], bestBound := c, plan := some π }
      else some { st with lastFound := true, iteratedFound := true }

/-- iterated_search.cc:157-164 -/
def release (opts : Options) (st : St σ) : Option (St σ) :=
  if (retained opts st).all id then
    if st.phase < st.searches.length || !opts.repeatLast || !st.lastFound then
      if min (st.phase - 1) (st.searches.length - 1) < st.searches.length then
        some { st with searches := st.searches.set (min (st.phase - 1) (st.searches.length - 1)) false }
      else none
    else some st
  else none

/-- iterated_search.cc:169-190 -/
def stepReturnValue (opts : Options) (st : St σ) : Status :=
  if st.lastFound then if opts.continueOnSolve then .inProgress else .solved
  else if opts.continueOnFail then .inProgress
  else if st.iteratedFound then .solved else .failed

/-- iterated_search.cc:120-122: the bound for component `i` -/
def passedBound (opts : Options) (C : Comps σ) (i : Nat) (st : St σ) : Int :=
  if opts.passBound && decide (st.bestBound < C.bound i) then st.bestBound else C.bound i

/-- iterated_search.cc:115-167 -/
def step (cost : Nat → Nat) (opts : Options) (C : Comps σ) (st : St σ) : Option (St σ × Status) :=
  match currentSearch opts st with
  | none => some (st, if st.plan.isSome then .solved else .failed)
  | some i =>
    match st.searches[i]? with
    | some true =>
      let r := C.run st.env i (passedBound opts C i st)
      match treatOutcome cost r.1 { st with phase := st.phase + 1, env := r.2, calls := st.calls ++ [⟨i, passedBound opts C i st, r.1⟩] } with
      | none => none
      | some st => (release opts st).map (fun st => (st, stepReturnValue opts st))
    | _ => none

/-- search_algorithm.cc:80-93 with at most `n` steps, without time limit -/
def run (cost : Nat → Nat) (opts : Options) (C : Comps σ) : Nat → St σ → Option (St σ × Status)
  | 0, st => some (st, .inProgress)
  | n + 1, st =>
    match step cost opts C st with
    | none => none
    | some (st, .inProgress) => run cost opts C n st
    | some r => some r

/-- iterated search with `k` component searches -/
def search (cost : Nat → Nat) (opts : Options) (C : Comps σ) (k : Nat) (env : σ) (n : Nat) : Option (St σ × Status) := run cost opts C n (St.new opts k env)

end Verif.Iterated
