import Verif.Model.OpenListLeaf

/-
Model of evaluators and evaluation contexts: src/search/evaluation_context.cc,
evaluation_result.cc, evaluator_cache.cc, heuristic.cc and src/search/evaluators/*.cc.

`none` is a failed assertion or an int overflow.
Simplifications: an evaluator object is a tree in which every node carries the address `id`
of the object; per-state information is a total function (C07).  compute_heuristic is an
arbitrary function of the heuristic and the state, yielding a value and the preferred
operators it marks.
-/
namespace Verif.Evaluators
open Verif.OpenList (infty)

/-- evaluation_result.h:17-22 -/
structure Result where
  value : Int
  preferred : List Nat
  count : Bool
deriving DecidableEq, Repr

/-- evaluation_result.h:18 -/
def uninitialized : Int := -2
/-- evaluation_result.cc:7-8; the flag is left uninitialized in the code and always set
before it is read for a heuristic -/
def Result.new : Result := ⟨uninitialized, [], false⟩
/-- evaluation_result.cc:10-12 -/
def Result.isUninitialized (r : Result) : Bool := r.value == uninitialized

/-- evaluator objects: heuristics and the evaluators of src/search/evaluators -/
inductive Ev where
  | heuristic (id : Nat) (cacheEstimates : Bool)
  | g (id : Nat)
  | const (id : Nat) (value : Int)
  | pref (id : Nat)
  | weighted (id : Nat) (e : Ev) (weight : Int)
  | sum (id : Nat) (es : List Ev)
  | max (id : Nat) (es : List Ev)

/-- the address of the object -/
def Ev.id : Ev → Nat
  | .heuristic i _ => i
  | .g i => i
  | .const i _ => i
  | .pref i => i
  | .weighted i _ _ => i
  | .sum i _ => i
  | .max i _ => i

/-- heuristic.h:41-44 -/
def deadEnd : Int := -1
def noValue : Int := -2

/-- heuristic.h:16-21: `int h : 31; unsigned int dirty : 1` -/
structure HEntry where
  h : Int
  dirty : Bool
deriving DecidableEq

/-- an int stored in a signed bit field of 31 bits (modulo 2^31) -/
def wrap31 (x : Int) : Int := (x + 2 ^ 30) % 2 ^ 31 - 2 ^ 30

/-- evaluation_context.h: state, g-value (`none` is INVALID), preferredness, and whether
preferred operators are calculated -/
structure Context (S : Type) where
  state : S
  g : Option Int
  preferred : Bool
  calculatePreferred : Bool

/-- what changes during evaluation: the cache of the context, the per-state caches of the
heuristics, the number of evaluations; `log` records the calls of compute_result (only used
to state the property) -/
structure St (S : Type) where
  cache : Nat → Result
  hcache : Nat → S → HEntry
  evaluations : Nat
  log : List Nat

variable {S : Type} [DecidableEq S]

/-- the number stored for a heuristic and a state is replaced -/
def setH (hc : Nat → S → HEntry) (i : Nat) (s : S) (e : HEntry) : Nat → S → HEntry := fun j x => if j = i ∧ x = s then e else hc j x

/-- evaluation_context.cc:40-50 for the evaluator with address `id`; `counts` is
is_used_for_counting_evaluations (the heuristics: heuristic.cc:20) -/
def memo (id : Nat) (counts : Bool) (compute : St S → Option (Result × St S)) (st : St S) : Option (Result × St S) :=
  if (st.cache id).isUninitialized then
    match compute st with
    | none => none
    | some (r, st') =>
      some (r, { st' with
        cache := fun j => if j = id then r else st'.cache j
        evaluations := if counts && r.count then st'.evaluations + 1 else st'.evaluations })
  else some (st.cache id, st)

/-- heuristic.cc:57-70: the value, and whether it is computed -/
def heuristicValue (comp : Nat → S → Int × List Nat) (c : Context S) (id : Nat) (cacheEst : Bool) (st : St S) : Int × List Nat × Bool × St S :=
  if !c.calculatePreferred && cacheEst && (st.hcache id c.state).h != noValue && !(st.hcache id c.state).dirty then
    ((st.hcache id c.state).h, [], false, st)
  else
    ((comp id c.state).1, (comp id c.state).2, true,
      if cacheEst then { st with hcache := setH st.hcache id c.state ⟨wrap31 (comp id c.state).1, false⟩ } else st)

/-- heuristic.cc:47-103 -/
def computeHeuristic (comp : Nat → S → Int × List Nat) (c : Context S) (id : Nat) (cacheEst : Bool) (st : St S) : Option (Result × St S) :=
  let v := heuristicValue comp c id cacheEst st
  if v.1 = deadEnd then some (⟨infty, [], v.2.2.1⟩, v.2.2.2)
  else if 0 ≤ v.1 then some (⟨v.1, v.2.1, v.2.2.1⟩, v.2.2.2)
  else none

/-- sum_evaluator.cc:19-27 -/
def sumValues : List Int → Int → Option Int
  | [], acc => some acc
  | v :: vs, acc => if 0 ≤ v ∧ acc + v < 2 ^ 31 then sumValues vs (acc + v) else none

/-- max_evaluator.cc:19-26 -/
def maxValues : List Int → Int → Option Int
  | [], acc => some acc
  | v :: vs, acc => if 0 ≤ v then maxValues vs (if acc < v then v else acc) else none

/-- combining_evaluator.cc:52-54: the value computed from the values of the subevaluators
(`none`: one of them is infinite) -/
def combine (f : List Int → Int → Option Int) (vals : Option (List Int)) (st : St S) : Option (Result × St S) :=
  match vals with
  | none => some (⟨infty, [], false⟩, st)
  | some vs => (f vs 0).map (fun v => (⟨v, [], false⟩, st))

/-- is_used_for_counting_evaluations -/
def Ev.counts : Ev → Bool
  | .heuristic _ _ => true
  | _ => false

mutual
/-- compute_result: heuristic.cc:47-103, g_evaluator.cc:18-22, const_evaluator.cc:16-20,
pref_evaluator.cc:17-25, weighted_evaluator.cc:26-37, combining_evaluator.cc:29-55 -/
def compute (comp : Nat → S → Int × List Nat) (c : Context S) : Ev → St S → Option (Result × St S)
  | .heuristic id cacheEst, st => computeHeuristic comp c id cacheEst { st with log := st.log ++ [id] }
  | .g id, st => c.g.map (fun g => (⟨g, [], false⟩, { st with log := st.log ++ [id] }))
  | .const id v, st => some (⟨v, [], false⟩, { st with log := st.log ++ [id] })
  | .pref id, st => c.g.map (fun _ => (⟨if c.preferred then 0 else 1, [], false⟩, { st with log := st.log ++ [id] }))
  | .weighted id e w, st =>
    match memo e.id e.counts (compute comp c e) { st with log := st.log ++ [id] } with
    | none => none
    | some (r, st) =>
      if r.value = infty then some (⟨infty, [], false⟩, st)
      else if r.value * w < 2 ^ 31 ∧ -(2 ^ 31) ≤ r.value * w then some (⟨r.value * w, [], false⟩, st)
      else none
  | .sum id es, st =>
    match collect comp c es { st with log := st.log ++ [id] } with
    | none => none
    | some (vals, st) => combine sumValues vals st
  | .max id es, st =>
    match collect comp c es { st with log := st.log ++ [id] } with
    | none => none
    | some (vals, st) => combine maxValues vals st
/-- combining_evaluator.cc:36-50: the values of the subevaluators, or `none` as soon as one of
them is infinite -/
def collect (comp : Nat → S → Int × List Nat) (c : Context S) : List Ev → St S → Option (Option (List Int) × St S)
  | [], st => some (some [], st)
  | e :: es, st =>
    match memo e.id e.counts (compute comp c e) st with
    | none => none
    | some (r, st) =>
      if r.value = infty then some (none, st)
      else
        match collect comp c es st with
        | none => none
        | some (vs, st) => some (vs.map (r.value :: ·), st)
end

/-- evaluation_context.cc:40-50 -/
def getResult (comp : Nat → S → Int × List Nat) (c : Context S) (e : Ev) (st : St S) : Option (Result × St S) :=
  memo e.id e.counts (compute comp c e) st

/-- evaluation_context.cc:27-38: a new context has an empty cache -/
def newContext (st : St S) : St S := { st with cache := fun _ => Result.new, log := [] }

/-- the evaluators of the list are asked for their results in one context -/
def askAll (comp : Nat → S → Int × List Nat) (c : Context S) : List Ev → St S → Option (List Result × St S)
  | [], st => some ([], st)
  | e :: es, st =>
    match getResult comp c e st with
    | none => none
    | some (r, st) =>
      match askAll comp c es st with
      | none => none
      | some (rs, st) => some (r :: rs, st)

/-- a step of a history: a new evaluation context in which evaluators are asked; or the
estimate of a heuristic for a state changes, and is marked as dirty if it is cached
(notify_state_transition of a path-dependent heuristic,
landmarks/landmark_heuristic.cc:218-232) -/
inductive Req (S : Type) where
  | context (c : Context S) (evs : List Ev)
  | change (id : Nat) (s : S) (new : Int × List Nat)

/-- compute_heuristic after the change -/
def setComp (comp : Nat → S → Int × List Nat) (i : Nat) (s : S) (new : Int × List Nat) : Nat → S → Int × List Nat :=
  fun j x => if j = i ∧ x = s then new else comp j x

/-- the results of a history, with the addresses of the evaluators computed in each context -/
def run (comp : Nat → S → Int × List Nat) : List (Req S) → St S → Option (List (List Result × List Nat) × St S)
  | [], st => some ([], st)
  | .context c evs :: qs, st =>
    match askAll comp c evs (newContext st) with
    | none => none
    | some (rs, st) =>
      match run comp qs st with
      | none => none
      | some (outs, st') => some ((rs, st.log) :: outs, st')
  | .change i s new :: qs, st =>
    match run (setComp comp i s new) qs { st with hcache := setH st.hcache i s ⟨(st.hcache i s).h, true⟩ } with
    | none => none
    | some (outs, st') => some (([], []) :: outs, st')

/-- heuristic.cc:21: all entries are NO_VALUE and dirty -/
def St.init : St S := ⟨fun _ => Result.new, fun _ _ => ⟨noValue, true⟩, 0, []⟩

end Verif.Evaluators
