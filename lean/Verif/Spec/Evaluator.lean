import Verif.Model.Evaluator
import Mathlib.Algebra.BigOperators.Group.List.Basic

/-
Specification of the values of evaluators, without any caching.
-/
namespace Verif.Evaluators
open Verif.OpenList (infty)

variable {S : Type}

mutual
/-- the value of an evaluator in a context -/
def Spec.value (comp : Nat → S → Int × List Nat) (c : Context S) : Ev → Int
  | .heuristic id _ => if (comp id c.state).1 = -1 then infty else (comp id c.state).1
  | .g _ => c.g.getD 0
  | .const _ v => v
  | .pref _ => if c.preferred then 0 else 1
  | .weighted _ e w => if Spec.value comp c e = infty then infty else Spec.value comp c e * w
  | .sum _ es => if infty ∈ Spec.values comp c es then infty else (Spec.values comp c es).sum
  | .max _ es => if infty ∈ Spec.values comp c es then infty else (Spec.values comp c es).foldl Max.max 0
def Spec.values (comp : Nat → S → Int × List Nat) (c : Context S) : List Ev → List Int
  | [] => []
  | e :: es => Spec.value comp c e :: Spec.values comp c es
end

/-- the result reported for an evaluator is right: the value is the one without caching;
a heuristic reports its preferred operators if they are asked for, and none for dead ends;
other evaluators report none -/
structure Spec.ResultOK (comp : Nat → S → Int × List Nat) (c : Context S) (e : Ev) (r : Result) : Prop where
  value : r.value = Spec.value comp c e
  preferred : ∀ id cached, e = .heuristic id cached → r.value ≠ infty → c.calculatePreferred = true → r.preferred = (comp id c.state).2
  deadEnd : r.value = infty → r.preferred = []

/-- the evaluator and all evaluators below it -/
def Ev.subs : Ev → List Ev
  | .weighted i e w => .weighted i e w :: e.subs
  | .sum i es => .sum i es :: es.flatMap (fun e => e.subs)
  | .max i es => .max i es :: es.flatMap (fun e => e.subs)
  | e => [e]

/-- different evaluators have different addresses -/
def Spec.Addresses (evs : List Ev) : Prop := ∀ a ∈ evs.flatMap Ev.subs, ∀ b ∈ evs.flatMap Ev.subs, a.id = b.id → a = b

/-- constants and weights are not negative -/
def Spec.NonNeg (evs : List Ev) : Prop :=
  ∀ a ∈ evs.flatMap Ev.subs, (∀ i v, a = .const i v → 0 ≤ v) ∧ (∀ i e w, a = .weighted i e w → 0 ≤ w)

/-- estimates are non-negative or the dead-end value -1, and fit into 31 bits -/
def Spec.Estimates (comp : Nat → S → Int × List Nat) : Prop := ∀ i s, -1 ≤ (comp i s).1 ∧ (comp i s).1 < 2 ^ 30

variable [DecidableEq S]

/-- what a history has to answer: correct results, and no evaluator is computed more than once
in a context -/
def Spec.Correct : (Nat → S → Int × List Nat) → List (Req S) → List (List Result × List Nat) → Prop
  | _, [], [] => True
  | comp, .context c evs :: qs, (rs, log) :: outs => List.Forall₂ (Spec.ResultOK comp c) evs rs ∧ log.Nodup ∧ Spec.Correct comp qs outs
  | comp, .change i s new :: qs, _ :: outs => Spec.Correct (setComp comp i s new) qs outs
  | _, _, _ => False

/-- legal histories -/
def Spec.Legal : List (Req S) → Prop
  | [] => True
  | .context c evs :: qs => (∀ g, c.g = some g → 0 ≤ g) ∧ Spec.Addresses evs ∧ Spec.NonNeg evs ∧ Spec.Legal qs
  | .change _ _ new :: qs => -1 ≤ new.1 ∧ new.1 < 2 ^ 30 ∧ Spec.Legal qs

end Verif.Evaluators
