import Verif.Model.OpenList

/-
Specification of open lists.  Stored entries are lists of pairs (key, entry) in order of
insertion.  Only the types of the model (options, contexts, operations) are used.
-/
namespace Verif.OpenList.Spec

variable {K E : Type}

/-- `e` is the oldest of the entries with minimal key, and `l'` is what remains -/
def PopMin [LinearOrder K] (l : List (K × E)) (e : E) (l' : List (K × E)) : Prop :=
  ∃ k l1 l2, l = l1 ++ (k, e) :: l2 ∧ (∀ x ∈ l1, k < x.1) ∧ (∀ x ∈ l2, k ≤ x.1) ∧ l' = l1 ++ l2

/-- componentwise at most, and different -/
def Dominates (a b : List Int) : Prop := List.Forall₂ (· ≤ ·) a b ∧ a ≠ b

/-- `e` is the oldest entry with its key, and no stored key dominates this key -/
def PopPareto (l : List (List Int × E)) (e : E) (l' : List (List Int × E)) : Prop :=
  ∃ k l1 l2, l = l1 ++ (k, e) :: l2 ∧ (∀ x ∈ l1, x.1 ≠ k) ∧ (∀ x ∈ l, ¬ Dominates x.1 k) ∧ l' = l1 ++ l2

/-- one occurrence of `e` is removed -/
def PopAny (l : List (K × E)) (e : E) (l' : List (K × E)) : Prop :=
  ∃ k l1 l2, l = l1 ++ (k, e) :: l2 ∧ l' = l1 ++ l2

/-- one occurrence of `e` is removed; the order of the rest is irrelevant -/
def PopBag (l : List (K × E)) (e : E) (l' : List (K × E)) : Prop := ∃ k, l.Perm ((k, e) :: l')

/-- a history: `copies c` is the number of times an entry inserted with context `c` is
stored, `key c` its key, `Pop` describes remove_min -/
inductive Run (copies : Ctx → Nat) (key : Ctx → K) (Pop : List (K × E) → E → List (K × E) → Prop) :
    List (K × E) → List (Op E) → List (Option E) → List (K × E) → Prop where
  | nil (l) : Run copies key Pop l [] [] l
  | insert (l c e ops outs l') : Run copies key Pop (l ++ List.replicate (copies c) (key c, e)) ops outs l' →
      Run copies key Pop l (.insert c e :: ops) (none :: outs) l'
  | removeMin (l e l1 ops outs l') : Pop l e l1 → Run copies key Pop l1 ops outs l' →
      Run copies key Pop l (.removeMin :: ops) (some e :: outs) l'
  | boostPreferred (l ops outs l') : Run copies key Pop l ops outs l' → Run copies key Pop l (.boostPreferred :: ops) (none :: outs) l'
  | clear (l ops outs l') : Run copies key Pop [] ops outs l' → Run copies key Pop l (.clear :: ops) (none :: outs) l'

/-- the caller's obligations: values are larger than the least int, and nothing is removed
from a list with no entries (`n` is the number of stored entries) -/
def Legal (copies : Ctx → Nat) : Nat → List (Op E) → Prop
  | _, [] => True
  | n, .insert c _ :: ops => (∀ ev, intMin < c.value ev) ∧ Legal copies (n + copies c) ops
  | n, .removeMin :: ops => 0 < n ∧ Legal copies (n - 1) ops
  | n, .boostPreferred :: ops => Legal copies n ops
  | _, .clear :: ops => Legal copies 0 ops

mutual
/-- all evaluators occurring in the options -/
def evaluators : Cfg → List Nat
  | .bestFirst _ ev => [ev]
  | .tiebreaking _ _ evs => evs
  | .pareto _ _ evs => evs
  | .epsilonGreedy _ ev _ _ => [ev]
  | .typeBased evs => evs
  | .alternation _ subs => evaluatorsAll subs
def evaluatorsAll : List Cfg → List Nat
  | [] => []
  | c :: cs => evaluators c ++ evaluatorsAll cs
end

mutual
/-- the lists of evaluators and sublists are not empty (enforced for user input) -/
def WF : Cfg → Prop
  | .bestFirst _ _ => True
  | .tiebreaking _ _ evs => evs ≠ []
  | .pareto _ _ evs => evs ≠ []
  | .epsilonGreedy _ _ _ _ => True
  | .typeBased evs => evs ≠ []
  | .alternation _ subs => subs ≠ [] ∧ WFAll subs
def WFAll : List Cfg → Prop
  | [] => True
  | c :: cs => WF c ∧ WFAll cs
end

/-- some reliable evaluator is infinite -/
def ReliableInfinite (rel : Nat → Bool) (c : Ctx) (evs : List Nat) : Prop := ∃ ev ∈ evs, c.value ev = infty ∧ rel ev = true

mutual
/-- when an open list declares a dead end -/
def DeadEnd (rel : Nat → Bool) (c : Ctx) : Cfg → Prop
  | .bestFirst _ ev => c.value ev = infty
  | .tiebreaking _ uns evs => ReliableInfinite rel c evs ∨ (uns = true ∧ ∃ ev, evs.head? = some ev ∧ c.value ev = infty) ∨ ∀ ev ∈ evs, c.value ev = infty
  | .pareto _ _ evs => ReliableInfinite rel c evs ∨ ∀ ev ∈ evs, c.value ev = infty
  | .epsilonGreedy _ ev _ _ => c.value ev = infty
  | .typeBased evs => ReliableInfinite rel c evs ∨ ∀ ev ∈ evs, c.value ev = infty
  | .alternation _ subs => ReliableInfinite rel c (evaluatorsAll subs) ∨ DeadEndAll rel c subs
def DeadEndAll (rel : Nat → Bool) (c : Ctx) : List Cfg → Prop
  | [] => True
  | x :: xs => DeadEnd rel c x ∧ DeadEndAll rel c xs
end

open Classical in
mutual
/-- how many copies of an entry are stored: one for every innermost list which accepts it -/
noncomputable def copies (rel : Nat → Bool) (c : Ctx) : Cfg → Nat
  | .bestFirst pref ev => if (pref = true → c.preferred = true) ∧ ¬ DeadEnd rel c (.bestFirst pref ev) then 1 else 0
  | .tiebreaking pref uns evs => if (pref = true → c.preferred = true) ∧ ¬ DeadEnd rel c (.tiebreaking pref uns evs) then 1 else 0
  | .pareto pref u evs => if (pref = true → c.preferred = true) ∧ ¬ DeadEnd rel c (.pareto pref u evs) then 1 else 0
  | .epsilonGreedy pref ev p q => if (pref = true → c.preferred = true) ∧ ¬ DeadEnd rel c (.epsilonGreedy pref ev p q) then 1 else 0
  | .typeBased evs => if ¬ DeadEnd rel c (.typeBased evs) then 1 else 0
  | .alternation boost subs => if DeadEnd rel c (.alternation boost subs) then 0 else copiesAll rel c subs
noncomputable def copiesAll (rel : Nat → Bool) (c : Ctx) : List Cfg → Nat
  | [] => 0
  | x :: xs => copies rel c x + copiesAll rel c xs
end

mutual
/-- no innermost list rejects the entry for not being preferred -/
def PreferenceOK (c : Ctx) : Cfg → Prop
  | .bestFirst pref _ => pref = true → c.preferred = true
  | .tiebreaking pref _ _ => pref = true → c.preferred = true
  | .pareto pref _ _ => pref = true → c.preferred = true
  | .epsilonGreedy pref _ _ _ => pref = true → c.preferred = true
  | .typeBased _ => True
  | .alternation _ subs => PreferenceOKAll c subs
def PreferenceOKAll (c : Ctx) : List Cfg → Prop
  | [] => True
  | x :: xs => PreferenceOK c x ∧ PreferenceOKAll c xs
end

end Verif.OpenList.Spec
