import Verif.Spec.Mas
import Mathlib.Algebra.BigOperators.Group.List.Defs

/-
Bisimulations of labelled transition systems, and relations that respect distances.
-/
namespace Verif.Mas

/-- there is a transition from `a` to `b` with the label `l` -/
def TS.LabelArc (T : TS) (l a b : Nat) : Prop := ∃ i ∈ T.infos, l ∈ i.labels ∧ (a, b) ∈ i.transitions

/-- some class contains both states -/
def SameClass (rel : List (List Nat)) (a b : Nat) : Prop := ∃ c ∈ rel, a ∈ c ∧ b ∈ c

/-- the classes are not empty, contain only states, and every state is in exactly one of them, once -/
structure IsPartition (n : Nat) (rel : List (List Nat)) : Prop where
  nonempty : ∀ c ∈ rel, c ≠ []
  range : ∀ c ∈ rel, ∀ s ∈ c, s < n
  covers : ∀ s, s < n → ∃ c ∈ rel, s ∈ c
  disjoint : rel.flatten.Nodup

/-- such a transition exists on a cheapest path to a goal state, where `ds` are the costs of these paths -/
def TS.CheapestArc (T : TS) (ds : List Nat) (l a b : Nat) : Prop := ∃ i ∈ T.infos, l ∈ i.labels ∧ (a, b) ∈ i.transitions ∧ ∃ y, ds[b]? = some y ∧ ds[a]? = some (y + i.cost) ∧ y + i.cost < infinity

/-- related states are both goal states or both not, and the transitions `A` of one can be simulated by the other one, with the same label and to related states -/
structure TS.IsBisimulation (T : TS) (A : Nat → Nat → Nat → Prop) (R : Nat → Nat → Prop) : Prop where
  symm : ∀ a b, R a b → R b a
  goal : ∀ a b, R a b → T.goals[a]? = T.goals[b]?
  step : ∀ l a b a', R a b → A l a a' → ∃ b', A l b b' ∧ R a' b'

/-- transition systems with a goal state, all states exist, `ds` are the costs of cheapest paths to a goal state and none of them is the largest int but one;
if only transitions on cheapest paths are considered, then the sums of distances and costs are ints -/
structure Shrinkable (greedy : Bool) (T : TS) (ds : List Nat) : Prop where
  range : T.InRange
  length : ds.length = T.size
  dist : ∀ s d : Nat, ds[s]? = some d → LeastBelow (T.ToGoal s) d
  goal : ∃ s : Nat, T.goals[s]? = some true
  below : ∀ d ∈ ds, d ≠ infinity - 1
  bounded : greedy = true → ∀ a b c d, T.Arc a b c → ds[b]? = some d → d ≠ infinity → d + c ≤ infinity

/-- there is a path of cost `k` from the class of `s` to the class of a goal state, in the system whose states are classes of related states -/
inductive TS.ClassToGoal (T : TS) (R : Nat → Nat → Prop) : Nat → Nat → Prop where
  | goal (s s') : R s s' → T.goals[s']? = some true → ClassToGoal T R s 0
  | step (s s' b c k) : R s s' → T.Arc s' b c → ClassToGoal T R b k → ClassToGoal T R s (c + k)

/-- effects have no conditions; no operator has two preconditions or two effects on a variable, and there are no two goals for a variable -/
structure PlainTask (t : Task) : Prop where
  noCond : ∀ o ∈ t.ops, ∀ e ∈ o.effects, e.conds = []
  eff : ∀ o ∈ t.ops, (o.effects.map (·.fact.var)).Nodup
  pre : ∀ o ∈ t.ops, (o.pre.map (·.var)).Nodup
  goal : (t.goal.map (·.var)).Nodup

/-- the number of assignments of values to the variables -/
def numStates (t : Task) : Nat := (t.vars.map (·.domain)).prod

/-- the plan solves the task from `s`, and no other one is cheaper -/
def Cheapest (t : Task) (s : State) (π : List Nat) : Prop := t.SolvesFrom s π ∧ ∀ π', t.SolvesFrom s π' → t.planCost π ≤ t.planCost π'

end Verif.Mas
