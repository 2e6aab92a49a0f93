import Verif.Spec.Plan
import Mathlib.Algebra.Order.Field.Rat

/-
Specification of potential functions: every fact has a potential, and the potential of a state is the sum of the potentials of its facts.
-/
namespace Verif

/-- the potential of a state, if `w v a` is the potential of the fact that variable `v` has value `a` -/
def potential (w : Nat → Nat → Rat) (s : State) : Rat := (s.zipIdx.map (fun f => w f.2 f.1)).sum

/-- the potential of every goal state is at most 0 -/
def Task.PotGoalAware (t : Task) (w : Nat → Nat → Rat) : Prop := ∀ s, t.ValidState s → allHold t.goal s → potential w s ≤ 0

/-- along every transition between states (reachable or not) the potential decreases by at most the cost of the operator -/
def Task.PotConsistent (t : Task) (w : Nat → Nat → Rat) : Prop :=
  ∀ s s' o, t.ValidState s → o ∈ t.ops → o.applicable s → t.SuccRel o s s' → potential w s ≤ o.cost + potential w s'

/-- the tasks that potential heuristics support: no axioms and conditional effects; no operator has two effects on the same variable -/
structure Task.PotentialOk (t : Task) : Prop where
  wf : t.WF
  axioms : t.axioms = []
  conds : ∀ o ∈ t.ops, ∀ e ∈ o.effects, e.conds = []
  eff : ∀ o ∈ t.ops, (o.effects.map (·.fact.var)).Nodup

/-- preconditions and goals do not mention variables twice -/
structure Task.ConditionsOnce (t : Task) : Prop where
  pre : ∀ o ∈ t.ops, (o.pre.map (·.var)).Nodup
  goal : (t.goal.map (·.var)).Nodup

/-- all assignments of values to variables with the given numbers of values -/
def allStates : List Nat → List State
  | [] => [[]]
  | d :: ds => (List.range d).flatMap (fun a => (allStates ds).map (a :: ·))

end Verif
