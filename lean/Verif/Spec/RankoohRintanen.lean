import Verif.Spec.Hplus

/-
The constraints of Rankooh and Rintanen (2022) for the delete relaxation, without vertex elimination.
-/
namespace Verif

/-- the values of the auxiliary variables: whether a fact is reached (f_p), whether an operator is the achiever of a fact (f_{p,a}), and the time label of a fact (t_p) -/
structure RRVars where
  reached : Fact → Rat
  achiever : Nat → Fact → Rat
  time : Fact → Rat

/-- the number of facts -/
def Task.factCount (t : Task) : Nat := (t.vars.map (·.domain)).sum

/-- the constraints (2) to (5) of Rankooh and Rintanen (2022) for a state, and constraint (9) if `time`, where `x i` is the number of uses of operator `i` -/
structure Task.RankoohRintanen (t : Task) (time : Bool) (s : State) (x : Nat → Rat) (y : RRVars) : Prop where
  count : ∀ i < t.ops.length, 0 ≤ x i
  reached01 : ∀ f, t.ValidFact f → 0 ≤ y.reached f ∧ y.reached f ≤ 1
  achiever01 : ∀ i o f, t.ops[i]? = some o → o.produces f → 0 ≤ y.achiever i f ∧ y.achiever i f ≤ 1
  /-- (2) a fact is reached if it is true in the state or has an achiever -/
  achieved : ∀ f, t.ValidFact f → y.reached f = (if f.holds s then 1 else 0) + (t.ops.zipIdx.map (fun o => if o.1.produces f then y.achiever o.2 f else 0)).sum
  /-- (3) preconditions of achievers are reached -/
  support : ∀ q p, t.ValidFact q → q ≠ p → (t.ops.zipIdx.map (fun o => if o.1.produces p ∧ q ∈ o.1.pre then y.achiever o.2 p else 0)).sum ≤ y.reached q
  /-- (4) goals are reached -/
  goal : ∀ g ∈ t.goal, y.reached g = 1
  /-- (5) achievers are used -/
  used : ∀ i o f, t.ops[i]? = some o → o.produces f → y.achiever i f ≤ x i
  label : time = true → ∀ f, t.ValidFact f → 1 ≤ y.time f ∧ y.time f ≤ t.factCount
  /-- (9) preconditions of achievers are reached earlier -/
  before : time = true → ∀ i o q p, t.ops[i]? = some o → q ∈ o.pre → o.produces p → q ≠ p → y.time q - y.time p + 1 ≤ t.factCount * (1 - y.achiever i p)

/-- all values are integers -/
structure RRVars.Integral (t : Task) (time : Bool) (y : RRVars) : Prop where
  reached : ∀ f, t.ValidFact f → ∃ z : Int, y.reached f = z
  achiever : ∀ i o f, t.ops[i]? = some o → o.produces f → ∃ z : Int, y.achiever i f = z
  label : time = true → ∀ f, t.ValidFact f → ∃ z : Int, y.time f = z

/-- the counts satisfy the constraints for some values of the auxiliary variables -/
def Task.RRCounts (t : Task) (time intCounts intVars : Bool) (s : State) (x : Nat → Rat) : Prop :=
  (intCounts = true → ∀ i < t.ops.length, ∃ z : Int, x i = z) ∧ ∃ y : RRVars, t.RankoohRintanen time s x y ∧ (intVars = true → y.Integral t time)

end Verif
