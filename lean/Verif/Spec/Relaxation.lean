import Verif.Spec.Plan
import Mathlib.Data.List.Dedup

/-
The delete relaxation of a planning task: facts that have been reached stay reached.  Axioms count as
operators without cost.  Relaxed reachability, h^max and h^add are least fixed points (inductive
definitions).
-/
namespace Verif

/-- an effect in the delete relaxation: the index of the operator (`none` for an axiom), the
conditions (preconditions and effect conditions), the fact, the cost -/
inductive Task.RelEffect (t : Task) : Option Nat → List Fact → Fact → Nat → Prop where
  | op (i o e) : t.ops[i]? = some o → e ∈ o.effects → t.RelEffect (some i) (o.pre ++ e.conds) e.fact o.cost
  | ax (a e) : a ∈ t.axioms → e ∈ a.effects → t.RelEffect none (a.pre ++ e.conds) e.fact 0

/-- all facts mentioned by operators, axioms and the goal exist -/
structure Task.FactsValid (t : Task) : Prop where
  effect : ∀ i cs f c, t.RelEffect i cs f c → t.ValidFact f ∧ ∀ q ∈ cs, t.ValidFact q
  goal : ∀ g ∈ t.goal, t.ValidFact g

/-- `f` can be reached from `s` in the delete relaxation, using only operators in `R` -/
inductive Task.RelReach (t : Task) (R : Nat → Prop) (s : State) : Fact → Prop where
  | state (f) : f.holds s → t.RelReach R s f
  | effect (i cs f c) : t.RelEffect i cs f c → (∀ j, i = some j → R j) → (∀ q ∈ cs, t.RelReach R s q) → t.RelReach R s f

/-- the goal can be reached in the delete relaxation with the operators in `R`: they form a relaxed plan -/
def Task.IsRelaxedPlan (t : Task) (R : Nat → Prop) (s : State) : Prop := ∀ g ∈ t.goal, t.RelReach R s g

/-- h^max of the fact is at most `n` -/
inductive Task.HmaxLe (t : Task) (s : State) : Fact → Nat → Prop where
  | state (f n) : f.holds s → t.HmaxLe s f n
  | effect (i cs f c m n) : t.RelEffect i cs f c → (∀ q ∈ cs, t.HmaxLe s q m) → m + c ≤ n → t.HmaxLe s f n

/-- h^max of the state is at most `n`: that of each goal is -/
def Task.HmaxGoalLe (t : Task) (s : State) (n : Nat) : Prop := ∀ g ∈ t.goal, t.HmaxLe s g n

/-- h^add of the fact is at most `n`: the costs of the (distinct) conditions are added -/
inductive Task.HaddLe (t : Task) (s : State) : Fact → Nat → Prop where
  | state (f n) : f.holds s → t.HaddLe s f n
  | effect (i cs f c n) (m : Fact → Nat) : t.RelEffect i cs f c → (∀ q ∈ cs, t.HaddLe s q (m q)) → (cs.dedup.map m).sum + c ≤ n → t.HaddLe s f n

/-- h^add of the state is at most `n`: the costs of the goals are added -/
def Task.HaddGoalLe (t : Task) (s : State) (n : Nat) : Prop := ∃ m : Fact → Nat, (∀ g ∈ t.goal, t.HaddLe s g (m g)) ∧ (t.goal.map m).sum ≤ n

/-- `v` is the least number with property `P`, or none if there is no such number -/
def IsLeast? (P : Nat → Prop) : Option Nat → Prop
  | some v => P v ∧ ∀ n, P n → v ≤ n
  | none => ∀ n, ¬P n

/-- `v` is the least number with the property, but at most 100000000 -/
def IsLeastCapped? (P : Nat → Prop) : Option Nat → Prop
  | some v => ∃ n, P n ∧ (∀ k, P k → n ≤ k) ∧ v = min 100000000 n
  | none => ∀ n, ¬P n

/-- relates a list of states to the list of results -/
def AllResults {α : Type} (P : State → α → Prop) (ss : List State) (rs : List α) : Prop := List.Forall₂ P ss rs

end Verif
