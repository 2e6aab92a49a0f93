import Verif.Model.EagerSearch
import Verif.Spec.Search
import Verif.Spec.Plan

/-
Notions in which the assumptions about evaluators and pruning methods are stated.
-/
namespace Verif.Search
open Verif.OpenList

variable {S σ : Type}

/-- `c` is a possible outcome of evaluating `t` with g-value `g` -/
def Env.Evals (E : Env S σ) (t : S) (g : Int) (c : Ctx) : Prop := ∃ env pref env', E.eval env t g pref = some (c, env')
/-- the same for the second evaluation with a lazy evaluator -/
def Env.Reevals (E : Env S σ) (t : S) (g : Int) (c : Ctx) : Prop := ∃ env env', E.reeval env t g = some (c, env')
/-- `os` is a possible outcome of pruning `l` in `s` -/
def Env.Prunes (E : Env S σ) (s : S) (l os : List Nat) : Prop := ∃ env, (E.prune env s l).1 = os

/-- values of evaluators are larger than the least int -/
structure Env.Legal (E : Env S σ) : Prop where
  eval : ∀ t g c, E.Evals t g c → ∀ ev, intMin < c.value ev
  reeval : ∀ t g c, E.Reevals t g c → ∀ ev, intMin < c.value ev

/-- evaluators return for all g-values that a search node can have -/
structure Env.Total (E : Env S σ) : Prop where
  eval : ∀ env t g pref, 0 ≤ g → g < 2 ^ 29 → ∃ c env', E.eval env t g pref = some (c, env')
  reeval : ∀ env t g, 0 ≤ g → g < 2 ^ 29 → ∃ c env', E.reeval env t g = some (c, env')

/-- pruning only removes (and reorders) operators -/
def Env.PrunesOnly (E : Env S σ) : Prop := ∀ s l os, E.Prunes s l os → ∀ o ∈ os, o ∈ l

/-- nothing is pruned -/
def Env.PrunesNothing (E : Env S σ) : Prop := ∀ s l os, E.Prunes s l os → ∀ o ∈ l, o ∈ os

/-- pruning is safe: every plan from a state (that is not a goal state) can be reordered such that it begins with an operator that is kept -/
def World.PrunesSafely (w : World S) (valid : S → Prop) (E : Env S σ) : Prop :=
  ∀ s l os, valid s → w.goal s = some false → w.ops s = some l → E.Prunes s l os → ∀ π, w.GoalPath s π → ∃ o ρ, o ∈ os ∧ (o :: ρ).Perm π ∧ w.GoalPath s (o :: ρ)

/-- the same for a task; pruning is given the applicable operators -/
def Env.PrunesSafely (E : Env State σ) (t : Task) : Prop :=
  ∀ s l os, t.ValidState s → ¬ allHold t.goal s → (∀ i, i ∈ l ↔ ∃ o : Operator, t.ops[i]? = some o ∧ o.applicable s) → E.Prunes s l os →
    ∀ π, t.SolvesFrom s π → ∃ i ρ, i ∈ os ∧ (i :: ρ).Perm π ∧ t.SolvesFrom s (i :: ρ)

/-- `c` is a possible outcome of one of the evaluations of `t` with g-value `g` -/
def Env.Yields (E : Env S σ) (t : S) (g : Int) (c : Ctx) : Prop := E.Evals t g c ∨ E.Reevals t g c

/-- an infinite value of one of the evaluators `evs` is given only to states from which no
goal state can be reached -/
def Env.SafeFor (E : Env State σ) (t : Task) (evs : List Nat) : Prop :=
  ∀ s g c, t.ValidState s → 0 ≤ g → E.Yields s g c → (∃ ev ∈ evs, c.value ev = infty) → ¬ ∃ π, t.SolvesFrom s π

/-- Evaluator `h` is an admissible heuristic for the costs under `ct`, and `f` is `g + wt * h`
(infinite where `h` is; then no goal state can be reached).  Nothing else is required of `h`:
it may be inconsistent and may differ between evaluations of the same state. -/
def Env.Weighted (E : Env State σ) (t : Task) (ct : CostType) (f h : Nat) (wt : Nat) : Prop :=
  ∀ s g c, t.ValidState s → 0 ≤ g → E.Yields s g c →
    (c.value h = infty ∧ c.value f = infty ∧ ¬ ∃ π, t.SolvesFrom s π) ∨
    (0 ≤ c.value h ∧ c.value h < infty ∧ c.value f = g + wt * c.value h ∧ c.value f < infty ∧ ∀ π, t.SolvesFrom s π → c.value h ≤ t.planCostUnder ct π)

end Verif.Search
