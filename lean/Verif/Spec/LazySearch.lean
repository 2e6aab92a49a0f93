import Verif.Model.LazySearch
import Verif.Spec.Search
import Verif.Spec.Plan

/-
Notions in which the assumptions about the evaluators used by lazy search are stated.
-/
namespace Verif.Search
open Verif.OpenList

variable {S σ : Type}

/-- `c` is a possible outcome of evaluating `s` with g-value `g` -/
def LEnv.Evals (E : LEnv S σ) (s : S) (g : Int) (c : Ctx) : Prop := ∃ env env', E.eval env s g = some (c, env')
/-- `c` is a possible outcome of the evaluation for a successor of `s` with g-value `g` -/
def LEnv.EdgeEvals (E : LEnv S σ) (s : S) (g : Int) (c : Ctx) : Prop := ∃ env pref env', E.evalEdge env s g pref = some (c, env')

/-- Values of evaluators are larger than the least int; preferred operators are applicable;
shuffling permutes. -/
structure LEnv.Legal (w : World S) (E : LEnv S σ) : Prop where
  edge : ∀ s g c, E.EdgeEvals s g c → ∀ ev, intMin < c.value ev
  preferred : ∀ env s g ops, w.ops s = some ops → ∀ o ∈ (E.preferredOps env s g).1, o ∈ ops
  shuffle : ∀ env l, (E.shuffle env l).1.Perm l

/-- evaluators return for all g-values that a search node can have -/
structure LEnv.Total (E : LEnv S σ) : Prop where
  eval : ∀ env s g, 0 ≤ g → g < 2 ^ 29 → ∃ c env', E.eval env s g = some (c, env')
  edge : ∀ env s g pref, 0 ≤ g → g < 2 ^ 29 → ∃ c env', E.evalEdge env s g pref = some (c, env')

/-- `c` is a possible outcome of one of the evaluations of `s` -/
def LEnv.Yields (E : LEnv S σ) (s : S) (c : Ctx) : Prop := ∃ g, 0 ≤ g ∧ (E.Evals s g c ∨ E.EdgeEvals s g c)

/-- an infinite value of one of the evaluators `evs` is given only to states from which no
goal state can be reached -/
def LEnv.SafeFor (E : LEnv State σ) (t : Task) (evs : List Nat) : Prop :=
  ∀ s c, t.ValidState s → E.Yields s c → (∃ ev ∈ evs, c.value ev = infty) → ¬ ∃ π, t.SolvesFrom s π

end Verif.Search
