import Verif.Model.EhcSearch
import Verif.Spec.Search
import Verif.Spec.Plan

/-
Notions in which the assumptions about the evaluators used by enforced hill climbing are stated.
-/
namespace Verif.Search

variable {S σ : Type}

/-- preferred operators are applicable -/
def HEnv.Legal (w : World S) (E : HEnv S σ) : Prop := ∀ env s ops, w.ops s = some ops → ∀ o ∈ (E.preferredOps env s).1, o ∈ ops

/-- the evaluator returns -/
def HEnv.Total (E : HEnv S σ) : Prop := ∀ env s, ∃ h env', E.eval env s = some (h, env')

/-- `h` is a possible value of `s` -/
def HEnv.Evals (E : HEnv S σ) (s : S) (h : Int) : Prop := ∃ env env', E.eval env s = some (h, env')

end Verif.Search
