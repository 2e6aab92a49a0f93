import Verif.Spec.LandmarkGraph
import Verif.Spec.Relaxation

/-
Reachability in the delete relaxation without certain facts, which characterises the landmarks and the achievers that are found by the
landmark factories.
-/
namespace Verif

/-- the operator has an effect without conditions on the fact -/
def Operator.Unconditional (o : Operator) (f : Fact) : Prop := ∃ e ∈ o.effects, e.conds = [] ∧ e.fact = f

/-- `f` can be reached from the initial state in the delete relaxation without the facts in `X`: effects on these facts must not be used,
and, unless each effect counts as an operator of its own (`unary`), neither may operators that achieve such a fact unconditionally. -/
inductive Task.ReachAvoiding (t : Task) (X : List Fact) (unary : Bool) : Fact → Prop where
  | init (f) : f.holds t.init → f ∉ X → t.ReachAvoiding X unary f
  | effect (i cs f c) : t.RelEffect i cs f c → f ∉ X → (unary = false → ∀ (j : Nat) (o : Operator), i = some j → t.ops[j]? = some o → ∀ x ∈ X, ¬o.Unconditional x) →
      (∀ q ∈ cs, t.ReachAvoiding X unary q) → t.ReachAvoiding X unary f

/-- An effect without conditions is never overridden by another effect of the operator. -/
def Task.UnconditionalEffectsHold (t : Task) : Prop := ∀ o ∈ t.ops, ∀ e ∈ o.effects, ∀ e' ∈ o.effects, e.conds = [] → e'.fact.var = e.fact.var → e'.fact = e.fact

end Verif
