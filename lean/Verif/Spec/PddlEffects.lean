/-
Specification of nested PDDL effects and of lists of simple quantified conditional effects, in one state: which atoms they add and delete.
-/
namespace Verif.Effects

/-- Variables, types, objects, conditions, atoms with variables, and ground atoms. A condition has a truth value (in the state) for every assignment of objects to the variables, which only depends on its free variables. -/
structure Lang (V T O C A G : Type) where
  dom : T → O → Prop
  holds : C → (V → O) → Prop
  free : C → V → Prop
  ground : A → (V → O) → G
  truth : C
  and : C → C → C
  simplified : C → C
  holds_congr : ∀ c ρ ρ', (∀ x, free c x → ρ x = ρ' x) → (holds c ρ ↔ holds c ρ')
  holds_truth : ∀ ρ, holds truth ρ
  holds_and : ∀ c d ρ, holds (and c d) ρ ↔ holds c ρ ∧ holds d ρ
  holds_simplified : ∀ c ρ, holds (simplified c) ρ ↔ holds c ρ

/-- nested effects; literals are atoms with a sign -/
inductive Eff (V T C A : Type) where
  | simple (positive : Bool) (a : A)
  | conj (es : List (Eff V T C A))
  | all (ps : List (V × T)) (e : Eff V T C A)
  | when (c : C) (e : Eff V T C A)
  | cost

/-- an effect of an action after parsing: for all values of the parameters, if the condition holds, the literal -/
structure Flat (V T C A : Type) where
  params : List (V × T)
  cond : C
  positive : Bool
  atom : A

variable {V T O C A G : Type} [DecidableEq V]

/-- `ρ'` results from `ρ` by giving objects of the right types to the parameters (from left to right) -/
inductive Ext (L : Lang V T O C A G) : List (V × T) → (V → O) → (V → O) → Prop where
  | nil (ρ) : Ext L [] ρ ρ
  | cons (x t ps ρ ρ' o) : L.dom t o → Ext L ps (fun y => if y = x then o else ρ y) ρ' → Ext L ((x, t) :: ps) ρ ρ'

/-- the effect makes the ground atom true (or false) -/
inductive Fires (L : Lang V T O C A G) : Eff V T C A → (V → O) → Bool → G → Prop where
  | simple (b a ρ) : Fires L (.simple b a) ρ b (L.ground a ρ)
  | conj (es e ρ b g) : e ∈ es → Fires L e ρ b g → Fires L (.conj es) ρ b g
  | all (ps e ρ ρ' b g) : Ext L ps ρ ρ' → Fires L e ρ' b g → Fires L (.all ps e) ρ b g
  | when (c e ρ b g) : L.holds c ρ → Fires L e ρ b g → Fires L (.when c e) ρ b g

def Flat.Fires (L : Lang V T O C A G) (f : Flat V T C A) (ρ : V → O) (b : Bool) (g : G) : Prop := f.positive = b ∧ ∃ ρ', Ext L f.params ρ ρ' ∧ L.holds f.cond ρ' ∧ g = L.ground f.atom ρ'

/-- the state after effects that make these atoms true and false: adding overrides deleting -/
def Next (fires : Bool → G → Prop) (s : G → Prop) (g : G) : Prop := fires true g ∨ (s g ∧ ¬fires false g)

/-- the variable is bound within the effect -/
inductive Bound : Eff V T C A → V → Prop where
  | here (ps e x) : x ∈ ps.map (·.1) → Bound (.all ps e) x
  | all (ps e x) : Bound e x → Bound (.all ps e) x
  | conj (es e x) : e ∈ es → Bound e x → Bound (.conj es) x
  | when (c e x) : Bound e x → Bound (.when c e) x

/-- no variable of a condition is bound again in the effect of this condition -/
inductive NoCapture (L : Lang V T O C A G) : Eff V T C A → Prop where
  | simple (b a) : NoCapture L (.simple b a)
  | cost : NoCapture L .cost
  | conj (es) : (∀ e ∈ es, NoCapture L e) → NoCapture L (.conj es)
  | all (ps e) : NoCapture L e → NoCapture L (.all ps e)
  | when (c e) : (∀ x, Bound e x → ¬L.free c x) → NoCapture L e → NoCapture L (.when c e)

/-- quantifiers and conditions before one literal -/
inductive Chain : Eff V T C A → Prop where
  | simple (b a) : Chain (.simple b a)
  | all (ps e) : Chain e → Chain (.all ps e)
  | when (c e) : Chain e → Chain (.when c e)

/-- conjunctions, conditions and literals, without quantifiers -/
inductive NoForall : Eff V T C A → Prop where
  | simple (b a) : NoForall (.simple b a)
  | conj (es) : (∀ e ∈ es, NoForall e) → NoForall (.conj es)
  | when (c e) : NoForall e → NoForall (.when c e)

/-- effects without costs in which no condition is above both a quantifier and a conjunction -/
inductive Supported : Eff V T C A → Prop where
  | simple (b a) : Supported (.simple b a)
  | conj (es) : (∀ e ∈ es, Supported e) → Supported (.conj es)
  | all (ps e) : Supported e → Supported (.all ps e)
  | when (c e) : Chain e ∨ NoForall e → Supported (.when c e)

/-- such effects, with costs in the outer conjunctions -/
inductive SupportedCost : Eff V T C A → Prop where
  | plain (e) : Supported e → SupportedCost e
  | conj (es) : (∀ e ∈ es, e ≠ .cost → SupportedCost e) → SupportedCost (.conj es)

end Verif.Effects
