import Verif.Spec.Task

/-
Specification of the semantics of axioms: stratified logic programs with negation as
failure, given as *stable models* (which are unique for stratified programs).
-/
namespace Verif

/-- body and head of an axiom (abstract_task.h: an axiom has exactly one effect, whose
conditions are the body) -/
structure Rule where
  body : List Fact
  head : Fact
deriving DecidableEq, Repr

/-- axiom layer of a variable: `none` if the variable is not derived (or does not exist) -/
def Task.layerOf (t : Task) (v : Nat) : Option Nat := (t.vars[v]?).bind (·.layer)

/-- default value of a variable -/
def Task.defaultOf (t : Task) (v : Nat) : Nat := ((t.vars[v]?).map (·.default)).getD 0

def Task.rules (t : Task) : List Rule :=
  t.axioms.flatMap (fun a => a.effects.map (fun e => ⟨e.conds, e.fact⟩))

/-- `Derives t s neg f`: the fact `f` of a derived variable can be derived by the rules,
where facts of non-derived variables are looked up in `s`, and facts stating that a derived
variable has its default value are assumed exactly if `neg` says so. -/
inductive Derives (t : Task) (s : State) (neg : Fact → Prop) : Fact → Prop where
  | rule (r : Rule) (hr : r ∈ t.rules)
      (hbase : ∀ c ∈ r.body, t.layerOf c.var = none → c.holds s)
      (hneg : ∀ c ∈ r.body, t.layerOf c.var ≠ none → c.val = t.defaultOf c.var → neg c)
      (hpos : ∀ c ∈ r.body, t.layerOf c.var ≠ none → c.val ≠ t.defaultOf c.var → Derives t s neg c) :
      Derives t s neg r.head

/-- `s'` is a stable model extending the non-derived part of `s`: non-derived variables
keep their values, and a derived variable has value `x` if it can be derived, its default
value if nothing can be derived, where negative facts are read off `s'` itself. -/
structure StableModel (t : Task) (s s' : State) : Prop where
  length : s'.length = s.length
  base : ∀ v, t.layerOf v = none → s'[v]? = s[v]?
  pos : ∀ f, t.layerOf f.var ≠ none → f.val ≠ t.defaultOf f.var →
    (f.holds s' ↔ Derives t s (fun c => c.holds s') f)
  neg : ∀ v, t.layerOf v ≠ none →
    ((∀ x, x ≠ t.defaultOf v → ¬ Derives t s (fun c => c.holds s') ⟨v, x⟩) ↔ s'[v]? = some (t.defaultOf v))

/-- Well-formed, stratified axioms (what the translator guarantees and the code relies on). -/
structure Task.WFAxioms (t : Task) : Prop where
  single : ∀ a ∈ t.axioms, ∃ e, a.effects = [e]
  headDerived : ∀ r ∈ t.rules, t.layerOf r.head.var ≠ none
  headNonDefault : ∀ r ∈ t.rules, r.head.val ≠ t.defaultOf r.head.var
  /-- a derived variable has only one value besides its default that rules can assign -/
  oneValue : ∀ r₁ ∈ t.rules, ∀ r₂ ∈ t.rules, r₁.head.var = r₂.head.var → r₁.head.val = r₂.head.val
  validHead : ∀ r ∈ t.rules, t.ValidFact r.head
  validBody : ∀ r ∈ t.rules, ∀ c ∈ r.body, t.ValidFact c
  /-- derived variables only exist in tasks with axioms -/
  someAxioms : t.axioms = [] → ∀ v, t.layerOf v = none
  validDefault : ∀ (v : Nat) (d : Variable), t.vars[v]? = some d → d.layer ≠ none → d.default < d.domain
  stratPos : ∀ r ∈ t.rules, ∀ c ∈ r.body, ∀ ℓc ℓh, t.layerOf c.var = some ℓc →
    t.layerOf r.head.var = some ℓh → ℓc ≤ ℓh
  stratNeg : ∀ r ∈ t.rules, ∀ c ∈ r.body, ∀ ℓc ℓh, t.layerOf c.var = some ℓc →
    t.layerOf r.head.var = some ℓh → c.val = t.defaultOf c.var → ℓc < ℓh

end Verif
