import Verif.Lemmas.Nnf
import Verif.Lemmas.UniquifyTask
import Verif.Props.Normalize

/-
C79: PDDL conditions after parsing, and tasks after renaming of variables.
-/
namespace Verif.Uniquify
open Verif.Datalog Verif.Lifted Verif.Pddl
variable {P V O T F : Type}

/-- the names with numbers are different -/
theorem number_inj : ∀ v i j, number v i = number v j → i = j := by
  intro v i j h
  have h1 := List.append_cancel_left h
  rw [← Nat.ofDigitChars_toDigits (b := 10) (n := i) (by omega) (by omega), h1, Nat.ofDigitChars_toDigits (by omega) (by omega)]

/-- **C79.** The condition that the parser makes of a formula is in negation normal form and true if and only if the formula is; for a negated formula, if and only if the formula is false. -/
theorem C79_nnf (has : T → O → Prop) (s : GAtom P O → Prop) (σ : V → O) (f : Formula P V O T) : ((nnf false f).holds has s σ ↔ f.holds has s σ) ∧ ((nnf true f).holds has s σ ↔ ¬ f.holds has s σ) :=
  ⟨by simpa using nnf_holds has s f false σ, by simpa using nnf_holds has s f true σ⟩

variable [DecidableEq V]

/-- **C79.** Parsed conditions are equivalent to the formulas, and all their quantified variables have different names, if the parameters of each quantifier have different names and objects of their types,
and if no free variable is called like a quantified variable with a number. -/
theorem C79_condition {num : V → Nat → V} (hnum : ∀ v i j, num v i = num v j → i = j) {has : T → O → Prop} {f : Formula P V O T} (hd : ∀ ps ∈ f.quantifiers, (names ps).Nodup) (ho : ∀ ps ∈ f.quantifiers, ∃ τ : V → O, ∀ p ∈ ps, has p.2 (τ p.1))
    (hfree : ∀ v, f.Free v → ∀ ps ∈ f.quantifiers, ∀ u ∈ names ps, ∀ i, v ≠ num u i) :
    ∃ c, parseCondition num f = some c ∧ (names c.bound).Nodup ∧ c.Flat ∧ c.Proper has ∧ ∀ s σ, c.holds has s σ ↔ f.holds has s σ := by
  obtain ⟨c', h1, h2, h3⟩ := uniq_spec hnum (nnf false f) [] [] (nnf_distinct f false hd) renInv_nil
  have hp : c'.Proper has := h3.proper has (nnf_proper f false ho)
  refine ⟨Normalize.simplify c', by rw [parseCondition, h1]; rfl, ((Normalize.bound_simplify c').map _).nodup h2.1, Normalize.flat_simplify c', Normalize.proper_simplify c' hp, fun s σ => ?_⟩
  refine (Normalize.sat_simplify c' hp).trans ((h3.sat has _ _ σ fun v hv => .inr ?_).trans (C79_nnf has s σ f).1)
  intro u hu i
  rw [nnf_bound] at hu
  obtain ⟨p, hp, rfl⟩ := List.mem_map.mp hu
  obtain ⟨ps, hps, hp⟩ := List.mem_flatten.mp hp
  exact hfree v ((nnf_free f false).mp hv) ps hps p.1 (List.mem_map_of_mem hp) i

/-- **C79.** Renaming of variables in a task is defined, and the result is a task in which the variables of each action, axiom and of the goal have different names (the hypotheses of C78).  Plans, with the names and costs of actions, are the same. -/
theorem C79_task {num : V → Nat → V} (hnum : ∀ v i j, num v i = num v j → i = j) {Q : PTask P V O T F} {ar : P → Nat} {fnAr : F → Nat} (hQ : Q.Basic ar fnAr) (hD : Q.Distinct) :
    ∃ Q', uniqTask num Q = some Q' ∧ Q'.Ok ar fnAr ∧ (∀ p, Q'.HasPlan p ↔ Q.HasPlan p) ∧ (Q.Stratifiable → Q'.Stratifiable) ∧ (Q'.DerivedOk ↔ Q.DerivedOk) := by
  obtain ⟨Q', h1, h2⟩ := uniqTask_spec hnum hQ hD
  exact ⟨Q', h1, h2.ok hQ, fun _ => h2.plan, h2.stratifiable, h2.derivedOk⟩

/-- **C79**, with C78: renaming of variables and normalisation of a task give a task with the same plans, which has what the exploration and instantiation need. -/
theorem C79_normalize [DecidableEq P] [DecidableEq O] [DecidableEq T] {num : V → Nat → V} (hnum : ∀ v i j, num v i = num v j → i = j) {Q : PTask P V O T F} {e : Normalize.Env P V} {ar : P → Nat} {fnAr : F → Nat} (hQ : Q.Basic ar fnAr) (hD : Q.Distinct) (hF : Normalize.Fresh e Q) (hst : Q.Stratifiable) (hd : Q.DerivedOk) :
    ∃ Q' L, uniqTask num Q = some Q' ∧ Normalize.normalize e Q' = .ok L ∧ (∃ ar', L.Ok ar' fnAr) ∧ L.Stratifiable ∧ ∀ p, L.HasPlan p ↔ Q.HasPlan p := by
  obtain ⟨Q', h1, h2⟩ := uniqTask_spec hnum hQ hD
  obtain ⟨L, h3⟩ := (Normalize.C78_defined (h2.ok hQ) (h2.fresh hF)).1 (h2.derivedOk.mpr hd)
  have h4 := Normalize.C78_task (h2.ok hQ) (h2.fresh hF) h3
  exact ⟨Q', L, h1, h3, h4.1, h4.2 (h2.stratifiable hst), fun p => (Normalize.C78_plans (h2.ok hQ) (h2.fresh hF) (h2.stratifiable hst) h3 p).trans h2.plan⟩

/-! Examples: names of variables are strings.  Predicates are numbers. -/
namespace C79Example

/-- not (p(?y) implies exists ?x (p(?x) and not forall ?x q(?x, ?y))) -/
def f : Formula Nat (List Char) Nat Nat :=
  .not (.imply (.atom ⟨1, [.var ['y']]⟩) (.exists_ [(['x'], 1)] (.and [.atom ⟨1, [.var ['x']]⟩, .not (.forall_ [(['x'], 1)] (.atom ⟨2, [.var ['x'], .var ['y']]⟩))])))

/-- p(?y) and forall ?x (not p(?x) or forall ?x1 q(?x1, ?y)) -/
theorem parse_f : parseCondition number f = some (.conj [.lit false ⟨1, [.var ['y']]⟩, .all [(['x'], 1)] (.disj [.lit true ⟨1, [.var ['x']]⟩, .all [(['x', '1'], 1)] (.lit false ⟨2, [.var ['x', '1'], .var ['y']]⟩)])]) := by rfl

/-- the hypotheses are met -/
example (has : Nat → Nat → Prop) (h : ∃ o, has 1 o) : ∃ c, parseCondition number f = some c ∧ (names c.bound).Nodup ∧ c.Flat ∧ c.Proper has ∧ ∀ s σ, c.holds has s σ ↔ f.holds has s σ := by
  obtain ⟨o, h⟩ := h
  refine C79_condition number_inj ?_ ?_ ?_
  · simp [f, Formula.quantifiers, quantifiersAll, names]
  · simpa [f, Formula.quantifiers, quantifiersAll] using ⟨fun _ => o, h⟩
  · intro v hv ps hps u hu i
    have h1 : v = ['y'] := by
      simp [f, Formula.Free, FreeAny, SymAtom.vars, Term.var?, names] at hv
      tauto
    have h2 : u = ['x'] := by
      simp [f, Formula.quantifiers, quantifiersAll] at hps
      simpa [hps, names] using hu
    subst h1 h2
    simp [number]

/-- exists ?x p(?x) and exists ?x q(?x, ?x1), where ?x1 is a parameter of an action -/
def captured : Formula Nat (List Char) Nat Nat :=
  .and [.exists_ [(['x'], 1)] (.atom ⟨1, [.var ['x']]⟩), .exists_ [(['x'], 1)] (.atom ⟨2, [.var ['x'], .var ['x', '1']]⟩)]

/-- **C79**, why free variables may not be called like quantified variables with a number: the parser does not know the parameters of the action when it renames variables.  The second ?x is renamed to ?x1, so that the condition is about q(?x1, ?x1):
with p(1), q(1, 2) and ?x1 = 2 the formula is true, and the condition is false. -/
theorem C79_capture_fails : parseCondition number captured = some (.conj [.ex [(['x'], 1)] (.lit false ⟨1, [.var ['x']]⟩), .ex [(['x', '1'], 1)] (.lit false ⟨2, [.var ['x', '1'], .var ['x', '1']]⟩)]) ∧
    ∃ (s : GAtom Nat Nat → Prop) (σ : List Char → Nat), captured.holds (fun _ o => o = 1 ∨ o = 2) s σ ∧ ∀ c, parseCondition number captured = some c → ¬ c.holds (fun _ o => o = 1 ∨ o = 2) s σ := by
  have h0 : parseCondition number captured = some (.conj [.ex [(['x'], 1)] (.lit false ⟨1, [.var ['x']]⟩), .ex [(['x', '1'], 1)] (.lit false ⟨2, [.var ['x', '1'], .var ['x', '1']]⟩)]) := by rfl
  refine ⟨h0, fun a => a = ⟨1, [1]⟩ ∨ a = ⟨2, [1, 2]⟩, fun _ => 2, ?_, ?_⟩
  · have hE : Ext (fun _ o => o = 1 ∨ o = 2) [(['x'], 1)] (fun _ => 2) (fun v => if v = ['x'] then 1 else 2) := ⟨fun v hv => by simp at hv; simp [hv], by simp⟩
    exact ⟨⟨_, hE, .inl (by simp [SymAtom.inst, Term.value])⟩, ⟨_, hE, .inr (by simp [SymAtom.inst, Term.value])⟩, trivial⟩
  · intro c hc
    rw [h0] at hc
    cases hc
    rintro ⟨-, ⟨τ, -, h⟩, -⟩
    rcases h with h | h <;> simp [SymAtom.inst, Term.value] at h
    omega

/-- names of variables are numbers: a name with a number -/
def num (v i : Nat) : Nat := 100 * v + i

open Normalize.C78Example (ex exAr env typed_one)

/-- the task of C78 with names of variables that are used again: the precondition and the effects use the name of the parameter, and effects share names -/
def switch : PAction Nat Nat Nat Nat Nat where
  name := "switch".toList
  params := [(10, 1)]
  external := 1
  pre := .disj [.lit false ⟨3, [.var 10]⟩, .ex [(10, 1)] (.conj [.lit false ⟨1, [.var 10]⟩, .lit true ⟨4, [.var 10]⟩])]
  effects := [⟨[], .truth, false, ⟨1, [.var 10]⟩⟩, ⟨[(12, 1)], .all [(12, 1)] (.disj [.lit true ⟨2, [.var 10, .var 12]⟩, .lit false ⟨1, [.var 12]⟩]), true, ⟨4, [.var 12]⟩⟩, ⟨[(10, 1), (12, 1)], .lit false ⟨2, [.var 10, .var 12]⟩, true, ⟨4, [.var 10]⟩⟩]
  cost := .const 3

/-- the task -/
def task : PTask Nat Nat Nat Nat Nat := { ex with actions := [switch] }

theorem task_basic : task.Basic exAr (fun _ => 0) where
  initArity := by decide
  valueArity := by simp [task, ex]
  arity := by simp [PTask.conditions, task, ex, switch, Cond.arity, Cond.Lits, LitsAll, exAr]
  costArity := by simp [task, switch]
  effectArity := by simp [task, switch, exAr]
  axiomArity := by simp [task, ex, exAr]
  actionExternal := by simp [task, switch]
  eqArity := rfl
  eqSame := by decide
  eqOnly := by simp [task, ex]
  eqEffect := by simp [task, ex, switch]
  eqAxiom := by simp [task, ex]
  initObjects := by simp [task, ex]
  valueObjects := by simp [task, ex]
  effectObjects := by simp [task, switch]
  preVars := by simp [task, switch, Cond.Scoped, ScopedAll, SymAtom.vars, Term.var?, names]
  costVars := by simp [task, switch]
  effectVars := by simp [task, switch, Cond.Scoped, ScopedAll, SymAtom.vars, Term.var?, names]
  axiomVars := by simp [task, ex, Cond.Scoped, ScopedAll, SymAtom.vars, Term.var?, names]
  goalVars := by simp [task, ex, Cond.Scoped, ScopedAll, SymAtom.vars, Term.var?]
  functional := by simp [task, ex]
  proper := by
    intro c hc
    simp only [PTask.conditions, task, ex, switch, List.flatMap_cons, List.flatMap_nil, List.map_cons, List.map_nil, List.cons_append, List.nil_append, List.append_nil, List.mem_cons, List.not_mem_nil, or_false] at hc
    rcases hc with rfl | rfl | rfl | rfl | rfl | rfl <;> simp only [Cond.Proper, ProperAll, and_true, true_and] <;> exact .inl (typed_one _)
  flat := by simp [PTask.conditions, task, ex, switch, Cond.Flat, FlatAll, Cond.isConj, Cond.isDisj, Cond.isConst]

theorem task_distinct : task.Distinct where
  actions := by simp [task, switch, names]
  effects := by simp [task, switch, names]
  axs := by simp [task, ex, names]
  conditions := by simp [PTask.conditions, task, ex, switch, Cond.Distinct, DistinctAll, names]

/-- the hypotheses are met -/
example : ∃ Q', uniqTask num task = some Q' ∧ Q'.Ok exAr (fun _ => 0) ∧ (∀ p, Q'.HasPlan p ↔ task.HasPlan p) ∧ (task.Stratifiable → Q'.Stratifiable) ∧ (Q'.DerivedOk ↔ task.DerivedOk) :=
  C79_task (fun v i j h => by simp only [num] at h; omega) task_basic task_distinct

/-- the variables of the action get different names; before, they did not have them -/
example : (uniqTask num task).map (fun Q => Q.actions.map (fun A => names A.binders)) = some [[10, 1001, 12, 1201, 1002, 1202]] ∧ names switch.binders = [10, 10, 12, 12, 10, 12] := by decide +kernel

/-- … and atoms follow: the last effect is about the new parameter -/
example : (uniqTask num task).map (fun Q => Q.actions.map (fun A => A.effects.map (fun e => (e.params, e.atom.args)))) = some [[([], [.var 10]), ([(12, 1)], [.var 12]), ([(1002, 1), (1202, 1)], [.var 1002])]] := by rfl

end C79Example
end Verif.Uniquify
