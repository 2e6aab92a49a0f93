import Verif.Lemmas.NormalizeOk
import Verif.Props.Instantiate

/-
C78: The normalisation of a task (normalize.py) keeps its plans.
-/
namespace Verif.Normalize
open Verif.Datalog Verif.Lifted Verif.Pddl
open Verif.Strips (Literal)
variable {P V O T F : Type} [DecidableEq P] [DecidableEq V] [DecidableEq O] [DecidableEq T]
variable {e : Env P V} {Q : PTask P V O T F} {L : LTask P V O T F} {ar : P → Nat} {fnAr : F → Nat}

theorem normalize_spec (hQ : Q.Ok ar fnAr) (hF : Fresh e Q) : ∃ Q' final L, Removed e ar Q Q' final ∧ Result Q' L ∧ normalize e Q = if verify L then .ok L else .derivedPredicate := by
  obtain ⟨r, final, h1, R⟩ := removeUniversals_spec hQ hF
  obtain ⟨L, h2, h3⟩ := finishTask_spec (R.ok hQ hF) (R.ready hQ hF)
  exact ⟨_, final, L, R, h3, by simp only [normalize, h1, h2]⟩

theorem normalize_ok (hQ : Q.Ok ar fnAr) (hF : Fresh e Q) (h : normalize e Q = .ok L) : ∃ Q' final, Removed e ar Q Q' final ∧ Result Q' L ∧ verify L = true := by
  obtain ⟨Q', final, L', R, h1, h2⟩ := normalize_spec hQ hF
  rw [h2] at h
  split at h
  · rename_i hv
    cases h
    exact ⟨Q', final, R, h1, hv⟩
  · cases h

/-- **C78.** No assertion fails, and all types are found.  The result is a task if derived predicates are not true initially and not changed by actions; otherwise this is reported. -/
theorem C78_defined (hQ : Q.Ok ar fnAr) (hF : Fresh e Q) : (Q.DerivedOk → ∃ L, normalize e Q = .ok L) ∧ (¬ Q.DerivedOk → normalize e Q = .derivedPredicate) := by
  obtain ⟨Q', final, L, R, h1, h2⟩ := normalize_spec hQ hF
  have h3 : verify L = true ↔ Q.DerivedOk := (h1.verify_iff (R.ok hQ hF) (R.ready hQ hF)).trans (R.derivedOk_iff hF)
  refine ⟨fun h => ⟨L, ?_⟩, fun h => ?_⟩
  · rw [h2, if_pos (h3.mpr h)]
  · rw [h2, if_neg (fun h' => h (h3.mp h'))]

/-- **C78.** The tasks before and after normalisation have the same plans, with the same names and costs of actions. -/
theorem C78_plans (hQ : Q.Ok ar fnAr) (hF : Fresh e Q) (hst : Q.Stratifiable) (h : normalize e Q = .ok L) (p : List (List Char × Nat)) : L.HasPlan p ↔ Q.HasPlan p := by
  obtain ⟨Q', final, R, h1, _⟩ := normalize_ok hQ hF h
  exact (h1.plan_iff (R.ok hQ hF) (R.ready hQ hF)).trans (R.plan_iff hQ hF hst)

/-- **C78.** The result has what the exploration and the instantiation need (the hypotheses of C77), and its axioms are stratifiable if those of the task are. -/
theorem C78_task (hQ : Q.Ok ar fnAr) (hF : Fresh e Q) (h : normalize e Q = .ok L) : (∃ ar', L.Ok ar' fnAr) ∧ (Q.Stratifiable → L.Stratifiable) := by
  obtain ⟨Q', final, R, h1, h2⟩ := normalize_ok hQ hF h
  have hQ' := R.ok hQ hF
  have hr := R.ready hQ hF
  exact ⟨⟨_, h1.ok hQ' hr ((h1.verify_iff hQ' hr).mp h2)⟩, fun hst => h1.stratifiable hQ' hr (R.stratifiable hQ hF hst)⟩

/-- **C78.** Simplified conditions (`simplified`, which the parser uses as well) are equivalent to the given ones, if quantifiers over types without objects are not trivial. -/
theorem C78_simplify (has : T → O → Prop) (c : Cond P V O T) (hc : c.Proper has) : (simplify c).Flat ∧ (simplify c).Proper has ∧ ∀ s σ, (simplify c).holds has s σ ↔ c.holds has s σ :=
  ⟨flat_simplify c, proper_simplify c hc, fun _ _ => sat_simplify c hc⟩

/-- **C78**, with C72 to C77: normalisation, exploration, instantiation, treatment of axioms, choice of groups and introduction of finite-domain variables, for any invariants that are correct.  Every plan of the resulting task is a plan of the PDDL task;
every plan of the PDDL task is one of the resulting task, up to actions that can be left out. -/
theorem C78_pipeline {V T F : Type} [DecidableEq V] [DecidableEq T] [DecidableEq F] {Q : PTask (List Char) V (List Char) T F} {e : Env (List Char) V} {ar : List Char → Nat} {fnAr : F → Nat} (hQ : Q.Ok ar fnAr) (hF : Fresh e Q) (hst : Q.Stratifiable) (hD : Q.DerivedOk) :
    ∃ L, normalize e Q = .ok L ∧ ∀ {e' : PrologProgram.Env (Instantiate.DPred (List Char) T F) V (List Char)}, Instantiate.Names e' L → ∀ o : StripsToSas.Options, ∃ G, Instantiate.Explores e' o.keepNoOps L G ∧
      ((G.relaxedReachable = false ∨ G.goal = none) → ∀ p, ¬ Q.HasPlan p) ∧
      ∀ goal : List (Literal (GAtom (List Char) (List Char))), G.goal = some goal → ∀ (objects : List (List Char)) (invariants : List (List FactGroups.Atom)), FactGroups.InvariantsOf ((Instantiate.task L G goal).rename Instantiate.stringAtom) objects invariants →
      ∀ atoms : List FactGroups.Atom, atoms.Nodup → (∀ p ∈ G.fluent, Instantiate.stringAtom p ∈ atoms) → ∀ max : Bool,
      ∃ ax ls groups mutexGroups names S, AxiomRules.handleAxioms max ((Instantiate.task L G goal).rename Instantiate.stringAtom) = .ok ax ls ∧
        FactGroups.computeGroups o.partialEncoding objects invariants atoms (FactGroups.negativeInGoal ((Instantiate.task L G goal).rename Instantiate.stringAtom).goal) = some (groups, mutexGroups, names) ∧
        StripsToSas.translateTask o groups mutexGroups names { (Instantiate.task L G goal).rename Instantiate.stringAtom with axioms := ax, layers := ls } = some S ∧ (∀ p, S.HasPlan p → Q.HasPlan p) ∧
        ∀ p, Q.HasPlan p → ∃ p', p'.Sublist p ∧ S.HasPlan p' ∧ (o.keepNoOps = true → goal ≠ [] → p' = p) := by
  obtain ⟨L, h⟩ := (C78_defined hQ hF).1 hD
  obtain ⟨⟨ar', h1⟩, h2⟩ := C78_task hQ hF h
  have h3 := C78_plans hQ hF hst h
  refine ⟨L, h, fun he o => ?_⟩
  obtain ⟨G, h4⟩ := Instantiate.C77_defined h1 he o.keepNoOps
  refine ⟨G, h4, fun hu p hp => Instantiate.C77_unsolvable h1 he h4 hu p ((h3 p).mpr hp), fun goal hg objects invariants hI atoms ha hat max => ?_⟩
  obtain ⟨ax, ls, groups, mutexGroups, names, S, h5, h6, h7, h8, h9⟩ := Instantiate.C77_pipeline h1 he (h2 hst) h4 hg hI ha hat max
  exact ⟨ax, ls, groups, mutexGroups, names, S, h5, h6, h7, fun p hp => (h3 p).mp (h8 p hp), fun p hp => h9 p ((h3 p).mpr hp)⟩

/-! Example: lamps with links.  Predicates: 0 is "=", 1 is on(lamp), 2 is link(lamp, lamp), 3 is the derived predicate safe(lamp): all lamps with a link from this one are on, 4 is broken(lamp). -/
namespace C78Example

/-- new axioms have the numbers 100, 101, … -/
def env : Env Nat Nat := ⟨fun i => 100 + i, id⟩

/-- switch(10): the lamp is safe, or there is another lamp that is on; if all lamps are on or broken after a link, then no lamp is broken any more -/
def switch : PAction Nat Nat Nat Nat Nat where
  name := "switch".toList
  params := [(10, 1)]
  external := 1
  pre := .disj [.lit false ⟨3, [.var 10]⟩, .ex [(11, 1)] (.conj [.lit false ⟨1, [.var 11]⟩, .lit true ⟨0, [.var 10, .var 11]⟩])]
  effects := [⟨[], .truth, false, ⟨1, [.var 10]⟩⟩, ⟨[(12, 1)], .all [(13, 1)] (.disj [.lit true ⟨2, [.var 10, .var 13]⟩, .lit false ⟨1, [.var 13]⟩, .lit false ⟨4, [.var 13]⟩]), true, ⟨4, [.var 12]⟩⟩]
  cost := .const 3

/-- lamps 1, 2 and 3; the goal: all lamps are on and not broken -/
def ex : PTask Nat Nat Nat Nat Nat where
  eq := 0
  objectName := fun o => (toString o).toList
  supertypes := fun t => if t = 0 then [] else [0]
  objects := [(1, 1), (2, 1), (3, 1)]
  init := [⟨2, [1, 2]⟩, ⟨2, [2, 3]⟩, ⟨4, [2]⟩, ⟨0, [1, 1]⟩, ⟨0, [2, 2]⟩, ⟨0, [3, 3]⟩]
  values := []
  goal := .all [(30, 1)] (.conj [.lit false ⟨1, [.var 30]⟩, .lit true ⟨4, [.var 30]⟩])
  actions := [switch]
  axioms := [⟨3, [(20, 1)], 1, .all [(21, 1)] (.disj [.lit true ⟨2, [.var 20, .var 21]⟩, .lit false ⟨1, [.var 21]⟩])⟩]
  metric := true

/-- arities -/
def exAr (p : Nat) : Nat := if p = 0 ∨ p = 2 then 2 else 1

theorem typed_one : ∀ v : Nat, ∃ τ : Nat → Nat, ∀ p ∈ [(v, 1)], ex.HasType p.2 (τ p.1) := fun v => ⟨fun _ => 1, fun p hp => by simp only [List.mem_singleton] at hp; subst hp; exact ⟨1, by simp [ex], .inl rfl⟩⟩

theorem ex_ok : ex.Ok exAr (fun _ => 0) where
  initArity := by decide
  valueArity := by simp [ex]
  arity := by simp [PTask.conditions, ex, switch, Cond.arity, Cond.Lits, LitsAll, exAr]
  costArity := by simp [ex, switch]
  effectArity := by simp [ex, switch, exAr]
  axiomArity := by simp [ex, exAr]
  actionExternal := by simp [ex, switch]
  eqArity := rfl
  eqSame := by decide
  eqOnly := by simp [ex]
  eqEffect := by simp [ex, switch]
  eqAxiom := by simp [ex]
  initObjects := by simp [ex]
  valueObjects := by simp [ex]
  effectObjects := by simp [ex, switch]
  preVars := by simp [ex, switch, Cond.Scoped, ScopedAll, SymAtom.vars, Term.var?, names]
  costVars := by simp [ex, switch]
  effectVars := by simp [ex, switch, Cond.Scoped, ScopedAll, SymAtom.vars, Term.var?, names]
  axiomVars := by simp [ex, Cond.Scoped, ScopedAll, SymAtom.vars, Term.var?, names]
  goalVars := by simp [ex, Cond.Scoped, ScopedAll, SymAtom.vars, Term.var?]
  actionNames := by simp [ex, switch, PAction.binders, Cond.bound, boundAll, names]
  axiomNames := by simp [ex, PAxiom.binders, Cond.bound, boundAll, names]
  goalNames := by simp [ex, Cond.bound, boundAll, names]
  functional := by simp [ex]
  proper := by
    intro c hc
    simp only [PTask.conditions, ex, switch, List.flatMap_cons, List.flatMap_nil, List.map_cons, List.map_nil, List.cons_append, List.nil_append, List.append_nil, List.mem_cons, List.not_mem_nil, or_false] at hc
    rcases hc with rfl | rfl | rfl | rfl | rfl <;> simp only [Cond.Proper, ProperAll, and_true, true_and] <;> exact .inl (typed_one _)
  flat := by simp [PTask.conditions, ex, switch, Cond.Flat, FlatAll, Cond.isConj, Cond.isDisj, Cond.isConst]

theorem old_iff {p : Nat} : Old env p ↔ p < 100 := by
  refine ⟨fun h => ?_, fun h i => by simp only [env]; omega⟩
  by_contra hp
  exact h (p - 100) (by simp only [env]; omega)

theorem fresh : Fresh env ex where
  inj := by simp [env]
  eq := by simp [old_iff, ex]
  init := by simp [old_iff, ex]
  effects := by simp [old_iff, ex, switch]
  axs := by simp [old_iff, ex]
  conds := by simp [PTask.conditions, ex, switch, Cond.Lits, LitsAll, old_iff]
  sort := fun _ => .refl _

theorem stratifiable : ex.Stratifiable := by
  refine ⟨fun _ => 0, fun x hx σ _ n p ho hd => ?_⟩
  obtain ⟨y, hy, h⟩ := hd
  simp only [ex, List.mem_singleton] at hx hy
  subst hx hy
  obtain ⟨τ, _, ho⟩ := ho
  rcases ho with ⟨_, rfl⟩ | ⟨_, rfl⟩ | ho <;> simp [SymAtom.inst] at h
  exact ho.elim

theorem derivedOk : ex.DerivedOk := by
  constructor
  · simp [ex, PTask.Derived]
  · simp [ex, switch]

/-- the hypotheses are met -/
example : ∃ L, normalize env ex = .ok L ∧ ∀ p, L.HasPlan p ↔ ex.HasPlan p := by
  obtain ⟨L, h⟩ := (C78_defined ex_ok fresh).1 derivedOk
  exact ⟨L, h, C78_plans ex_ok fresh stratifiable h⟩

/-- actions: parameters and numbers of preconditions and effects; axioms: predicates, parameters and numbers of parts of the condition; the goal -/
def summary : Outcome Nat Nat Nat Nat Nat → Option (List (List (Nat × Nat) × Nat × Nat) × List (Nat × List (Nat × Nat) × Nat) × Nat)
  | .ok L => some (L.actions.map (fun A => (A.params, A.pre.length, A.effects.length)), L.axioms.map (fun x => (x.pred, x.params, x.cond.length)), L.goal.length)
  | _ => none

/-- two schemas for the action, new axioms 100 (effect), 101 (axiom) and 102 (goal), the last of which is split -/
example : summary (normalize env ex) = some ([([(10, 1)], 1, 2), ([(10, 1), (11, 1)], 2, 2)], [(3, [(20, 1)], 1), (100, [(10, 1), (13, 1)], 3), (101, [(20, 1), (21, 1)], 2), (102, [(30, 1)], 1), (102, [(30, 1)], 1)], 1) := by rfl

/-- a derived atom that is true initially is reported -/
example : summary (normalize env { ex with init := ⟨3, [1]⟩ :: ex.init }) = none ∧ ∀ ar fnAr, PTask.Ok { ex with init := ⟨3, [1]⟩ :: ex.init } ar fnAr → Fresh env { ex with init := ⟨3, [1]⟩ :: ex.init } → normalize env { ex with init := ⟨3, [1]⟩ :: ex.init } = .derivedPredicate := by
  refine ⟨by decide +kernel, fun ar fnAr h hF => (C78_defined h hF).2 fun hd => hd.1 ⟨3, [1]⟩ (by simp) ⟨_, List.mem_singleton.mpr rfl, rfl⟩⟩

/-- **C78**, why quantifiers over types without objects may not be trivial: "there is an object" is simplified to "true", also for types without objects. -/
theorem C78_empty_type_fails : simplify (.ex [(1, 7)] .truth : Cond Nat Nat Nat Nat) = .truth ∧ ∀ s σ, ¬ (Cond.ex [(1, 7)] .truth : Cond Nat Nat Nat Nat).holds ex.HasType s σ := by
  refine ⟨rfl, fun s σ h => ?_⟩
  obtain ⟨τ, h, _⟩ := h
  obtain ⟨u, h1, h2⟩ := h.2 (1, 7) (by simp)
  simp only [ex, List.mem_cons, Prod.mk.injEq, List.not_mem_nil, or_false] at h1 h2
  rcases h1 with ⟨_, rfl⟩ | ⟨_, rfl⟩ | ⟨_, rfl⟩ <;> simp at h2

/-- the derived atom 3 is true if for all x, 1(x) is true or the atom is true itself -/
def loop : PTask Nat Nat Nat Nat Nat where
  eq := 0
  objectName := fun o => (toString o).toList
  supertypes := fun _ => []
  objects := [(1, 1)]
  init := [⟨0, [1, 1]⟩]
  values := []
  goal := .lit false ⟨3, []⟩
  actions := []
  axioms := [⟨3, [], 0, .all [(21, 1)] (.disj [.lit false ⟨1, [.var 21]⟩, .lit false ⟨3, []⟩])⟩]
  metric := false

theorem loop_ok : loop.Ok (fun p => if p = 0 then 2 else if p = 1 then 1 else 0) (fun _ => 0) where
  initArity := by decide
  valueArity := by simp [loop]
  arity := by simp [PTask.conditions, loop, Cond.arity, Cond.Lits, LitsAll]
  costArity := by simp [loop]
  effectArity := by simp [loop]
  axiomArity := by simp [loop]
  actionExternal := by simp [loop]
  eqArity := rfl
  eqSame := by decide
  eqOnly := by simp [loop]
  eqEffect := by simp [loop]
  eqAxiom := by simp [loop]
  initObjects := by simp [loop]
  valueObjects := by simp [loop]
  effectObjects := by simp [loop]
  preVars := by simp [loop]
  costVars := by simp [loop]
  effectVars := by simp [loop]
  axiomVars := by simp [loop, Cond.Scoped, ScopedAll, SymAtom.vars, Term.var?]
  goalVars := by simp [loop, Cond.Scoped, SymAtom.vars]
  actionNames := by simp [loop]
  axiomNames := by simp [loop, PAxiom.binders, Cond.bound, boundAll, names]
  goalNames := by simp [loop, Cond.bound, names]
  functional := by simp [loop]
  proper := by simp [PTask.conditions, loop, Cond.Proper, ProperAll, Cond.trivially, allTrivially]
  flat := by simp [PTask.conditions, loop, Cond.Flat, FlatAll, Cond.isConst, Cond.isDisj]

/-- the task after normalisation: 3 is true if 100 is not true, and 100 is true if there is x so that neither 1(x) nor 3 are true -/
def loopNormal : LTask Nat Nat Nat Nat Nat where
  eq := 0
  objectName := fun o => (toString o).toList
  supertypes := fun _ => []
  objects := [(1, 1)]
  init := [⟨0, [1, 1]⟩]
  values := []
  goal := [.lit false ⟨3, []⟩]
  actions := []
  axioms := [⟨3, [], 0, [.lit true ⟨100, []⟩]⟩, ⟨100, [(21, 1)], 0, [.lit true ⟨1, [.var 21]⟩, .lit true ⟨3, []⟩]⟩]
  metric := false

/-- **C78**, why axioms must be stratifiable if one counts atoms under universal quantifiers as negated: the atom 3 only follows from itself, so that the task has no plan.  After normalisation it depends on its own negation:
there is a second model of the axioms, in which the goal is true initially, and the axioms are not stratifiable. -/
theorem C78_universal_fails : normalize env loop = .ok loopNormal ∧ (∀ p, ¬ loop.HasPlan p) ∧ loopNormal.HasPlan [] ∧ ¬ loopNormal.Stratifiable := by
  refine ⟨by rfl, ?_, ?_, ?_⟩
  · rintro p ⟨s, u, hi, hr, hg⟩
    cases hr with
    | cons _ A _ _ _ _ _ h => exact absurd h.1 (by simp [loop])
    | nil =>
      have hd : loop.Derived ⟨3, []⟩ := ⟨_, List.mem_singleton.mpr rfl, rfl⟩
      have h3 : s ⟨3, []⟩ := hg fun _ => 0
      refine (hi.derived _ hd).mp h3 (fun _ => False) fun x hx σ _ h => ?_
      simp only [loop, List.mem_singleton] at hx
      subst hx
      have hE : Ext loop.HasType [(21, 1)] σ (Function.update σ 21 1) := by
        refine ⟨fun v hv => Function.update_of_ne (by simpa using hv) _ _, fun p hp => ?_⟩
        simp only [List.mem_singleton] at hp
        subst hp
        exact ⟨1, by simp [loop], .inl rfl⟩
      rcases h _ hE with h | h | h
      · rcases h with h | h
        · exact h.2
        · have := (hi.base _ h.1).mp h.2
          simp [loop, SymAtom.inst] at this
      · rcases h with h | h
        · exact h.2
        · exact h.1 hd
      · exact h
  · refine ⟨fun p => p = ⟨3, []⟩ ∨ p ∈ loop.init, _, ⟨fun p hp => ?_, fun p hp => ?_⟩, .nil _, ?_⟩
    · refine ⟨fun h => h.resolve_left fun h => hp ?_, .inr⟩
      subst h
      exact ⟨_, List.mem_cons_self, rfl⟩
    · constructor
      · rintro (rfl | h)
        · exact .rule ⟨3, [], 0, [.lit true ⟨100, []⟩]⟩ (by simp [loopNormal]) (fun _ => 0) (by intro p hp; simp at hp) (by simp) (by simp [SymAtom.inst, loop]) (by simp) (by simp)
        · obtain ⟨x, hx, hp⟩ := hp
          simp only [loop, List.mem_singleton] at h
          subst h
          simp only [loopNormal, List.mem_cons, List.not_mem_nil, or_false] at hx
          rcases hx with rfl | rfl <;> simp at hp
      · rintro ⟨x, hx, σ, _, _, hneg, _, _⟩
        simp only [loopNormal, List.mem_cons, List.not_mem_nil, or_false] at hx
        rcases hx with rfl | rfl
        · exact .inl rfl
        · exact absurd (.inl rfl) (hneg ⟨3, []⟩ (by simp))
    · simp only [loopNormal, List.mem_singleton]
      rintro c rfl σ
      exact .inl rfl
  · rintro ⟨layer, h⟩
    have h1 := h ⟨3, [], 0, [.lit true ⟨100, []⟩]⟩ (by simp [loopNormal]) (fun _ => 1) (by intro p hp; simp at hp) true ⟨100, []⟩ (by simp) ⟨⟨100, [(21, 1)], 0, _⟩, by simp [loopNormal]; rfl, rfl⟩
    have h2 := h ⟨100, [(21, 1)], 0, [.lit true ⟨1, [.var 21]⟩, .lit true ⟨3, []⟩]⟩ (by simp [loopNormal]) (fun _ => 1) (by intro p hp; simp at hp; subst hp; exact ⟨1, by simp [loopNormal], .inl rfl⟩) true ⟨3, []⟩ (by simp) ⟨⟨3, [], 0, _⟩, by simp [loopNormal]; rfl, rfl⟩
    have h3 := h1.2 rfl
    have h4 := h2.2 rfl
    simp only [SymAtom.inst, LAxiom.head, List.map_nil, List.take_zero] at h3 h4
    omega

end C78Example
end Verif.Normalize
