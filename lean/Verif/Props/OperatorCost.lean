import Verif.Lemmas.TaskSearch

/-
C44: adapting operator costs.
-/
namespace Verif.OperatorCost
open Verif.Search

/-- the three cost types, stated outright: `normal` is the cost itself, `one` is 1, `plusone`
is one more than the cost, except that it is 1 if all operators cost 1 -/
theorem C44_cost_types (t : Task) (i : Nat) (o : Operator) (h : t.ops[i]? = some o) :
    costAdaptedOperatorCost t .normal i false = some o.cost ∧
    costAdaptedOperatorCost t .one i false = some 1 ∧
    ((∀ o ∈ t.ops, o.cost = 1) → costAdaptedOperatorCost t .plusone i false = some 1) ∧
    ((∃ o ∈ t.ops, o.cost ≠ 1) → costAdaptedOperatorCost t .plusone i false = some (o.cost + 1)) := by
  refine ⟨by simp [costAdaptedOperatorCost, h, getAdjustedActionCost, adjustedCost], by simp [costAdaptedOperatorCost, h, getAdjustedActionCost, adjustedCost], ?_, ?_⟩
  · intro hu
    simp [costAdaptedOperatorCost, h, getAdjustedActionCost, adjustedCost, (isUnitCost_iff t.ops).mpr hu]
  · rintro ⟨o', h1, h2⟩
    have : isUnitCost t.ops = false := by
      rw [Bool.eq_false_iff]
      intro hu
      exact h2 ((isUnitCost_iff t.ops).mp hu o' h1)
    simp [costAdaptedOperatorCost, h, getAdjustedActionCost, adjustedCost, this]

/-- axioms cost nothing under every cost type -/
theorem C44_axioms_free (t : Task) (ct : CostType) (i : Nat) (h : i < t.axioms.length) : costAdaptedOperatorCost t ct i true = some 0 := by
  simp [costAdaptedOperatorCost, h, getAdjustedActionCost]

variable {t : Task} (ct : CostType)

theorem adapted_op (i : Nat) : (costAdaptedTask t ct).ops[i]? = (t.ops[i]?).map (fun o => { o with cost := getAdjustedActionCost false o.cost ct (isUnitCost t.ops) }) := by
  simp [costAdaptedTask]

theorem adapted_rules : (costAdaptedTask t ct).rules = t.rules := by
  simp [Task.rules, costAdaptedTask, List.flatMap_map]

theorem derives_iff (s : State) (neg : Fact → Prop) (f : Fact) : Derives (costAdaptedTask t ct) s neg f ↔ Derives t s neg f := by
  constructor
  · intro h
    induction h with
    | rule r hr h1 h2 h3 ih => exact .rule r (by rwa [adapted_rules] at hr) h1 h2 ih
  · intro h
    induction h with
    | rule r hr h1 h2 h3 ih => exact .rule r (by rwa [adapted_rules]) h1 h2 ih

theorem stable_iff (s s' : State) : StableModel (costAdaptedTask t ct) s s' ↔ StableModel t s s' := by
  constructor
  · intro h
    exact ⟨h.length, h.base, fun f a b => (h.pos f a b).trans (derives_iff ct _ _ _), fun v a => by
      have := h.neg v a
      refine Iff.trans ?_ this
      exact forall_congr' fun x => imp_congr_right fun _ => not_congr (derives_iff ct _ _ _).symm⟩
  · intro h
    exact ⟨h.length, h.base, fun f a b => (h.pos f a b).trans (derives_iff ct _ _ _).symm, fun v a => by
      have := h.neg v a
      refine Iff.trans ?_ this
      exact forall_congr' fun x => imp_congr_right fun _ => not_congr (derives_iff ct _ _ _)⟩

theorem exec_iff (s u : State) (π : List Nat) : (costAdaptedTask t ct).Exec s π u ↔ t.Exec s π u := by
  constructor
  · intro h
    induction h with
    | nil s => exact .nil s
    | cons s i o s' π u h1 h2 h3 _ ih =>
      rw [adapted_op] at h1
      obtain ⟨o', h1', rfl⟩ := Option.map_eq_some_iff.mp h1
      obtain ⟨m, m1, m2⟩ := h3
      exact .cons s i o' s' π u h1' h2 ⟨m, m1, (stable_iff ct _ _).mp m2⟩ ih
  · intro h
    induction h with
    | nil s => exact .nil s
    | cons s i o s' π u h1 h2 h3 _ ih =>
      obtain ⟨m, m1, m2⟩ := h3
      exact .cons s i { o with cost := getAdjustedActionCost false o.cost ct (isUnitCost t.ops) } s' π u (by rw [adapted_op, h1]; rfl) h2 ⟨m, m1, (stable_iff ct _ _).mpr m2⟩ ih

/-- C44: the cost-adapted task has the same plans, from every state. -/
theorem C44_same_plans (s : State) (π : List Nat) : (costAdaptedTask t ct).SolvesFrom s π ↔ t.SolvesFrom s π :=
  exists_congr fun u => and_congr (exec_iff ct s u π) Iff.rfl

/-- C44: its operators cost what `costUnder` says. -/
theorem C44_adapted_costs (i : Nat) (h : i < t.ops.length) : (costAdaptedTask t ct).opCost i = t.costUnder ct i := by
  have := adj_eq t (fun _ _ => true) ct i
  rw [← this]
  simp [Task.opCost, adapted_op, World.ofTask, h]

theorem exec_indices {s u : State} {π : List Nat} (h : t.Exec s π u) : ∀ i ∈ π, i < t.ops.length := by
  induction h with
  | nil s => simp
  | cons s i o s' π u h1 _ _ _ ih =>
    intro j hj
    rcases List.mem_cons.mp hj with rfl | hj
    · exact (List.getElem?_eq_some_iff.mp h1).1
    · exact ih j hj

/-- C44: the cost of a plan in the cost-adapted task. -/
theorem C44_plan_cost {s : State} {π : List Nat} (h : t.SolvesFrom s π) : (costAdaptedTask t ct).planCost π = t.planCostUnder ct π := by
  obtain ⟨u, h, _⟩ := h
  unfold Task.planCost Task.planCostUnder
  congr 1
  exact List.map_congr_left (fun i hi => C44_adapted_costs ct i (exec_indices h i hi))

/-- C44: plan costs under the cost types: the cost, the length, their sum. -/
theorem C44_plan_cost_types (t : Task) (π : List Nat) :
    t.planCostUnder .normal π = t.planCost π ∧ t.planCostUnder .one π = π.length ∧
    ((∀ o ∈ t.ops, o.cost = 1) → t.planCostUnder .plusone π = π.length) ∧
    ((∃ o ∈ t.ops, o.cost ≠ 1) → t.planCostUnder .plusone π = t.planCost π + π.length) := by
  refine ⟨rfl, ?_, ?_, ?_⟩
  · have : t.costUnder .one = fun _ => 1 := by funext i; rfl
    simp [Task.planCostUnder, this]
  · intro h
    have hu : t.unitCost := h
    have : t.costUnder .plusone = fun _ => 1 := by funext i; simp [Task.costUnder, hu]
    simp [Task.planCostUnder, this]
  · rintro ⟨o, h1, h2⟩
    have hu : ¬ t.unitCost := fun h => h2 (h o h1)
    unfold Task.planCostUnder Task.planCost
    have : t.costUnder .plusone = fun i => t.opCost i + 1 := by funext i; simp [Task.costUnder, hu]
    rw [this]
    induction π with
    | nil => rfl
    | cons i π ih => simp only [List.map_cons, List.sum_cons, List.length_cons, ih]; omega

/-- C44: optimal plans of the cost-adapted task are the plans that are optimal under the cost
type. -/
theorem C44_optimal_plans (π : List Nat) :
    ((costAdaptedTask t ct).IsPlan π ∧ ∀ ρ, (costAdaptedTask t ct).IsPlan ρ → (costAdaptedTask t ct).planCost π ≤ (costAdaptedTask t ct).planCost ρ) ↔
    (t.IsPlan π ∧ ∀ ρ, t.IsPlan ρ → t.planCostUnder ct π ≤ t.planCostUnder ct ρ) := by
  have hp : ∀ ρ, (costAdaptedTask t ct).IsPlan ρ ↔ t.IsPlan ρ := fun ρ => C44_same_plans ct t.init ρ
  constructor
  · rintro ⟨h1, h2⟩
    have h1' := (hp π).mp h1
    refine ⟨h1', fun ρ hρ => ?_⟩
    rw [← C44_plan_cost ct h1', ← C44_plan_cost ct hρ]
    exact h2 ρ ((hp ρ).mpr hρ)
  · rintro ⟨h1, h2⟩
    refine ⟨(hp π).mpr h1, fun ρ hρ => ?_⟩
    have hρ' := (hp ρ).mp hρ
    rw [C44_plan_cost ct h1, C44_plan_cost ct hρ']
    exact h2 ρ hρ'

/-! ### non-vacuity -/

/-- two operators of cost 0 and 3 -/
def exTask : Task := ⟨[⟨2, none, 0⟩], [⟨[⟨0, 0⟩], [⟨[], ⟨0, 1⟩⟩], 0⟩, ⟨[⟨0, 1⟩], [⟨[], ⟨0, 0⟩⟩], 3⟩], [], [0], [⟨0, 1⟩]⟩

example : costAdaptedOperatorCost exTask .plusone 1 false = some 4 ∧ costAdaptedOperatorCost exTask .one 0 false = some 1 := by decide
example : ∃ o ∈ exTask.ops, o.cost ≠ 1 := ⟨_, List.mem_cons_self, by decide⟩
example : exTask.planCostUnder .plusone [0, 1, 0] = 6 := by decide

end Verif.OperatorCost
