import Verif.Model.TaskWorld
import Verif.Props.SuccGen
import Verif.Props.Registry
import Verif.Lemmas.SearchSpace
import Mathlib.Algebra.BigOperators.Group.List.Basic

/- Paths in the world of a task are executions of the task. -/
namespace Verif.Search
open Verif.OperatorCost

theorem isUnitCost_iff (os : List Operator) : isUnitCost os = true ↔ ∀ o ∈ os, o.cost = 1 := by
  induction os with
  | nil => simp [isUnitCost]
  | cons o os ih =>
    simp only [isUnitCost]
    split
    · rename_i h; simp [h]
    · rename_i h
      rw [ih]
      simp only [List.mem_cons, forall_eq_or_imp]
      constructor
      · intro h'; exact ⟨by omega, h'⟩
      · exact fun h' => h'.2

theorem isUnitCost_eq (t : Task) : isUnitCost t.ops = decide t.unitCost := by
  rw [Bool.eq_iff_iff, isUnitCost_iff, decide_eq_true_iff]
  rfl

theorem adj_eq (t : Task) (u : Nat → Nat → Bool) (ct : CostType) (o : Nat) : (World.ofTask t u ct).adj o = t.costUnder ct o := by
  cases ct <;> simp [World.ofTask, getAdjustedActionCost, adjustedCost, Task.costUnder, isUnitCost_eq]

theorem isGoalState_spec {t : Task} {s : State} (hs : t.ValidState s) : ∀ (fs : List Fact), (∀ f ∈ fs, t.ValidFact f) →
    isGoalState s fs = some (decide (allHold fs s))
  | [], _ => by simp [isGoalState, allHold]
  | f :: fs, h => by
    obtain ⟨d, hd, _⟩ := h f (by simp)
    have hlt : f.var < s.length := by rw [hs.1]; exact (List.getElem?_eq_some_iff.mp hd).1
    simp only [isGoalState, List.getElem?_eq_getElem hlt]
    by_cases hx : s[f.var] = f.val
    · rw [if_neg (by simpa using hx), isGoalState_spec hs fs (fun f hf => h f (by simp [hf]))]
      congr 1
      apply decide_eq_decide.mpr
      have hf : f.holds s := by unfold Fact.holds; rw [List.getElem?_eq_getElem hlt, hx]
      simp [allHold, hf]
    · rw [if_pos hx]
      congr 1
      symm
      apply decide_eq_false
      intro h'
      have := h' f (by simp)
      unfold Fact.holds at this
      rw [List.getElem?_eq_getElem hlt] at this
      exact hx (Option.some.inj this)

variable {t : Task} (hwf : t.WF) (u : Nat → Nat → Bool) (ct : CostType)
include hwf

theorem ofTask_ops {s : State} (hs : t.ValidState s) :
    ∃ l, (World.ofTask t u ct).ops s = some l ∧ ∀ i, i ∈ l ↔ ∃ o : Operator, t.ops[i]? = some o ∧ o.applicable s := by
  obtain ⟨l, h1, _, h3⟩ := SuccGen.C10_successor_generator t hwf.pre u s hs []
  exact ⟨l, by simpa [World.ofTask] using h1, h3⟩

theorem ofTask_succ {s : State} (hs : t.ValidState s) {i : Nat} {o : Operator} (ho : t.ops[i]? = some o) :
    ∃ s', (World.ofTask t u ct).succ s i = some s' ∧ t.ValidState s' ∧ t.SuccRel o s s' := by
  obtain ⟨s', h1, h2, h3⟩ := Registry.unregistered_spec hwf (List.mem_of_getElem? ho) hs
  exact ⟨s', by simp only [World.ofTask, ho]; exact h1, h2, h3⟩

theorem ofTask_total : (World.ofTask t u ct).Total t.ValidState where
  init := hwf.init
  ops s hs := by
    obtain ⟨l, h, _⟩ := ofTask_ops hwf u ct hs
    exact ⟨l, h⟩
  succ s l o hs hl ho := by
    obtain ⟨l', h, h'⟩ := ofTask_ops hwf u ct hs
    rw [hl] at h
    simp only [Option.some.injEq] at h
    subst h
    obtain ⟨op, ho', _⟩ := (h' o).mp ho
    obtain ⟨s', h1, h2, _⟩ := ofTask_succ hwf u ct hs ho'
    exact ⟨s', h1, h2⟩
  goal s hs := ⟨_, isGoalState_spec hs t.goal hwf.goalFacts⟩

theorem ofTask_goal {s : State} (hs : t.ValidState s) : (World.ofTask t u ct).goal s = some true ↔ allHold t.goal s := by
  have : (World.ofTask t u ct).goal s = some (decide (allHold t.goal s)) := isGoalState_spec hs t.goal hwf.goalFacts
  rw [this]; simp

theorem exec_valid {s s' : State} {π : List Nat} (hs : t.ValidState s) (h : t.Exec s π s') : t.ValidState s' := by
  induction h with
  | nil s => exact hs
  | cons s i o s' π u h1 h2 h3 _ ih =>
    refine ih ?_
    obtain ⟨s'', g1, g2, g3⟩ := ofTask_succ hwf (fun _ _ => true) .normal hs h1
    rw [Registry.succRel_unique hwf hs h3 g3]
    exact g2

theorem ofTask_path {s s' : State} {π : List Nat} (hs : t.ValidState s) : (World.ofTask t u ct).Path s π s' ↔ t.Exec s π s' := by
  constructor
  · intro h
    induction h with
    | nil s => exact .nil s
    | cons s o s1 π s2 l h1 h2 h3 _ ih =>
      obtain ⟨l', g1, g2⟩ := ofTask_ops hwf u ct hs
      rw [h1] at g1
      simp only [Option.some.injEq] at g1
      subst g1
      obtain ⟨op, g3, g4⟩ := (g2 o).mp h2
      obtain ⟨s', k1, k2, k3⟩ := ofTask_succ hwf u ct hs g3
      rw [h3] at k1
      simp only [Option.some.injEq] at k1
      subst k1
      exact .cons s o op s1 π s2 g3 g4 k3 (ih k2)
  · intro h
    induction h with
    | nil s => exact .nil s
    | cons s i o s1 π s2 h1 h2 h3 _ ih =>
      obtain ⟨l, g1, g2⟩ := ofTask_ops hwf u ct hs
      obtain ⟨s', k1, k2, k3⟩ := ofTask_succ hwf u ct hs h1
      have := Registry.succRel_unique hwf hs h3 k3
      subst this
      exact .cons s i s1 π s2 l g1 ((g2 i).mpr ⟨o, h1, h2⟩) k1 (ih k2)

theorem ofTask_goalPath {s : State} {π : List Nat} (hs : t.ValidState s) : (World.ofTask t u ct).GoalPath s π ↔ t.SolvesFrom s π := by
  constructor
  · rintro ⟨x, h1, h2⟩
    have h1' := (ofTask_path hwf u ct hs).mp h1
    exact ⟨x, h1', (ofTask_goal hwf u ct (exec_valid hwf hs h1')).mp h2⟩
  · rintro ⟨x, h1, h2⟩
    exact ⟨x, (ofTask_path hwf u ct hs).mpr h1, (ofTask_goal hwf u ct (exec_valid hwf hs h1)).mpr h2⟩

theorem ofTask_isPlan {π : List Nat} : (World.ofTask t u ct).IsPlan π ↔ t.IsPlan π := ofTask_goalPath hwf u ct hwf.init

theorem ofTask_solvable {s : State} (hs : t.ValidState s) : (World.ofTask t u ct).Solvable s ↔ ∃ π, t.SolvesFrom s π :=
  exists_congr fun _ => ofTask_goalPath hwf u ct hs

omit hwf

theorem ofTask_cost (π : List Nat) : pathCost (World.ofTask t u ct).cost π = t.planCost π := rfl

theorem ofTask_adj (π : List Nat) : pathCost (World.ofTask t u ct).adj π = t.planCostUnder ct π := by
  unfold pathCost Task.planCostUnder
  congr 1
  exact List.map_congr_left (fun o _ => adj_eq t u ct o)

/-- all states of a task with the given domain sizes -/
def allStates : List Nat → List State
  | [] => [[]]
  | d :: ds => (List.range d).flatMap (fun x => (allStates ds).map (x :: ·))

theorem mem_allStates : ∀ (ds : List Nat) (s : State), s ∈ allStates ds ↔ s.length = ds.length ∧ ∀ (v x d : Nat), s[v]? = some x → ds[v]? = some d → x < d
  | [], s => by
    simp only [allStates, List.mem_singleton, List.length_nil, List.length_eq_zero_iff]
    constructor
    · rintro rfl; simp
    · exact fun h => h.1
  | d :: ds, s => by
    simp only [allStates, List.mem_flatMap, List.mem_range, List.mem_map]
    constructor
    · rintro ⟨x, hx, s', hs', rfl⟩
      obtain ⟨h1, h2⟩ := (mem_allStates ds s').mp hs'
      refine ⟨by simp [h1], ?_⟩
      intro v y e hv he
      cases v with
      | zero => simp only [List.getElem?_cons_zero, Option.some.injEq] at hv he; omega
      | succ v => simp only [List.getElem?_cons_succ] at hv he; exact h2 v y e hv he
    · rintro ⟨h1, h2⟩
      cases s with
      | nil => simp at h1
      | cons x s =>
        refine ⟨x, h2 0 x d rfl rfl, s, (mem_allStates ds s).mpr ⟨by simpa using h1, ?_⟩, rfl⟩
        intro v y e hv he
        exact h2 (v + 1) y e (by simpa using hv) (by simpa using he)

/-- the states of a task -/
def Task.states (t : Task) : List State := allStates (t.vars.map (·.domain))

theorem mem_states {s : State} : s ∈ Task.states t ↔ t.ValidState s := by
  unfold Task.states Task.ValidState
  rw [mem_allStates]
  simp only [List.length_map, List.getElem?_map, Option.map_eq_some_iff]
  constructor
  · rintro ⟨h1, h2⟩
    exact ⟨h1, fun v x d hx hd => h2 v x _ hx ⟨d, hd, rfl⟩⟩
  · rintro ⟨h1, h2⟩
    refine ⟨h1, ?_⟩
    rintro v x _ hx ⟨d, hd, rfl⟩
    exact h2 v x d hx hd

theorem length_allStates : ∀ (ds : List Nat), (allStates ds).length = ds.prod
  | [] => rfl
  | d :: ds => by
    simp only [allStates, List.length_flatMap, List.length_map, length_allStates ds, List.prod_cons]
    simp

end Verif.Search
