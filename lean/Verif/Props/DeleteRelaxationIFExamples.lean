import Verif.Props.DeleteRelaxationIF

/-
Examples for C83, and a task with axioms for which the constraints are wrong.
-/
namespace Verif.CountingIF
open Verif.LP Verif.Counting Verif.Search

/-- a set of numbers that is bounded below has an element that is minimal up to an error -/
theorem exists_near_min {α : Type} {P : α → Prop} {f : α → Rat} (h : ∃ a, P a) {B : Rat} (hB : ∀ a, P a → B ≤ f a) {err : Rat} (herr : 0 < err) : ∃ a, P a ∧ ∀ b, P b → f a ≤ f b + err := by
  by_contra hn
  push Not at hn
  obtain ⟨a0, h0⟩ := h
  have key : ∀ n : Nat, ∃ a, P a ∧ f a ≤ f a0 - n * err := by
    intro n
    induction n with
    | zero => exact ⟨a0, h0, by simp⟩
    | succ n ih =>
      obtain ⟨a, ha, hle⟩ := ih
      obtain ⟨b, hb, hlt⟩ := hn a ha
      refine ⟨b, hb, ?_⟩
      push_cast
      linarith
  obtain ⟨n, hn⟩ : ∃ n : Nat, (f a0 - B) / err < n := by
    refine ⟨⌈(f a0 - B) / err⌉.toNat + 1, ?_⟩
    have h1 := Int.le_ceil ((f a0 - B) / err)
    have h2 : (⌈(f a0 - B) / err⌉ : Rat) ≤ (⌈(f a0 - B) / err⌉.toNat : Rat) := by exact_mod_cast Int.self_le_toNat _
    push_cast
    linarith
  rw [div_lt_iff₀ herr] at hn
  obtain ⟨a, ha, hle⟩ := key n
  have := hB a ha
  linarith

/-- the contract of the solver can be met -/
theorem exists_mixedSolver {err : Rat} (herr : 0 < err) : ∃ solve, MixedSolver err solve := by
  classical
  have key : ∀ (p : Program) (int : Nat → Bool), ∃ r : Option Rat, (∀ c ∈ p.columns, c.lower ≠ none ∧ 0 ≤ c.objective) →
      (∀ v, r = some v → (∃ x, p.FeasibleMixed int x ∧ p.value x ≤ v + err) ∧ ∀ y, p.FeasibleMixed int y → v ≤ p.value y + err) ∧ (r = none → ¬∃ x, p.FeasibleMixed int x) := by
    intro p int
    by_cases h : ∃ x, p.FeasibleMixed int x
    · by_cases hc : ∀ c ∈ p.columns, c.lower ≠ none ∧ 0 ≤ c.objective
      · obtain ⟨x, hx, hmin⟩ := exists_near_min (f := p.value) h (B := (p.columns.zipIdx.map (fun c => c.1.objective * (c.1.lower.getD 0))).sum) (fun x hx => by
          unfold Program.value
          refine List.sum_le_sum fun c hm => ?_
          have hcm := hc c.1 (List.fst_mem_of_mem_zipIdx hm)
          refine mul_le_mul_of_nonneg_left ?_ hcm.2
          obtain ⟨l, hl⟩ := Option.ne_none_iff_exists'.mp hcm.1
          rw [hl]
          exact (hx.1.columns c.2 c.1 (List.mem_zipIdx_iff_getElem?.mp hm)).1 l hl) herr
        exact ⟨some (p.value x), fun _ => ⟨fun v hv => by
          simp only [Option.some.injEq] at hv
          subst hv
          exact ⟨⟨x, hx, by linarith⟩, hmin⟩, nofun⟩⟩
      · exact ⟨none, fun h => absurd h hc⟩
    · exact ⟨none, fun _ => ⟨nofun, fun _ => h⟩⟩
  choose solve hs using key
  exact ⟨solve, fun p int _ hc _ => hs p int hc⟩

/-- two variables; the goal needs a change of the first variable that must be undone later, which the delete relaxation does not see -/
def exTask : Task where
  vars := [⟨3, none, 0⟩, ⟨2, none, 0⟩]
  ops := [⟨[⟨0, 0⟩], [⟨[], ⟨0, 1⟩⟩], 2⟩, ⟨[⟨0, 1⟩], [⟨[], ⟨1, 1⟩⟩], 3⟩, ⟨[⟨0, 1⟩], [⟨[], ⟨0, 0⟩⟩], 1⟩]
  axioms := []
  init := [0, 0]
  goal := [⟨0, 0⟩, ⟨1, 1⟩]

theorem exTask_supported : Supported exTask := ⟨taskOK_wf (by decide), rfl, by decide⟩

theorem exTask_reach {R : Nat → Prop} {f : Fact} (h : exTask.RelReach R [0, 0] f) : (f = ⟨0, 1⟩ → R 0) ∧ (f = ⟨1, 1⟩ → R 0 ∧ R 1) := by
  induction h with
  | state f h =>
    constructor <;> rintro rfl <;> simp [Fact.holds] at h
  | effect i cs f c he hR _ ih =>
    cases he with
    | op i o e ho he =>
      match i with
      | 0 =>
        simp only [exTask, List.getElem?_cons_zero, Option.some.injEq] at ho
        subst ho
        simp only [List.mem_singleton] at he
        subst he
        exact ⟨fun _ => hR 0 rfl, fun h => by simp at h⟩
      | 1 =>
        simp only [exTask, List.getElem?_cons_succ, List.getElem?_cons_zero, Option.some.injEq] at ho
        subst ho
        simp only [List.mem_singleton] at he
        subst he
        exact ⟨fun h => by simp at h, fun _ => ⟨(ih ⟨0, 1⟩ (by simp)).1 rfl, hR 1 rfl⟩⟩
      | 2 =>
        simp only [exTask, List.getElem?_cons_succ, List.getElem?_cons_zero, Option.some.injEq] at ho
        subst ho
        simp only [List.mem_singleton] at he
        subst he
        exact ⟨fun h => by simp at h, fun h => by simp at h⟩
      | n + 3 => simp [exTask] at ho
    | ax a e ha _ => simp [exTask] at ha

theorem exTask_hplus : exTask.HplusLe [0, 0] 5 ∧ ∀ m, exTask.HplusLe [0, 0] m → 5 ≤ m := by
  constructor
  · have h1 : exTask.RelReach (· ∈ [0, 1]) [0, 0] ⟨0, 1⟩ := .effect (some 0) _ _ 2 (.op 0 ⟨[⟨0, 0⟩], [⟨[], ⟨0, 1⟩⟩], 2⟩ ⟨[], ⟨0, 1⟩⟩ rfl (by simp)) (by simp) (by
      intro q hq
      simp only [List.append_nil, List.mem_singleton] at hq
      subst hq
      exact .state _ rfl)
    refine ⟨[0, 1], by decide, by decide, ?_, by decide⟩
    intro g hg
    simp only [exTask, List.mem_cons, List.not_mem_nil, or_false] at hg
    rcases hg with rfl | rfl
    · exact .state _ rfl
    · refine .effect (some 1) _ _ 3 (.op 1 ⟨[⟨0, 1⟩], [⟨[], ⟨1, 1⟩⟩], 3⟩ ⟨[], ⟨1, 1⟩⟩ rfl (by simp)) (by simp) ?_
      intro q hq
      simp only [List.append_nil, List.mem_singleton] at hq
      subst hq
      exact h1
  · rintro m ⟨R, h1, h2, h3, h4⟩
    obtain ⟨k0, k1⟩ := (exTask_reach (h3 ⟨1, 1⟩ (by simp [exTask]))).2 rfl
    have hsub : List.Subperm [0, 1] R := List.Nodup.subperm (by decide) (by
      intro i hi
      simp only [List.mem_cons, List.not_mem_nil, or_false] at hi
      rcases hi with rfl | rfl
      · exact k0
      · exact k1)
    obtain ⟨l, hl1, hl2⟩ := hsub
    have h5 : (l.map exTask.opCost).sum = 5 := by
      rw [(hl1.map exTask.opCost).sum_eq]
      rfl
    have h6 := List.Sublist.sum_le_sum (hl2.map exTask.opCost) (fun _ _ => Nat.zero_le _)
    omega

/-- the hypotheses can be met, and the heuristic is not trivial: whatever has been evaluated before, the value of the initial state is 5 = h^+ -/
example : (∃ solve, MixedSolver (1 / 200) solve) ∧ ∀ solve, MixedSolver (1 / 200) solve → ∃ obj obj' obj'', create exTask .cplex true true true = some obj ∧ compute exTask solve true true [1, 1] obj = some (some 1, obj') ∧ compute exTask solve true true [0, 0] obj' = some (some 5, obj'') := by
  refine ⟨exists_mixedSolver (by norm_num), fun solve hsolve => ?_⟩
  obtain ⟨obj, h0⟩ := C83_created exTask .cplex true true true nofun
  have hr : Reached exTask .cplex true true true solve obj := ⟨obj, [], h0, by simp, rfl⟩
  have hconds : ∀ o ∈ exTask.ops, ∀ e ∈ o.effects, e.conds = [] := by decide
  obtain ⟨obj', h1⟩ := (C83_hplus exTask_supported (by norm_num) hsolve hconds hr (s := [1, 1]) (stateOK_spec (by decide))).1 1 (by
    refine ⟨[2], by decide, by decide, ?_, by decide⟩
    intro g hg
    simp only [exTask, List.mem_cons, List.not_mem_nil, or_false] at hg
    rcases hg with rfl | rfl
    · refine .effect (some 2) _ _ 1 (.op 2 ⟨[⟨0, 1⟩], [⟨[], ⟨0, 0⟩⟩], 1⟩ ⟨[], ⟨0, 0⟩⟩ rfl (by simp)) (by simp) ?_
      intro q hq
      simp only [List.append_nil, List.mem_singleton] at hq
      subst hq
      exact .state _ rfl
    · exact .state _ rfl) (by
    rintro m ⟨R, k1, k2, k3, k4⟩
    by_contra hm
    have hm : m = 0 := by omega
    subst hm
    have hpos : ∀ i < exTask.ops.length, 1 ≤ exTask.opCost i := by decide
    cases R with
    | nil =>
      have hno : ∀ f, exTask.RelReach (· ∈ ([] : List Nat)) [1, 1] f → f.holds [1, 1] := by
        intro f hf
        induction hf with
        | state f hf => exact hf
        | effect i cs f c he hR _ _ =>
          cases he with
          | op i o e ho _ => exact absurd (hR i rfl) (by simp)
          | ax a e ha _ => simp [exTask] at ha
      have := hno _ (k3 ⟨0, 0⟩ (by simp [exTask]))
      simp [Fact.holds] at this
    | cons i R =>
      have := hpos i (k2 i (by simp))
      simp only [List.map_cons, List.sum_cons] at k4
      omega) (by omega)
  have hr' : Reached exTask .cplex true true true solve obj' := ⟨obj, [[1, 1]], h0, by
    intro s hs
    obtain rfl := List.mem_singleton.mp hs
    exact stateOK_spec (by decide), by
    rw [computeAll, h1]
    rfl⟩
  obtain ⟨obj'', h2⟩ := (C83_hplus exTask_supported (by norm_num) hsolve hconds hr' (s := [0, 0]) (stateOK_spec (by decide))).1 5 exTask_hplus.1 exTask_hplus.2 (by omega)
  exact ⟨obj, obj', obj'', h0, h1, h2⟩

/-- a step as in the theorems about consistency -/
example : exTask.ops[0]? = some ⟨[⟨0, 0⟩], [⟨[], ⟨0, 1⟩⟩], 2⟩ ∧ (⟨[⟨0, 0⟩], [⟨[], ⟨0, 1⟩⟩], 2⟩ : Operator).applicable [0, 0] ∧ exTask.SuccRel ⟨[⟨0, 0⟩], [⟨[], ⟨0, 1⟩⟩], 2⟩ [0, 0] [1, 0] := by
  refine ⟨rfl, by decide, ?_⟩
  obtain ⟨s', h1, _, h3⟩ := Registry.unregistered_spec exTask_supported.wf (o := ⟨[⟨0, 0⟩], [⟨[], ⟨0, 1⟩⟩], 2⟩) (by decide) exTask_supported.wf.init
  have : Registry.unregisteredSuccessor exTask exTask.init ⟨[⟨0, 0⟩], [⟨[], ⟨0, 1⟩⟩], 2⟩ = some [1, 0] := by decide +kernel
  rw [this] at h1
  simp only [Option.some.injEq] at h1
  exact h1 ▸ h3

/-! ### Tasks with axioms -/

/-- a variable `x` and a derived variable (true iff `x = 1`) that is the goal -/
def axTask : Task where
  vars := [⟨2, none, 0⟩, ⟨2, some 0, 0⟩]
  ops := [⟨[], [⟨[], ⟨0, 1⟩⟩], 1⟩]
  axioms := [⟨[], [⟨[⟨0, 1⟩], ⟨1, 1⟩⟩], 0⟩]
  init := [0, 0]
  goal := [⟨1, 1⟩]

theorem axTask_wf : axTask.WF := by
  have hr : axTask.rules = [⟨[⟨0, 1⟩], ⟨1, 1⟩⟩] := rfl
  refine ⟨⟨?_, ?_, ?_, ?_, ?_, ?_, ?_, ?_, ?_, ?_⟩, ?_, ?_, ?_, ?_, ?_, ?_⟩
  · intro a ha; simp [axTask] at ha; subst ha; simp
  · rw [hr]; simp [Task.layerOf, axTask]
  · rw [hr]; simp [Task.defaultOf, axTask]
  · rw [hr]; simp
  · rw [hr]; simp [Task.ValidFact, axTask]
  · rw [hr]; simp [Task.ValidFact, axTask]
  · simp [axTask]
  · intro v d hv _
    match v with
    | 0 => simp [axTask] at hv; subst hv; simp
    | 1 => simp [axTask] at hv; subst hv; simp
    | n + 2 => simp [axTask] at hv
  · rw [hr]; simp [Task.layerOf, axTask]
  · rw [hr]; simp [Task.layerOf, axTask]
  · simp [axTask]
  · exact stateOK_spec (by decide)
  · simp [axTask, Task.ValidFact]
  · simp [axTask]
  · simp [axTask]
  · simp [axTask, Task.ValidFact]

/-- C83: the condition that there are no axioms is needed (the documentation says that they are not supported, but the code does not check it): for a task with an axiom and a plan of one operator, every solver that meets its contract
makes the heuristic return DEAD_END for the initial state. -/
theorem C83_axioms_fails : axTask.WF ∧ axTask.SolvesFrom axTask.init [0] ∧
    ∀ (kind : SolverType) (time intCounts intVars : Bool) (solve : Program → (Nat → Bool) → Option Rat) (err : Rat), err < 1 / 100 → MixedSolver err solve →
      ∀ obj, create axTask kind time intCounts intVars = some obj → ∃ obj', compute axTask solve intCounts intVars axTask.init obj = some (none, obj') := by
  refine ⟨axTask_wf, ?_, ?_⟩
  · obtain ⟨s', h1, _, h3⟩ := Registry.unregistered_spec axTask_wf (o := ⟨[], [⟨[], ⟨0, 1⟩⟩], 1⟩) (by decide) axTask_wf.init
    have : Registry.unregisteredSuccessor axTask axTask.init ⟨[], [⟨[], ⟨0, 1⟩⟩], 1⟩ = some [1, 1] := by decide +kernel
    rw [this] at h1
    simp only [Option.some.injEq] at h1
    subst h1
    exact ⟨[1, 1], .cons _ 0 _ _ _ _ rfl (by simp [Operator.applicable, allHold]) h3 (.nil _), by decide⟩
  · intro kind time intCounts intVars solve err herr hsolve obj hobj
    have hno : ∀ x, ¬axTask.IFCounts time intCounts intVars axTask.init x := by
      rintro x ⟨_, y, h, _⟩
      have h1 := h.goal ⟨1, 1⟩ (by simp [axTask])
      have h2 := h.achieved ⟨1, 1⟩ ⟨_, rfl, by decide⟩ (by decide)
      rw [h1] at h2
      have h3 : ¬ (⟨[], [⟨[], ⟨0, 1⟩⟩], 1⟩ : Operator).produces ⟨1, 1⟩ := by decide
      simp [axTask, h3] at h2
      linarith
    have h1 := (compute_ok herr hsolve axTask_wf (by decide) (intCounts := intCounts) (intVars := intVars) axTask_wf.init (create_ok hobj)).1
    cases hr : compute axTask solve intCounts intVars axTask.init obj with
    | none =>
      rw [hr] at h1
      obtain ⟨v, ⟨⟨x, hx, _⟩, _⟩, _⟩ := h1
      exact absurd hx (hno x)
    | some r =>
      obtain ⟨v, obj'⟩ := r
      cases v with
      | none => exact ⟨obj', rfl⟩
      | some k =>
        rw [hr] at h1
        obtain ⟨v, ⟨⟨x, hx, _⟩, _⟩, _⟩ := h1
        exact absurd hx (hno x)

end Verif.CountingIF
