import Verif.Props.OperatorCounting

/-
C64: two LM-cut generators with SoPlex, and examples.
-/
namespace Verif.Counting
open Verif.LP Verif.AdaptiveQueue Verif.Pdb Verif.Search

/-! ### Temporary constraints of the interface to SoPlex -/

/-- one operator of cost 1 achieves the goal -/
def exStep : Task where
  vars := [⟨2, none, 0⟩]
  ops := [⟨[], [⟨[], ⟨0, 1⟩⟩], 1⟩]
  axioms := []
  init := [0]
  goal := [⟨0, 1⟩]

theorem exStep_ok : exStep.LmCutOk := ⟨taskOK_wf (by decide), rfl, by decide, by decide, by decide, by decide⟩

theorem exStep_goal : exStep.ValidState [1] := by
  apply stateOK_spec
  decide

theorem exStep_plan : exStep.SolvesFrom [0] [0] := execOK_spec exStep_ok.wf _ _ exStep_ok.wf.init (by decide)

/-- the landmarks of the initial state -/
theorem exStep_landmarks {ls : List CostedSet} (h : exStep.LandmarksOk [0] ls) : ls = [([some 0], 1)] := by
  have hplan := LmCut.relaxed_of_solves exStep_ok.wf rfl exStep_plan
  have h1 : ∀ l ∈ ls, l.1 = [some 0] := by
    intro l hl
    obtain ⟨hn, ho⟩ := h.ops l hl
    obtain ⟨i, hi, hi'⟩ := h.landmark l hl _ hplan
    simp only [List.mem_singleton] at hi'
    subst hi'
    have hall : ∀ x ∈ l.1, x = some 0 := by
      intro x hx
      obtain ⟨i, o, rfl, h2, _⟩ := ho x hx
      rcases i with _ | i
      · rfl
      · simp [exStep] at h2
    have hrep := List.eq_replicate_of_mem hall
    rw [hrep] at hn
    have hlen : l.1.length ≤ 1 := List.nodup_replicate.mp hn
    have hpos : 0 < l.1.length := List.length_pos_of_mem hi
    rw [hrep, show l.1.length = 1 by omega]
    rfl
  have h2 : charged ls 0 = (ls.map (·.2)).sum := by
    unfold charged
    rw [List.filter_eq_self.mpr (fun l hl => by simp [h1 l hl])]
  have h3 := h.partition 0 ⟨[], [⟨[], ⟨0, 1⟩⟩], 1⟩ rfl
  rw [h2] at h3
  simp only at h3
  cases ls with
  | nil =>
    exfalso
    have h4 := h.rest ⟨0, 1⟩ (by simp [exStep, Task.withCosts])
    have hc : (fun i => exStep.opCost i - charged [] i) = exStep.opCost := by funext i; simp [charged]
    rw [hc, LmCut.withCosts_self] at h4
    cases h4 with
    | state _ _ hs => simp [Fact.holds] at hs
    | effect i cs f c m n hr _ hm =>
      have hrel : ∀ i cs f c, exStep.RelEffect i cs f c → c = 1 := by
        intro i cs f c hr
        cases hr with
        | op i o e ho he =>
          rcases i with _ | i
          · simp [exStep] at ho
            rw [← ho]
          · simp [exStep] at ho
        | ax a e ha => simp [exStep] at ha
      have := hrel _ _ _ _ hr
      omega
  | cons l ls =>
    have h4 := h.pos l (by simp)
    simp only [List.map_cons, List.sum_cons] at h3
    cases ls with
    | nil =>
      have h5 := h1 l (by simp)
      obtain ⟨a, b⟩ := l
      simp only at h5 h4 h3
      subst h5
      have : b = 1 := by simp at h3; omega
      rw [this]
    | cons l' ls =>
      have h5 := h.pos l' (by simp)
      simp only [List.map_cons, List.sum_cons] at h3
      omega

/-- goal states have no landmarks -/
theorem exStep_no_landmarks {ls : List CostedSet} (h : exStep.LandmarksOk [1] ls) : ls = [] := by
  cases ls with
  | nil => rfl
  | cons l ls =>
    have hplan : exStep.IsRelaxedPlan (· ∈ ([] : List Nat)) [1] := LmCut.relaxed_of_solves exStep_ok.wf rfl (π := []) ⟨[1], .nil _, by decide⟩
    obtain ⟨i, _, hi⟩ := h.landmark l (by simp) _ hplan
    simp at hi

/-- C64 fails for SoPlex with two LM-cut generators: the interface removes only the temporary rows of the last call that added some, so landmarks of states that were
evaluated before stay in the linear program.  In the example the value of the goal state is 1 after the initial state has been evaluated. -/
theorem C64_soplex_two_lmcut_fails (H : StdHeap Nat) {solve : Program → Bool → Option Rat} (hsolve : MinSolver 0 solve) :
    Supports exStep .lmcut ∧ exStep.ValidState [1] ∧ allHold exStep.goal [1] ∧
    ∃ obj, Reached H exStep .soplex false [.lmcut, .lmcut] solve obj ∧ ∃ obj', compute H exStep solve false [1] obj = some (some 1, obj') := by
  refine ⟨exStep_ok, exStep_goal, by decide, ?_⟩
  have hwf := exStep_ok.wf
  have hrow : landmarkRow ([some 0], 1) = some ⟨some 1, none, [(0, 1)]⟩ := rfl
  have hlm0 : ∀ st, (∃ bag, Rep st.queue bag) → ∃ st', LmCut.landmarks H exStep [0] st = some (some [([some 0], 1)], st') ∧ ∃ bag, Rep st'.queue bag := by
    intro st hst
    obtain ⟨r, st', k1, k2, k3, k4⟩ := LmCut.landmarks_result H exStep_ok (s := [0]) hwf.init hst
    cases r with
    | none =>
      refine absurd (fun g hg => ?_) k3
      obtain ⟨n, hn⟩ := Relax.hmax_of_reach (LmCut.relaxed_of_solves hwf rfl exStep_plan g hg)
      exact Relax.reach_of_hmax hn
    | some ls => exact ⟨st', by rw [k1, exStep_landmarks k3], [], k2⟩
  have hlm1 : ∀ st, (∃ bag, Rep st.queue bag) → ∃ st', LmCut.landmarks H exStep [1] st = some (some [], st') ∧ ∃ bag, Rep st'.queue bag := by
    intro st hst
    obtain ⟨r, st', k1, k2, k3, k4⟩ := LmCut.landmarks_result H exStep_ok (s := [1]) exStep_goal hst
    cases r with
    | none =>
      refine absurd (fun g hg => ?_) k3
      obtain ⟨n, hn⟩ := Relax.hmax_of_reach (LmCut.relaxed_of_solves hwf rfl (π := []) ⟨[1], .nil _, by decide⟩ g hg)
      exact Relax.reach_of_hmax hn
    | some ls => exact ⟨st', by rw [k1, exStep_no_landmarks k3], [], k2⟩
  -- the linear program with at least one landmark
  have hprog : ∀ n : Nat, solve ⟨false, [⟨some 0, none, 1⟩], List.replicate (n + 1) ⟨some 1, none, [(0, 1)]⟩⟩ false = some 1 := by
    intro n
    have hcon := hsolve ⟨false, [⟨some 0, none, 1⟩], List.replicate (n + 1) ⟨some 1, none, [(0, 1)]⟩⟩ false ⟨rfl, by
        intro c hc
        simp only [List.mem_singleton] at hc
        subst hc
        exact ⟨rfl, rfl, 1, by norm_num⟩⟩ (by
        intro r hr
        obtain ⟨_, rfl⟩ := List.mem_replicate.mp hr
        simp)
    have hfeas : ∀ x : Nat → Rat, (⟨false, [⟨some 0, none, 1⟩], List.replicate (n + 1) ⟨some 1, none, [(0, 1)]⟩⟩ : Program).FeasibleInt false x ↔ 1 ≤ x 0 := by
      intro x
      constructor
      · rintro ⟨⟨_, h⟩, _⟩
        have := (h ⟨some 1, none, [(0, 1)]⟩ (by simp [List.mem_replicate])).1 1 rfl
        simpa [Row.value] using this
      · intro h
        refine ⟨⟨?_, ?_⟩, by simp⟩
        · intro i c hc
          rcases i with _ | i
          · simp only [List.getElem?_cons_zero, Option.some.injEq] at hc
            subst hc
            refine ⟨?_, by simp⟩
            intro l hl
            simp only [Option.some.injEq] at hl
            rw [← hl]
            linarith
          · simp at hc
        · intro r hr
          obtain ⟨_, rfl⟩ := List.mem_replicate.mp hr
          refine ⟨?_, by simp⟩
          intro l hl
          simp only [Option.some.injEq] at hl
          rw [← hl]
          simpa [Row.value] using h
    have hval : ∀ x : Nat → Rat, (⟨false, [⟨some 0, none, 1⟩], List.replicate (n + 1) ⟨some 1, none, [(0, 1)]⟩⟩ : Program).value x = x 0 := by
      intro x
      simp [Program.value]
    cases hv : solve ⟨false, [⟨some 0, none, 1⟩], List.replicate (n + 1) ⟨some 1, none, [(0, 1)]⟩⟩ false with
    | none => exact absurd ⟨fun _ => 1, (hfeas _).mpr (le_refl _)⟩ (hcon.2 hv)
    | some v =>
      obtain ⟨⟨x, h1, h2⟩, h3⟩ := hcon.1 v hv
      rw [hval] at h2
      have h4 := (hfeas x).mp h1
      have h5 := h3 (fun _ => 1) ((hfeas _).mpr (le_refl _))
      rw [hval] at h5
      congr 1
      linarith
  have hceil : ⌈(1 : Rat) - 1 / 100⌉ = 1 := by norm_num
  have hcols : exStep.ops.map (fun o => (⟨some 0, none, (o.cost : Rat)⟩ : Column)) = [⟨some 0, none, 1⟩] := by
    simp [exStep]
  -- construction
  have hcreate : create H exStep .soplex false [.lmcut, .lmcut] = some ⟨[.lmcut LmCut.St.init, .lmcut LmCut.St.init], ⟨.soplex, [⟨some 0, none, 1⟩], [], 0, 0⟩⟩ := by
    have hc : exStep.axioms = [] ∧ ∀ o ∈ exStep.ops, ∀ e ∈ o.effects, e.conds = [] := ⟨rfl, exStep_ok.conds⟩
    unfold create
    rw [if_neg (by simp)]
    have h1 : ∀ rows, initGen H exStep rows .lmcut = some (.lmcut LmCut.St.init, rows) := by
      intro rows
      simp only [initGen]
      rw [if_pos hc]
    simp only [initGens, h1, Option.map_some, Solver.load, hcols, List.length_nil]
  -- the initial state
  have hinit : ∃ a b, (∃ bag, Rep a.queue bag) ∧ (∃ bag, Rep b.queue bag) ∧ compute H exStep solve false [0] ⟨[.lmcut LmCut.St.init, .lmcut LmCut.St.init], ⟨.soplex, [⟨some 0, none, 1⟩], [], 0, 0⟩⟩ =
      some (some 1, ⟨[.lmcut a, .lmcut b], ⟨.soplex, [⟨some 0, none, 1⟩], [⟨some 1, none, [(0, 1)]⟩], 0, 0⟩⟩) := by
    obtain ⟨a, a1, a2⟩ := hlm0 LmCut.St.init ⟨[], Rep.new⟩
    refine ⟨a, a, a2, a2, ?_⟩
    have hp := hprog 1
    simp only [List.replicate] at hp
    unfold compute
    simp only [Solver.hasTemporary, gt_iff_lt, lt_self_iff_false, decide_false, Bool.false_eq_true, if_false, updateGens, updateGen, a1]
    simp only [List.mapM_cons, hrow, List.mapM_nil, Option.pure_def, Option.bind_eq_bind, Option.bind_some, Option.map_some, Solver.addTemporary, List.nil_append, Solver.program, List.cons_append, hp, hceil]
    simp [Solver.clearTemporary]
  obtain ⟨a, b, ha, hb, hab⟩ := hinit
  refine ⟨⟨[.lmcut a, .lmcut b], ⟨.soplex, [⟨some 0, none, 1⟩], [⟨some 1, none, [(0, 1)]⟩], 0, 0⟩⟩, ⟨_, [[0]], hcreate, ?_, ?_⟩, ?_⟩
  · intro s hs
    simp only [List.mem_singleton] at hs
    subst hs
    exact hwf.init
  · simp only [computeAll, hab]
  · obtain ⟨a', a1, a2⟩ := hlm1 a ha
    obtain ⟨b', b1, b2⟩ := hlm1 b hb
    refine ⟨⟨[.lmcut a', .lmcut b'], ⟨.soplex, [⟨some 0, none, 1⟩], [⟨some 1, none, [(0, 1)]⟩], 0, 0⟩⟩, ?_⟩
    have hp := hprog 0
    simp only [List.replicate] at hp
    unfold compute
    simp only [Solver.hasTemporary, gt_iff_lt, lt_self_iff_false, decide_false, Bool.false_eq_true, if_false, updateGens, updateGen, a1, b1]
    simp only [List.mapM_nil, Option.pure_def, Option.map_some, Solver.addTemporary, List.append_nil, Solver.program, hp, hceil]
    simp [Solver.clearTemporary]

/-! ### Example -/

/-- a truck (at A or B) and a package (at A, at B or in the truck) that has to be brought from A to B -/
def exTruck : Task where
  vars := [⟨2, none, 0⟩, ⟨3, none, 0⟩]
  ops := [⟨[⟨0, 0⟩], [⟨[], ⟨0, 1⟩⟩], 1⟩, ⟨[⟨0, 1⟩], [⟨[], ⟨0, 0⟩⟩], 1⟩, ⟨[⟨0, 0⟩, ⟨1, 0⟩], [⟨[], ⟨1, 2⟩⟩], 1⟩, ⟨[⟨0, 1⟩, ⟨1, 2⟩], [⟨[], ⟨1, 1⟩⟩], 1⟩]
  axioms := []
  init := [0, 0]
  goal := [⟨1, 1⟩]

theorem exTruck_cost (i : Nat) : exTruck.opCost i ≤ 1 := by
  rcases i with _ | _ | _ | _ | i <;> simp [Task.opCost, exTruck]

theorem exTruck_supports : ∀ g ∈ [Gen.stateEquation, .lmcut, .pho [[1], [0, 1]]], Supports exTruck g := by
  intro g hg
  simp only [List.mem_cons, List.not_mem_nil, or_false] at hg
  rcases hg with rfl | rfl | rfl
  · exact ⟨taskOK_wf (by decide), rfl, by decide, ⟨by decide, by decide⟩, by decide⟩
  · exact ⟨taskOK_wf (by decide), rfl, by decide, by decide, by decide, by decide⟩
  · refine ⟨⟨taskOK_wf (by decide), rfl, by decide, by decide, by decide, by decide⟩, ?_⟩
    intro P hP
    simp only [List.mem_cons, List.not_mem_nil, or_false] at hP
    rcases hP with rfl | rfl
    · exact ⟨⟨by decide, by decide⟩, by decide, by decide, 1, exTruck_cost, by decide⟩
    · exact ⟨⟨by decide, by decide⟩, by decide, by decide, 1, exTruck_cost, by decide⟩

theorem exTruck_config : Config exTruck .soplex false [.stateEquation, .lmcut, .pho [[1], [0, 1]]] := ⟨by simp, exTruck_supports, fun _ => rfl, .inr (by decide)⟩

theorem exTruck_plan : exTruck.SolvesFrom [0, 0] [2, 0, 3] := execOK_spec (taskOK_wf (by decide)) _ _ (taskOK_wf (t := exTruck) (by decide)).init (by decide)

/-- the perfect heuristic -/
def exTruckValue (a b : Nat) : Nat := if b = 1 then 0 else if b = 2 then (if a = 1 then 1 else 2) else if a = 1 then 4 else 3

theorem exTruck_value {s u : State} {π : List Nat} (h : exTruck.Exec s π u) : ∀ a b, s = [a, b] → a < 2 → b < 3 → allHold exTruck.goal u → exTruckValue a b ≤ exTruck.planCost π := by
  have hwf : exTruck.WF := taskOK_wf (by decide)
  induction h with
  | nil s =>
    rintro a b rfl ha hb hg
    have : b = 1 := by simpa [allHold, exTruck, Fact.holds] using hg
    simp [exTruckValue, this]
  | cons s i o s' π u k1 k2 k3 k4 ih =>
    rintro a b rfl ha hb hg
    have key : ∀ a < 2, ∀ b < 3, ∀ o ∈ exTruck.ops, o.applicable [a, b] → (o.assigned [a, b] 0).getD a < 2 ∧ (o.assigned [a, b] 1).getD b < 3 ∧ exTruckValue a b ≤ 1 + exTruckValue ((o.assigned [a, b] 0).getD a) ((o.assigned [a, b] 1).getD b) := by decide
    obtain ⟨j1, j2, j3⟩ := key a ha b hb o (List.mem_of_getElem? k1) k2
    have e0 := Mas.succ_value hwf rfl k3 (v := 0) (x := a) rfl
    have e1 := Mas.succ_value hwf rfl k3 (v := 1) (x := b) rfl
    have hlen : s'.length = 2 := by
      obtain ⟨m, m1, m2⟩ := k3
      rw [m2.length, m1.1]
      rfl
    have hs' : s' = [(o.assigned [a, b] 0).getD a, (o.assigned [a, b] 1).getD b] := by
      match s', hlen, e0, e1 with
      | [x, y], _, e0, e1 => simpa using And.intro e0 e1
    have := ih _ _ hs' j1 j2 hg
    have hcost : exTruck.opCost i = 1 := by
      unfold Task.opCost
      rw [k1]
      have : ∀ o ∈ exTruck.ops, o.cost = 1 := by decide
      simp [this o (List.mem_of_getElem? k1)]
    simp only [Task.planCost, List.map_cons, List.sum_cons, hcost] at this ⊢
    omega

/-- the hypotheses can be met, and the heuristic is not trivial: for every LP solver that meets its contract, the value of the initial state is 3, the cost of a plan -/
example (H : StdHeap Nat) : (∃ solve, MinSolver 0 solve) ∧ ∀ solve, MinSolver 0 solve → ∃ obj obj', create H exTruck .soplex false [.stateEquation, .lmcut, .pho [[1], [0, 1]]] = some obj ∧ compute H exTruck solve false exTruck.init obj = some (some 3, obj') := by
  refine ⟨exists_minSolver, fun solve hsolve => ?_⟩
  obtain ⟨obj, h1⟩ := C64_created exTruck_config H
  have hr : Reached H exTruck .soplex false [.stateEquation, .lmcut, .pho [[1], [0, 1]]] solve obj := ⟨obj, [], h1, by simp, rfl⟩
  have hinit : exTruck.ValidState exTruck.init := (taskOK_wf (t := exTruck) (by decide)).init
  obtain ⟨k, obj', h2, h3⟩ := C64_admissible_partial exTruck_config (by norm_num) hsolve hr hinit exTruck_plan (by decide)
  have h4 := C64_dominates exTruck_config (by norm_num) hsolve hr hinit h2
  refine ⟨obj, obj', h1, ?_⟩
  have h5 : (exTruck.planCost [2, 0, 3] : Int) = 3 := rfl
  rw [h5] at h3
  -- the pattern with both variables gives 3
  obtain ⟨n, hn, hnk⟩ := h4.2.1 _ [0, 1] (List.mem_cons_of_mem _ (List.mem_cons_of_mem _ (List.mem_singleton.mpr rfl))) (by simp)
  obtain ⟨⟨π, ⟨u, p1, p2⟩, p3⟩, _⟩ := hn
  rw [show exTruck.project [0, 1] = exTruck by decide] at p1 p2
  have h6 := exTruck_value p1 0 0 rfl (by omega) (by omega) p2
  have h7 : exTruckValue 0 0 = 3 := rfl
  rw [h7] at h6
  have h8 : exTruck.planCost π = n := p3
  have : k = 3 := by omega
  rw [h2, this]

/-- a plan for each state -/
def exTruckPlan (a b : Nat) : List Nat := if b = 1 then [] else if b = 2 then (if a = 1 then [3] else [0, 3]) else if a = 1 then [1, 2, 0, 3] else [2, 0, 3]

/-- the hypotheses of the theorem on A* can be met -/
example : (∀ s lm, exTruck.ValidState s → (∀ j, [Gen.stateEquation, .lmcut, .pho [[1], [0, 1]]][j]? = some Gen.lmcut → LmOk exTruck s (lm j)) → (∃ x, Feasible exTruck s [.stateEquation, .lmcut, .pho [[1], [0, 1]]] lm false x) →
      ∃ x, Feasible exTruck s [.stateEquation, .lmcut, .pho [[1], [0, 1]]] lm false x ∧ exTruck.countCost x ≤ 2 ^ 30 - 1) ∧ exTruck.FitsTypes .normal ∧ ∀ i, exTruck.opCost i < 2 ^ 29 := by
  refine ⟨fun s lm hs hlm _ => ?_, ?_, fun i => by have := exTruck_cost i; omega⟩
  · have hwf : exTruck.WF := taskOK_wf (by decide)
    obtain ⟨a, b, rfl, ha, hb⟩ : ∃ a b, s = [a, b] ∧ a < 2 ∧ b < 3 := by
      match s, hs.1, hs.2 with
      | [a, b], _, h => exact ⟨a, b, rfl, h 0 a _ rfl rfl, h 1 b _ rfl rfl⟩
    have key : ∀ a < 2, ∀ b < 3, execOK exTruck [a, b] (exTruckPlan a b) = true ∧ exTruck.planCost (exTruckPlan a b) ≤ 4 := by decide
    obtain ⟨k1, k2⟩ := key a ha b hb
    have hsol : exTruck.SolvesFrom [a, b] (exTruckPlan a b) := execOK_spec hwf _ _ hs k1
    obtain ⟨f1, f2⟩ := C64_plans hs exTruck_supports hlm false hsol
    refine ⟨_, f1, ?_⟩
    rw [f2]
    have : (exTruck.planCost (exTruckPlan a b) : Rat) ≤ 4 := by exact_mod_cast k2
    norm_num
    linarith
  · refine ⟨1, fun i => ⟨exTruck_cost i, ?_⟩, by decide⟩
    exact exTruck_cost i

end Verif.Counting
