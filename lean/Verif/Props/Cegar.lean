import Verif.Lemmas.CartSubtask
import Verif.Props.Saturation

/-
C60: counterexample-guided refinement of Cartesian abstractions.  C41: additive Cartesian heuristics for the subtasks of the task.
-/
namespace Verif.Cart
open Verif.AdaptiveQueue

variable {t : Task}

theorem bounded_ops {C : Nat} (hC : ∀ o ∈ t.ops, o.cost ≤ C) : Bounded (t.ops.map (·.cost)) C := by
  intro c hc _
  obtain ⟨o, ho, rfl⟩ := List.mem_map.mp hc
  exact hC o ho

theorem seqCost_ops {π : List Nat} : seqCost (t.ops.map (·.cost)) π = t.planCost π := by
  unfold seqCost Task.planCost
  congr 1
  exact List.map_congr_left (fun op _ => costAt_ops)

theorem plan_ops {π : List Nat} {s u : State} (h : t.Exec s π u) : ∀ op ∈ π, op < t.ops.length := by
  induction h with
  | nil => simp
  | cons s i o s' π u ho _ _ _ ih =>
    intro op hop
    rcases List.mem_cons.mp hop with rfl | hop
    · exact (List.getElem?_eq_some_iff.mp ho).1
    · exact ih op hop

/-- C60: the refinement of the abstraction never fails, for all limits and all choices of splits.  The number of abstract states is limited.  If the refinement ends since an abstract solution is
found to be a plan, the plan has minimal cost.  If it ends since the abstraction has no solution, the task has no plan. -/
theorem C60_outcome (H : StdHeap Nat) (ht : CartesianTask t) {C maxStates : Nat} (hC : ∀ o ∈ t.ops, o.cost ≤ C) (hCb : C < 2 ^ 31 - 1) (hN : 2 * max 1 maxStates * C < 2 ^ 31 - 1) (sched : Schedule) :
    ∃ a o, cegar H t maxStates sched (t.ops.map (·.cost)) = some (a, o) ∧ a.states.length ≤ max 1 maxStates ∧
      (∀ π, o = .solved π → t.IsPlan π ∧ ∀ π', t.IsPlan π' → t.planCost π ≤ t.planCost π') ∧ (o = .unsolvable → ∀ π, ¬ t.IsPlan π) := by
  have hinf : infinite = 2 ^ 31 - 1 := rfl
  have hle : ∀ c ∈ t.ops.map (·.cost), c ≤ infinite := by intro c hc; obtain ⟨o, ho, rfl⟩ := List.mem_map.mp hc; have := hC o ho; omega
  have hfin : ∀ op, op < t.ops.length → costAt (t.ops.map (·.cost)) op < infinite := by
    intro op ho
    unfold costAt
    rw [List.getElem?_eq_getElem (by simpa using ho)]
    have := hC t.ops[op] (List.getElem_mem _)
    simp
    omega
  obtain ⟨a, o, h1, h2, _⟩ := cegar_spec H ht (by simp) hle (bounded_ops hC) hN sched
  refine ⟨a, o, h1, h2.size, fun π ho => ?_, fun ho π hπ => ?_⟩
  · obtain ⟨k1, _, k3⟩ := h2.solved π ho
    refine ⟨k1, fun π' hp => ?_⟩
    rw [← seqCost_ops, ← seqCost_ops]
    obtain ⟨u, hu, _⟩ := id hp
    exact k3 π' hp (fun op hop => hfin op (plan_ops hu op hop))
  · obtain ⟨op, k1, k2⟩ := h2.unsolvable ho π hπ
    obtain ⟨u, hu, _⟩ := hπ
    have := hfin op (plan_ops hu op k1)
    omega

/-- the limits are so large that they do not matter -/
structure Schedule.Unlimited (sched : Schedule) (t : Task) (maxStates : Nat) : Prop where
  memory : ∀ p ∈ sched.steps, p.1 = none
  states : t.numStates < maxStates
  separate : t.vars.length ≤ sched.separate
  time : t.numStates ≤ sched.steps.length

/-- C60: without limits, the refinement ends with an optimal plan or with the proof that there is no plan. -/
theorem C60_complete (H : StdHeap Nat) (ht : CartesianTask t) {C maxStates : Nat} (hC : ∀ o ∈ t.ops, o.cost ≤ C) (hCb : C < 2 ^ 31 - 1) (hN : 2 * max 1 maxStates * C < 2 ^ 31 - 1) {sched : Schedule} (hs : sched.Unlimited t maxStates) :
    ∃ a o, cegar H t maxStates sched (t.ops.map (·.cost)) = some (a, o) ∧
      ((∃ π, o = .solved π ∧ t.IsPlan π ∧ ∀ π', t.IsPlan π' → t.planCost π ≤ t.planCost π') ∨ (o = .unsolvable ∧ ∀ π, ¬ t.IsPlan π)) := by
  have hle : ∀ c ∈ t.ops.map (·.cost), c ≤ infinite := by intro c hc; obtain ⟨o, ho, rfl⟩ := List.mem_map.mp hc; have := hC o ho; simp only [show infinite = 2 ^ 31 - 1 from rfl]; omega
  obtain ⟨a, o, h1, _, h3, h4⟩ := C60_outcome H ht hC hCb hN sched
  obtain ⟨a', o', k1, _, k3⟩ := cegar_spec H ht (by simp) hle (bounded_ops hC) hN sched
  rw [h1] at k1
  simp at k1
  obtain ⟨rfl, rfl⟩ := k1
  have hne := k3 hs.memory hs.states hs.separate hs.time
  refine ⟨a, o, h1, ?_⟩
  cases o with
  | limit => exact absurd rfl hne
  | unsolvable => exact Or.inr ⟨rfl, h4 rfl⟩
  | solved π => exact Or.inl ⟨π, rfl, h3 π rfl⟩

/-- a subtask with the limit for its abstraction, and the other limits and choices -/
structure SubtaskRun where
  kind : SubtaskKind
  maxStates : Nat
  sched : List Nat → Schedule

/-- the abstractions for the subtasks -/
def subtasksOf (H : StdHeap Nat) (t : Task) (runs : List SubtaskRun) : List Subtask := runs.map (fun r => cegarSubtask H t r.kind r.maxStates r.sched)

/-- the largest sizes of the abstractions -/
def sizesOf (runs : List SubtaskRun) : List Nat := runs.map (fun r => max 1 r.maxStates)

theorem subtasks_sound (H : StdHeap Nat) (ht : CartesianTask t) {runs : List SubtaskRun} (hl : ∀ r ∈ runs, r.kind.Legal t) : List.Forall₂ (Sound t) (subtasksOf H t runs) (sizesOf runs) := by
  induction runs with
  | nil => exact .nil
  | cons r runs ih => exact .cons (cegarSubtask_sound H ht (hl r (by simp)) _ _) (ih (fun r' h => hl r' (List.mem_cons_of_mem _ h)))

/-- The costs and sizes are so small that no path exceeds the range of ints.  With general costs, the remaining costs may grow with each abstraction. -/
def InRange (general : Bool) (C : Nat) (sizes : List Nat) : Prop :=
  if general then C * sizeProduct sizes < 2 ^ 31 - 1 else (∀ n ∈ sizes, C * (1 + 2 * n) < 2 ^ 31 - 1) ∧ sizes.sum * C ≤ 2 ^ 31 - 1

theorem fits_subtasks (H : StdHeap Nat) (ht : CartesianTask t) {general : Bool} {runs : List SubtaskRun} (hl : ∀ r ∈ runs, r.kind.Legal t) {C : Nat} (hC : ∀ o ∈ t.ops, o.cost ≤ C) (hCb : C < 2 ^ 31 - 1) (hr : InRange general C (sizesOf runs)) :
    Fits H general (subtasksOf H t runs) (sizesOf runs) (t.ops.map (·.cost)) (2 ^ 31 - 1) := by
  have hle : ∀ c ∈ t.ops.map (·.cost), c ≤ infinite := by intro c hc; obtain ⟨o, ho, rfl⟩ := List.mem_map.mp hc; have := hC o ho; simp only [show infinite = 2 ^ 31 - 1 from rfl]; omega
  unfold InRange at hr
  cases general with
  | true =>
    simp only [if_true] at hr
    exact fits_general H true (subtasks_sound H ht hl) (by simp) hle (bounded_ops hC) hr (by omega)
  | false =>
    simp only [Bool.false_eq_true, if_false] at hr
    exact fits_nonneg H (subtasks_sound H ht hl) (by simp) hle (bounded_ops hC) hr.1 hr.2

/-- C41: additive Cartesian heuristics.  For every list of legal subtasks, every limit and all choices, the heuristic functions are computed.  In every reachable state the sum is computed; if it
reports a dead end, there is no plan for the state; otherwise the sum is at most the cost of every plan for the state. -/
theorem C41_additive (H : StdHeap Nat) (ht : CartesianTask t) (general : Bool) {runs : List SubtaskRun} (hl : ∀ r ∈ runs, r.kind.Legal t) {C : Nat} (hC : ∀ o ∈ t.ops, o.cost ≤ C) (hCb : C < 2 ^ 31 - 1) (hr : InRange general C (sizesOf runs)) :
    ∃ fs, saturate H general (subtasksOf H t runs) (t.ops.map (·.cost)) = some fs ∧ ∀ s, t.Reachable s → ∃ r, additiveValue fs s = some r ∧
      (r = none → ∀ π, ¬ t.SolvesFrom s π) ∧ ∀ n, r = some n → ∀ π, t.SolvesFrom s π → n ≤ t.planCost π :=
  C41_admissible H general (subtasks_sound H ht hl) (fun o ho => Nat.lt_of_le_of_lt (hC o ho) hCb) (fits_subtasks H ht hl hC hCb hr)

/-- C41: additive Cartesian heuristics are consistent. -/
theorem C41_additive_consistent (H : StdHeap Nat) (ht : CartesianTask t) (general : Bool) {runs : List SubtaskRun} (hl : ∀ r ∈ runs, r.kind.Legal t) {C : Nat} (hC : ∀ o ∈ t.ops, o.cost ≤ C) (hCb : C < 2 ^ 31 - 1) (hr : InRange general C (sizesOf runs)) {fs : List HFun}
    (hf : saturate H general (subtasksOf H t runs) (t.ops.map (·.cost)) = some fs) {s s' : State} {op : Nat} (hs : t.Reachable s) (hst : t.Step s op s') :
    (additiveValue fs s = some none → additiveValue fs s' = some none) ∧ ∀ n n', additiveValue fs s = some (some n) → additiveValue fs s' = some (some n') → n ≤ t.opCost op + n' :=
  C41_consistent H general (subtasks_sound H ht hl) (fun o ho => Nat.lt_of_le_of_lt (hC o ho) hCb) (fits_subtasks H ht hl hC hCb hr) hf hs hst

/-- C41: the goal facts that do not hold initially are legal subtasks, and so is the original task. -/
theorem C41_goals_legal (ht : CartesianTask t) : SubtaskKind.original.Legal t ∧ ∀ f ∈ t.goal, ¬ f.holds t.init → (SubtaskKind.fact f).Legal t := by
  refine ⟨trivial, fun f hf hi => goalFact_landmark ht ?_⟩
  unfold goalFacts
  exact List.mem_filter.mpr ⟨hf, by simpa using hi⟩

theorem FGoal_iff {out : Nat → List Trans} {costs goals : List Nat} (hfin : ∀ i op j, (⟨op, j⟩ : Trans) ∈ out i → costAt costs op < infinite) {i k : Nat} : FGoal out costs goals i k ↔ GoalCost (fun i op j => (⟨op, j⟩ : Trans) ∈ out i) (fun i => i ∈ goals) (costAt costs) i k := by
  constructor
  · intro h
    induction h with
    | goal i h => exact .goal i h
    | step i op j k h _ ih => exact .step i op j k h.1 ih
  · intro h
    induction h with
    | goal i h => exact .goal i h
    | step i op j k h _ ih => exact .step i op j k ⟨h, hfin i op j h⟩ ih

/-- C60: without limits, the heuristic for the original task is perfect in the initial state: it is the cost of an optimal plan, or it reports a dead end, and there is no plan. -/
theorem C60_perfect (H : StdHeap Nat) (ht : CartesianTask t) (general : Bool) {C maxStates : Nat} (hC : ∀ o ∈ t.ops, o.cost ≤ C) (hCb : C < 2 ^ 31 - 1) (hN : C * (1 + 2 * max 1 maxStates) < 2 ^ 31 - 1) {sched : Schedule} (hs : sched.Unlimited t maxStates) :
    ∃ fs, saturate H general (subtasksOf H t [⟨.original, maxStates, fun _ => sched⟩]) (t.ops.map (·.cost)) = some fs ∧
      ((∃ n, additiveValue fs t.init = some (some n) ∧ (∃ π, t.IsPlan π ∧ t.planCost π = n) ∧ ∀ π, t.IsPlan π → n ≤ t.planCost π) ∨ (additiveValue fs t.init = some none ∧ ∀ π, ¬ t.IsPlan π)) := by
  have hinf : infinite = 2 ^ 31 - 1 := rfl
  have e : C * (1 + 2 * max 1 maxStates) = 2 * max 1 maxStates * C + C := by rw [Nat.mul_add, Nat.mul_one, Nat.mul_comm, Nat.add_comm]
  have e' : 2 * max 1 maxStates * C = max 1 maxStates * C + max 1 maxStates * C := by rw [Nat.mul_assoc, Nat.two_mul]
  have hr : InRange general C (sizesOf [⟨.original, maxStates, fun _ => sched⟩]) := by
    unfold InRange sizesOf
    cases general with
    | true => simpa [sizeProduct] using hN
    | false => simp only [List.map_cons, List.map_nil, List.mem_singleton, forall_eq, List.sum_cons, List.sum_nil, Nat.add_zero, Bool.false_eq_true, if_false]; exact ⟨hN, by omega⟩
  obtain ⟨fs, h1, h2⟩ := C41_additive H ht general (runs := [⟨.original, maxStates, fun _ => sched⟩]) (by simp [SubtaskKind.Legal]) hC hCb hr
  refine ⟨fs, h1, ?_⟩
  obtain ⟨r, h3, h4, h5⟩ := h2 t.init (Reachable.init t)
  have hle : ∀ c ∈ t.ops.map (·.cost), c ≤ infinite := by intro c hc; obtain ⟨o, ho, rfl⟩ := List.mem_map.mp hc; have := hC o ho; omega
  obtain ⟨a, o, k1, k2, k3⟩ := cegar_spec H ht (by simp) hle (bounded_ops hC) (by omega : 2 * max 1 maxStates * C < infinite) sched
  have hfin : ∀ i op j, (⟨op, j⟩ : Trans) ∈ a.ts.outgoing i → costAt (t.ops.map (·.cost)) op < infinite := by
    intro i op j hm
    have ho := (k2.inv.ts.range i op j hm).2.2.2
    unfold costAt
    rw [List.getElem?_eq_getElem (by simpa using ho)]
    have := hC t.ops[op] (List.getElem_mem _)
    simp
    omega
  have hfin' : ∀ op, op < t.ops.length → costAt (t.ops.map (·.cost)) op < infinite := by
    intro op ho
    unfold costAt
    rw [List.getElem?_eq_getElem (by simpa using ho)]
    have := hC t.ops[op] (List.getElem_mem _)
    simp
    omega
  have hnC : a.states.length * C ≤ max 1 maxStates * C := Nat.mul_le_mul_right _ k2.size
  obtain ⟨dist, d1, d2⟩ := computeDistances_spec H (n := a.states.length) (trans := a.ts.incoming) (costs := t.ops.map (·.cost)) (sources := a.goals) k2.range
    (fun v _ tr htr => by have := k2.inv.ts.range tr.target tr.op v ((k2.inv.ts.sym _ _ _).mpr htr); simp; omega) (fun v hv => List.eq_nil_iff_forall_not_mem.mpr (fun tr htr => hv (k2.inv.ts.range tr.target tr.op v ((k2.inv.ts.sym _ _ _).mpr htr)).2.1))
    hle (bounded_ops hC) (by omega)
  have hil := k2.inv.init.lt
  have hlk : lookup a.nodes t.init 0 = some a.init := (k2.inv.stateOf_iff ht.wf.init).mpr k2.inv.init
  -- the heuristic function
  have hval : additiveValue fs t.init = if dist a.init = infinite then some none else if dist a.init < 2 ^ 31 then some (some (dist a.init)) else none := by
    simp only [subtasksOf, List.map_cons, List.map_nil, saturate, cegarSubtask, subtaskOf, saturateOne, k1, Option.map_some, d1] at h1
    split at h1
    · simp at h1
    · rename_i f costs' heq
      simp only [Option.some.injEq] at h1
      subst h1
      split at heq
      · rename_i g h hg hh
        simp only [Option.some.injEq] at hh
        subst hh
        split at heq
        · simp at heq
        · split at heq
          · simp at heq
          · simp only [Option.some.injEq, Prod.mk.injEq] at heq
            obtain ⟨rfl, _⟩ := heq
            simp only [additiveValue, sumValues, HFun.value, Option.bind_some, hlk, getElem?_range_map hil, Nat.zero_add]
      · simp at heq
  have hlow : ∀ k, FGoal a.ts.outgoing (t.ops.map (·.cost)) a.goals a.init k → dist a.init ≤ k ∧ dist a.init < infinite := fun k hk => d2.low _ k ((goalCost_iff k2.inv.ts hfin').mpr ((FGoal_iff hfin).mp hk))
  have hsnd : dist a.init < infinite → FGoal a.ts.outgoing (t.ops.map (·.cost)) a.goals a.init (dist a.init) := fun hlt => (FGoal_iff hfin).mpr ((goalCost_iff k2.inv.ts hfin').mp (d2.sound _ hil hlt))
  have hne := k3 hs.memory hs.states hs.separate hs.time
  cases o with
  | limit => exact absurd rfl hne
  | unsolvable =>
    right
    by_cases hd : dist a.init = infinite
    · rw [if_pos hd] at hval
      refine ⟨hval, fun π => ?_⟩
      rw [hval] at h3
      simp at h3
      exact h4 h3.symm π
    · exfalso
      have hle' : dist a.init ≤ infinite := d2.le _
      exact k2.unsolvableAbs rfl _ (hsnd (by omega))
  | solved π =>
    left
    obtain ⟨m1, m2⟩ := k2.solvedAbs π rfl
    obtain ⟨m3, m4⟩ := hlow _ m1
    have m5 := m2 _ (hsnd m4)
    have heq : dist a.init = t.planCost π := by rw [← seqCost_ops]; omega
    have hval' : additiveValue fs t.init = some (some (t.planCost π)) := by
      rw [hval, if_neg (by omega), if_pos (by omega), heq]
    refine ⟨_, hval', ⟨π, (k2.solved π rfl).1, rfl⟩, fun π' hp => ?_⟩
    rw [hval'] at h3
    simp at h3
    exact h5 _ h3.symm π' hp

/-! ### Non-vacuity -/

/-- a counter from 0 to 4 and a switch; the last step requires the switch -/
def exChain : Task where
  vars := [⟨5, none, 0⟩, ⟨2, none, 0⟩]
  ops := [⟨[⟨0, 0⟩], [⟨[], ⟨0, 1⟩⟩], 1⟩, ⟨[⟨0, 1⟩], [⟨[], ⟨0, 2⟩⟩], 1⟩, ⟨[⟨0, 2⟩], [⟨[], ⟨0, 3⟩⟩], 1⟩, ⟨[⟨0, 3⟩, ⟨1, 1⟩], [⟨[], ⟨0, 4⟩⟩], 4⟩, ⟨[], [⟨[], ⟨1, 1⟩⟩], 2⟩]
  axioms := []
  init := [0, 0]
  goal := [⟨0, 4⟩, ⟨1, 1⟩]

theorem exChain_ok : CartesianTask exChain where
  wf := Search.taskOK_wf (by decide)
  noAxioms := rfl
  unconditional := by decide
  pre := by decide
  eff := by decide
  goal := by decide

theorem exChain_goal (f : Fact) (hf : f ∈ exChain.goal) : RelaxedLandmark exChain f := (C41_goals_legal exChain_ok).2 f hf (by revert f; decide)

/-- the values 1 and 2 are combined in the subtask for the first goal -/
theorem exChain_combined : (SubtaskKind.combined ⟨0, 4⟩ [(0, [[1, 2]])]).Legal exChain := by
  have hg : ∀ v, DomAbs.groupsOf [(0, [[1, 2]])] v = if v = 0 then [[1, 2]] else [] := by
    intro v
    by_cases h : v = 0
    · subst h; rfl
    · have : (v == 0) = false := by simpa using h
      simp [DomAbs.groupsOf, List.lookup, this, h]
  have hR : ∀ i, i ≤ 1 → ∀ o : Operator, exChain.ops[i]? = some o → ∀ e ∈ o.effects, e.fact ≠ ⟨0, 4⟩ := by
    intro i hi o ho
    have : i = 0 ∨ i = 1 := by omega
    rcases this with rfl | rfl
    · simp [exChain] at ho; subst ho; decide
    · simp [exChain] at ho; subst ho; decide
  have r0 : exChain.RelReach (fun j => ∀ o, exChain.ops[j]? = some o → ∀ e ∈ o.effects, e.fact ≠ ⟨0, 4⟩) exChain.init ⟨0, 0⟩ := .state _ (by decide)
  have r1 : exChain.RelReach (fun j => ∀ o, exChain.ops[j]? = some o → ∀ e ∈ o.effects, e.fact ≠ ⟨0, 4⟩) exChain.init ⟨0, 1⟩ :=
    .effect (some 0) _ _ _ (.op 0 ⟨[⟨0, 0⟩], [⟨[], ⟨0, 1⟩⟩], 1⟩ ⟨[], ⟨0, 1⟩⟩ rfl (by decide)) (fun j hj => by simp at hj; subst hj; exact hR 0 (by omega)) (by simpa using r0)
  have r2 : exChain.RelReach (fun j => ∀ o, exChain.ops[j]? = some o → ∀ e ∈ o.effects, e.fact ≠ ⟨0, 4⟩) exChain.init ⟨0, 2⟩ :=
    .effect (some 1) _ _ _ (.op 1 ⟨[⟨0, 1⟩], [⟨[], ⟨0, 2⟩⟩], 1⟩ ⟨[], ⟨0, 2⟩⟩ rfl (by decide)) (fun j hj => by simp at hj; subst hj; exact hR 1 (by omega)) (by simpa using r1)
  refine ⟨exChain_goal _ (by decide), by unfold DomAbs.KeysOk; decide, ⟨fun v h => ?_, fun v d hd => ?_, fun v => ?_, fun v => ?_⟩, fun v => ?_⟩
  all_goals
    first
    | rw [hg] at h
    | rw [hg]
    by_cases hv : v = 0
    · subst hv
      try simp [exChain] at hd
      try subst hd
      first
      | decide
      | (simp only [if_true, List.mem_singleton, forall_eq]
         intro x hx
         simp at hx
         rcases hx with rfl | rfl
         · exact r1
         · exact r2)
    · simp [hv] at *

/-- three subtasks for the example -/
def exRuns : List SubtaskRun := [⟨.combined ⟨0, 4⟩ [(0, [[1, 2]])], 3, fun _ => ⟨10, [(none, 0), (none, 0)]⟩⟩, ⟨.fact ⟨1, 1⟩, 2, fun _ => ⟨0, []⟩⟩, ⟨.original, 100, fun _ => ⟨10, List.replicate 10 (none, 0)⟩⟩]

example (H : StdHeap Nat) (general : Bool) : ∃ fs, saturate H general (subtasksOf H exChain exRuns) (exChain.ops.map (·.cost)) = some fs ∧ ∀ s, exChain.Reachable s → ∃ r, additiveValue fs s = some r ∧
      (r = none → ∀ π, ¬ exChain.SolvesFrom s π) ∧ ∀ n, r = some n → ∀ π, exChain.SolvesFrom s π → n ≤ exChain.planCost π :=
  C41_additive H exChain_ok general (C := 4) (by
    intro r hr
    simp only [exRuns, List.mem_cons, List.not_mem_nil, or_false] at hr
    rcases hr with rfl | rfl | rfl
    · exact exChain_combined
    · exact exChain_goal _ (by decide)
    · trivial) (by decide) (by decide) (by unfold InRange; cases general <;> decide)

/-- no limits for the example -/
theorem exChain_unlimited : (⟨2, List.replicate 10 (none, 0)⟩ : Schedule).Unlimited exChain 11 := ⟨by decide, by decide, by decide, by decide⟩

example (H : StdHeap Nat) : ∃ a o, cegar H exChain 11 ⟨2, List.replicate 10 (none, 0)⟩ (exChain.ops.map (·.cost)) = some (a, o) ∧
      ((∃ π, o = .solved π ∧ exChain.IsPlan π ∧ ∀ π', exChain.IsPlan π' → exChain.planCost π ≤ exChain.planCost π') ∨ (o = .unsolvable ∧ ∀ π, ¬ exChain.IsPlan π)) :=
  C60_complete H exChain_ok (C := 4) (by decide) (by decide) (by decide) exChain_unlimited

end Verif.Cart
