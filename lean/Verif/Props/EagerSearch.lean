import Verif.Lemmas.TaskSearch
import Verif.Lemmas.EagerProbe
import Verif.Lemmas.SimpleTask

/-
C21: plans found by eager search are plans.
C22: eager search is complete and terminates.
C23: A* finds plans of minimal cost.
C24: the bound, for eager search.
C28: weighted A* finds plans within the weight of minimal cost.

In all theorems: `t` any well-formed task, `u` any choice made by the successor generator,
`ct` any cost type, `E` any evaluators and pruning method, `H` any implementation of the
standard heap functions, `rel` any assignment of "dead ends are reliable" to the evaluators,
`opts` any options, `cfg` any open list, `rng` and `env` any initial state of the random
number generator and of the evaluators, `n` any number of steps.
-/
namespace Verif.Search
open Verif.OpenList

section
variable {σ : Type} {t : Task} (hwf : t.WF) (u : Nat → Nat → Bool) (ct : CostType) {E : Env State σ} (hL : E.Legal) (hpr : E.PrunesOnly)
  (H : StdHeap State) (rel : Nat → Bool) (opts : Options) (cfg : Cfg) (rng : Rng) (env : σ)
include hwf hL hpr

/-- C21: a reported solution is a plan of the task. -/
theorem C21_eager_sound (hcfg : Spec.WF cfg) {n : Nat} {π : List Nat}
    (h : Eager.search (World.ofTask t u ct) E H rel opts cfg rng env n = some (.solved π)) : t.IsPlan π := by
  obtain ⟨infos, l, s, l', _, _, _, h3, h4, _⟩ := eager_solved (ofTask_total hwf u ct) hL hpr (bagSpec H rel cfg hcfg) h
  exact (ofTask_isPlan hwf u ct).mp ⟨s, h4, h3⟩

/-- C22: if the search fails, pruning is safe, infinite values are given only to dead ends
and the bound is irrelevant, then there is no plan. -/
theorem C22_eager_complete (hcfg : Spec.WF cfg) (hun : Spec.Unrestricted cfg) (hpn : E.PrunesSafely t) (hsafe : E.SafeFor t (Spec.evaluators cfg))
    (hb : t.BoundIrrelevant ct opts.bound) {n : Nat}
    (h : Eager.search (World.ofTask t u ct) E H rel opts cfg rng env n = some .failed) : ¬ ∃ π, t.IsPlan π := by
  have := eager_failed_unsolvable (ofTask_total hwf u ct) hL hpr (prunesSafely_of hwf hpn) (unbounded_of hwf hb) (safe_of hwf hcfg hun hsafe (bagSpec H rel cfg hcfg)) h
  rwa [ofTask_solvable hwf u ct (by exact hwf.init)] at this

/-- C22 with a bound: with reopening and cost_type normal, failure means that every plan
reaches the bound. -/
theorem C22_eager_complete_bound (hcfg : Spec.WF cfg) (hun : Spec.Unrestricted cfg) (hpn : E.PrunesSafely t) (hsafe : E.SafeFor t (Spec.evaluators cfg))
    (hre : opts.reopen = true) {n : Nat} (h : Eager.search (World.ofTask t u .normal) E H rel opts cfg rng env n = some .failed) {π : List Nat} (hπ : t.IsPlan π) :
    opts.bound ≤ t.planCost π := by
  by_contra hlt
  refine eager_failed_bound (ofTask_total hwf u .normal) hL hpr (prunesSafely_of hwf hpn) hre (safe_of hwf hcfg hun hsafe (bagSpec H rel cfg hcfg)) h
    ((ofTask_isPlan hwf u .normal).mpr hπ) (Or.inl ⟨adj_normal, ?_⟩)
  rw [ofTask_cost]; omega

/-- C22, termination: without a lazy evaluator, after finitely many steps the search is no
longer in progress. -/
theorem C22_eager_terminates (hcfg : Spec.WF cfg) (hlz : E.lazyEvaluator = none) :
    ∃ n, ∀ st, Eager.search (World.ofTask t u ct) E H rel opts cfg rng env n ≠ some (.inProgress st) :=
  eager_terminates (ofTask_total hwf u ct) hL hpr hlz (bagSpec H rel cfg hcfg) (states := Task.states t) (fun _ hs => mem_states.mpr hs) rng env

/-- C22: if evaluators return and costs fit into the C++ types, no operation of the search
goes wrong: there is no undefined behaviour, no overflow and no failed assertion. -/
theorem C22_eager_defined (hcfg : Spec.WF cfg) (hT : E.Total) (hfit : t.FitsTypes ct) (n : Nat) :
    Eager.search (World.ofTask t u ct) E H rel opts cfg rng env n ≠ none :=
  eager_defined (ofTask_total hwf u ct) hL hT hpr (noOverflow_of hwf hfit) (bagSpec H rel cfg hcfg) rng env n

/-- C22: under these conditions the search ends with "solved" or "failed". -/
theorem C22_eager_ends (hcfg : Spec.WF cfg) (hlz : E.lazyEvaluator = none) (hT : E.Total) (hfit : t.FitsTypes ct) :
    ∃ n, Eager.search (World.ofTask t u ct) E H rel opts cfg rng env n = some .failed ∨
      ∃ π, Eager.search (World.ofTask t u ct) E H rel opts cfg rng env n = some (.solved π) := by
  obtain ⟨n, hn⟩ := C22_eager_terminates hwf u ct hL hpr H rel opts cfg rng env hcfg hlz
  refine ⟨n, ?_⟩
  cases h : Eager.search (World.ofTask t u ct) E H rel opts cfg rng env n with
  | none => exact absurd h (C22_eager_defined hwf u ct hL hpr H rel opts cfg rng env hcfg hT hfit n)
  | some r =>
    cases r with
    | inProgress st => exact absurd h (hn st)
    | solved π => exact Or.inr ⟨π, rfl⟩
    | failed => exact Or.inl rfl

/-- C22: hence a plan is found for every task that has one. -/
theorem C22_eager_finds_plan (hcfg : Spec.WF cfg) (hun : Spec.Unrestricted cfg) (hpn : E.PrunesSafely t) (hsafe : E.SafeFor t (Spec.evaluators cfg))
    (hb : t.BoundIrrelevant ct opts.bound) (hlz : E.lazyEvaluator = none) (hT : E.Total) (hfit : t.FitsTypes ct) (hsolv : ∃ π, t.IsPlan π) :
    ∃ n π, Eager.search (World.ofTask t u ct) E H rel opts cfg rng env n = some (.solved π) ∧ t.IsPlan π := by
  obtain ⟨n, h | ⟨π, h⟩⟩ := C22_eager_ends hwf u ct hL hpr H rel opts cfg rng env hcfg hlz hT hfit
  · exact absurd hsolv (C22_eager_complete hwf u ct hL hpr H rel opts cfg rng env hcfg hun hpn hsafe hb h)
  · exact ⟨n, π, h, C21_eager_sound hwf u ct hL hpr H rel opts cfg rng env hcfg h⟩

/-- C23: A* (tie-breaking open list over f and h with f = g + h, reopening, safe pruning)
with an admissible heuristic and cost_type normal returns a plan of minimal cost — with every
bound. -/
theorem C23_astar_optimal {f h : Nat} (hpn : E.PrunesSafely t) (hw : E.Weighted t .normal f h 1) (hre : opts.reopen = true) {n : Nat} {π : List Nat}
    (hs : Eager.search (World.ofTask t u .normal) E H rel opts (.tiebreaking false false [f, h]) rng env n = some (.solved π)) :
    t.IsPlan π ∧ ∀ ρ, t.IsPlan ρ → t.planCost π ≤ t.planCost ρ := by
  have hcfg : Spec.WF (.tiebreaking false false [f, h]) := by simp [Spec.WF]
  refine ⟨C21_eager_sound hwf u .normal hL hpr H rel opts _ rng env hcfg hs, fun ρ hρ => ?_⟩
  have hb := eager_bound (ofTask_total hwf u .normal) hL hpr (bagSpec H rel _ hcfg) adj_normal hs
  rcases affordable_normal adj_normal hb (ρ := ρ) with h1 | h1
  · rwa [ofTask_adj, ofTask_adj] at h1
  · have := weighted_optimal hwf hL hpr hpn hw hre (tiebreaking_popsMin false false f [h]) (fun c => rfl) ?_ ?_ ?_ hs hρ h1
    · rw [Nat.max_self, Nat.one_mul] at this
      exact this
    · intro c hd
      simp only [Spec.DeadEnd, Spec.ReliableInfinite] at hd
      grind
    · intro c
      simp [Spec.copies]
    · intro c h1 h2
      simp only [Spec.DeadEnd]
      right; right; simp [h1, h2]

/-- C23 for all cost types: the returned plan has minimal cost under the cost type, if the bound is irrelevant. -/
theorem C23_astar_optimal_cost_type {f h : Nat} (hpn : E.PrunesSafely t) (hw : E.Weighted t ct f h 1) (hre : opts.reopen = true) (hbi : t.BoundIrrelevant ct opts.bound)
    {n : Nat} {π : List Nat} (hs : Eager.search (World.ofTask t u ct) E H rel opts (.tiebreaking false false [f, h]) rng env n = some (.solved π)) :
    t.IsPlan π ∧ ∀ ρ, t.IsPlan ρ → t.planCostUnder ct π ≤ t.planCostUnder ct ρ := by
  have hcfg : Spec.WF (.tiebreaking false false [f, h]) := by simp [Spec.WF]
  refine ⟨C21_eager_sound hwf u ct hL hpr H rel opts _ rng env hcfg hs, fun ρ hρ => ?_⟩
  have := weighted_optimal hwf hL hpr hpn hw hre (tiebreaking_popsMin false false f [h]) (fun c => rfl) ?_ ?_ ?_ hs hρ (Or.inr (unbounded_of hwf hbi))
  · simpa using this
  · intro c hd
    simp only [Spec.DeadEnd, Spec.ReliableInfinite] at hd
    grind
  · intro c
    simp [Spec.copies]
  · intro c h1 h2
    simp only [Spec.DeadEnd]
    right; right; simp [h1, h2]

/-- C28: weighted A* (best-first open list over f = g + wt * h, reopening, safe pruning) with
an admissible heuristic returns a plan whose cost is at most `max wt 1` times the cost of
every plan. -/
theorem C28_weighted_astar {f h wt : Nat} (hpn : E.PrunesSafely t) (hw : E.Weighted t .normal f h wt) (hre : opts.reopen = true) {n : Nat} {π : List Nat}
    (hs : Eager.search (World.ofTask t u .normal) E H rel opts (.bestFirst false f) rng env n = some (.solved π)) :
    t.IsPlan π ∧ ∀ ρ, t.IsPlan ρ → t.planCost π ≤ Max.max wt 1 * t.planCost ρ := by
  have hcfg : Spec.WF (.bestFirst false f) := by simp [Spec.WF]
  refine ⟨C21_eager_sound hwf u .normal hL hpr H rel opts _ rng env hcfg hs, fun ρ hρ => ?_⟩
  have hb := eager_bound (ofTask_total hwf u .normal) hL hpr (bagSpec H rel _ hcfg) adj_normal hs
  rcases affordable_normal adj_normal hb (ρ := ρ) with h1 | h1
  · rw [ofTask_adj, ofTask_adj] at h1
    exact h1.trans (Nat.le_mul_of_pos_left _ (by omega))
  · refine weighted_optimal hwf hL hpr hpn hw hre (bestFirst_popsMin false f) (fun c => rfl) ?_ ?_ ?_ hs hρ h1
    · intro c hd
      exact Or.inl hd
    · intro c
      simp [Spec.copies]
    · intro c h1 h2
      exact h1

/-- C28 for all cost types: the costs are those under the cost type, if the bound is
irrelevant. -/
theorem C28_weighted_astar_cost_type {f h wt : Nat} (hpn : E.PrunesSafely t) (hw : E.Weighted t ct f h wt) (hre : opts.reopen = true)
    (hbi : t.BoundIrrelevant ct opts.bound) {n : Nat} {π : List Nat}
    (hs : Eager.search (World.ofTask t u ct) E H rel opts (.bestFirst false f) rng env n = some (.solved π)) :
    t.IsPlan π ∧ ∀ ρ, t.IsPlan ρ → t.planCostUnder ct π ≤ Max.max wt 1 * t.planCostUnder ct ρ := by
  have hcfg : Spec.WF (.bestFirst false f) := by simp [Spec.WF]
  refine ⟨C21_eager_sound hwf u ct hL hpr H rel opts _ rng env hcfg hs, fun ρ hρ => ?_⟩
  refine weighted_optimal hwf hL hpr hpn hw hre (bestFirst_popsMin false f) (fun c => rfl) ?_ ?_ ?_ hs hρ (Or.inr (unbounded_of hwf hbi))
  · intro c hd
    exact Or.inl hd
  · intro c
    simp [Spec.copies]
  · intro c h1 h2
    exact h1

/-- C24 for eager search with cost_type normal: a reported plan costs less than the bound,
or it costs nothing and the initial state is a goal state (relevant for bound = 0 only). -/
theorem C24_eager_bound_partial (hcfg : Spec.WF cfg) {n : Nat} {π : List Nat}
    (h : Eager.search (World.ofTask t u .normal) E H rel opts cfg rng env n = some (.solved π)) :
    (t.planCost π : Int) < opts.bound ∨ t.planCost π = 0 ∧ allHold t.goal t.init := by
  rcases eager_bound (ofTask_total hwf u .normal) hL hpr (bagSpec H rel _ hcfg) adj_normal h with h | ⟨h, h'⟩
  · exact Or.inl h
  · exact Or.inr ⟨h, (ofTask_goal hwf u .normal hwf.init).mp h'⟩

end

/-! ### C24 fails for other cost types

With cost_type one, nodes are updated when a path with fewer operators is found.  Such a path
can be more expensive, and paths that were already extended beyond the node now exceed the
bound. -/

/-- evaluators which return fixed values: evaluator 0 is `h`, evaluator 1 is `g + wt * h`;
nothing is pruned -/
def plainEnv (h : State → Int) (wt : Int) : Env State Unit where
  notifyInitial _ _ := ()
  notifyTransition _ _ _ _ := ()
  eval _ s g pref := if 0 ≤ g ∧ g + wt * h s < infty then some (⟨fun ev => if ev = 0 then h s else g + wt * h s, pref⟩, ()) else none
  reeval _ _ _ := none
  preferredOps _ _ _ := ([], ())
  prune _ _ l := (l, ())
  progress _ _ := (false, ())
  fStatistics _ _ _ := ()
  lazyEvaluator := none
  cachedEstimate _ _ := none

/-- an operator which changes variable 0 -/
def move (a b cost : Nat) : Operator := ⟨[⟨0, a⟩], [⟨[], ⟨0, b⟩⟩], cost⟩

/-- the task of the counterexample: from 0 a path of three free operators to 3 and a path of
two operators with cost 5; from 3 an operator with cost 5 to the goal 5 -/
def boundTask : Task where
  vars := [⟨6, none, 0⟩]
  ops := [move 0 1 0, move 0 4 5, move 1 2 0, move 2 3 0, move 3 5 5, move 4 3 5]
  axioms := []
  init := [0]
  goal := [⟨0, 5⟩]

/-- heuristic of the counterexample -/
def boundH (s : State) : Int := if s = [0] then 9 else if s = [4] then 4 else if s = [5] then 5 else 1

/-- C24 does not hold for eager search with cost_type one: with bound 12 a plan of cost 15 is
returned (with and without reopening). -/
theorem C24_eager_bound_fails (reopen : Bool) : ∃ n π,
    Eager.search (World.ofTask boundTask (fun _ _ => true) .one) (plainEnv boundH 0) (sortHeap State) (fun _ => true) ⟨reopen, 12⟩ (.bestFirst false 0) ⟨fun _ => 0, 0⟩ () n = some (.solved π) ∧
      boundTask.planCost π = 15 := by
  cases reopen
  · refine ⟨6, [1, 5, 4], probe_solved (n := 5) rfl ?_, by decide⟩
    rw [sortedWorld_eq (by decide)]
    decide +kernel
  · refine ⟨7, [1, 5, 4], probe_solved (n := 6) rfl ?_, by decide⟩
    rw [sortedWorld_eq (by decide)]
    decide +kernel

/-! ### non-vacuity -/

section
variable {h : State → Int} (h0 : ∀ s, 0 ≤ h s) (wt : Nat) (h1 : ∀ s, wt * h s < 2 ^ 30)

theorem plainEnv_yields {s : State} {g : Int} {c : Ctx} (hy : (plainEnv h wt).Yields s g c) :
    0 ≤ g ∧ g + wt * h s < infty ∧ ∀ ev, c.value ev = if ev = 0 then h s else g + wt * h s := by
  rcases hy with ⟨env, pref, env', he⟩ | ⟨env, env', he⟩
  · simp only [plainEnv] at he
    split at he
    · rename_i hg
      simp only [Option.some.injEq, Prod.mk.injEq] at he
      obtain ⟨rfl, _⟩ := he
      exact ⟨hg.1, hg.2, fun ev => rfl⟩
    · simp at he
  · simp [plainEnv] at he

include h0 in
theorem plainEnv_legal : (plainEnv h wt).Legal := by
  have key : ∀ s g c, (plainEnv h wt).Yields s g c → ∀ ev, intMin < c.value ev := by
    intro s g c hy ev
    obtain ⟨k1, k2, k3⟩ := plainEnv_yields wt hy
    rw [k3]
    have := h0 s
    have : 0 ≤ wt * h s := Int.mul_nonneg (Int.natCast_nonneg _) this
    unfold intMin
    split <;> omega
  exact ⟨fun s g c hc => key s g c (Or.inl hc), fun s g c hc => key s g c (Or.inr hc)⟩

include h1 in
theorem plainEnv_total_eval (s : State) (g : Int) (pref : Bool) (hg : 0 ≤ g) (hg' : g < 2 ^ 29) : ∃ c env', (plainEnv h wt).eval () s g pref = some (c, env') := by
  have := h1 s
  simp only [plainEnv]
  rw [if_pos ⟨hg, by unfold infty; omega⟩]
  exact ⟨_, _, rfl⟩

/-- `plainEnv` with a second evaluation that is never used -/
def totalEnv (h : State → Int) (wt : Int) : Env State Unit := { plainEnv h wt with reeval := fun _ s g => (plainEnv h wt).eval () s g false }

theorem totalEnv_prunesOnly (h : State → Int) (wt : Int) : (totalEnv h wt).PrunesOnly := by rintro s l os ⟨env, rfl⟩ o ho; exact ho
theorem totalEnv_prunesNothing (h : State → Int) (wt : Int) : (totalEnv h wt).PrunesNothing := by rintro s l os ⟨env, rfl⟩ o ho; exact ho

theorem totalEnv_yields {s : State} {g : Int} {c : Ctx} (hy : (totalEnv h wt).Yields s g c) :
    0 ≤ g ∧ g + wt * h s < infty ∧ ∀ ev, c.value ev = if ev = 0 then h s else g + wt * h s := by
  rcases hy with ⟨env, pref, env', he⟩ | ⟨env, env', he⟩
  · exact plainEnv_yields wt (Or.inl ⟨env, pref, env', he⟩)
  · exact plainEnv_yields wt (Or.inl ⟨(), false, env', he⟩)

include h0 in
theorem totalEnv_legal : (totalEnv h wt).Legal := by
  have key : ∀ s g c, (totalEnv h wt).Yields s g c → ∀ ev, intMin < c.value ev := by
    intro s g c hy ev
    obtain ⟨k1, k2, k3⟩ := totalEnv_yields wt hy
    rw [k3]
    have := h0 s
    have : 0 ≤ wt * h s := Int.mul_nonneg (Int.natCast_nonneg _) this
    unfold intMin
    split <;> omega
  exact ⟨fun s g c hc => key s g c (Or.inl hc), fun s g c hc => key s g c (Or.inr hc)⟩

include h1 in
theorem totalEnv_total : (totalEnv h wt).Total :=
  ⟨fun _ s g pref a b => plainEnv_total_eval wt h1 s g pref a b, fun _ s g a b => plainEnv_total_eval wt h1 s g false a b⟩

include h0 in
theorem totalEnv_weighted {t : Task} {ct : CostType} (hinf : ∀ s, h s < infty) (hadm : ∀ s π, t.ValidState s → t.SolvesFrom s π → h s ≤ t.planCostUnder ct π) :
    (totalEnv h wt).Weighted t ct 1 0 wt := by
  intro s g c hs hg hy
  obtain ⟨k1, k2, k3⟩ := totalEnv_yields wt hy
  right
  rw [k3, k3]
  exact ⟨h0 s, hinf s, rfl, k2, fun π hπ => hadm s π hs hπ⟩

theorem totalEnv_safe {t : Task} (hinf : ∀ s, h s < infty) (evs : List Nat) : (totalEnv h wt).SafeFor t evs := by
  rintro s g c hs hg hy ⟨ev, _, he⟩
  obtain ⟨k1, k2, k3⟩ := totalEnv_yields wt hy
  rw [k3] at he
  have := hinf s
  split at he <;> omega

end

theorem boundTask_wf : boundTask.WF := taskOK_wf (by decide)

theorem boundTask_plan : boundTask.IsPlan [0, 2, 3, 4] := execOK_spec boundTask_wf _ _ boundTask_wf.init (by decide)

/-- an admissible heuristic for it: perfect except in state 4, where it is 10 -/
def exH (s : State) : Int := if s = [5] then 0 else 5

theorem exH_admissible (s : State) (π : List Nat) (hs : boundTask.ValidState s) (hπ : boundTask.SolvesFrom s π) : exH s ≤ boundTask.planCostUnder .normal π :=
  consistentOK_spec boundTask_wf (c := boundTask.costUnder .normal) (by decide) hs hπ

theorem exH_nonneg (s : State) : 0 ≤ exH s := by unfold exH; split <;> omega
theorem exH_small (s : State) : exH s ≤ 5 := by unfold exH; split <;> omega

theorem boundTask_cost (i : Nat) : boundTask.opCost i ≤ 5 := by
  match i with
  | 0 | 1 | 2 | 3 | 4 | 5 => decide
  | n + 6 => simp [Task.opCost, boundTask]

theorem boundTask_fits (ct : CostType) : boundTask.FitsTypes ct := by
  refine ⟨6, fun i => ⟨(boundTask_cost i).trans (by omega), ?_⟩, by decide⟩
  have := boundTask_cost i
  cases ct <;> simp only [Task.costUnder] <;> (try split) <;> omega

/-- A* solves the task -/
theorem boundTask_solved (cfg : Cfg) (hcfg : Spec.WF cfg) (hun : Spec.Unrestricted cfg) (wt : Nat) (hwt : wt ≤ 100) : ∃ n π,
    Eager.search (World.ofTask boundTask (fun _ _ => true) .normal) (totalEnv exH wt) (sortHeap State) (fun _ => true) ⟨true, 2147483647⟩ cfg ⟨fun _ => 0, 0⟩ () n =
      some (.solved π) ∧ boundTask.IsPlan π := by
  refine C22_eager_finds_plan boundTask_wf _ .normal (totalEnv_legal exH_nonneg wt) (totalEnv_prunesOnly exH wt) _ _ ⟨true, 2147483647⟩ cfg _ () hcfg hun (prunesNothing_safely (totalEnv_prunesNothing exH wt))
    (totalEnv_safe wt (fun s => by have := exH_small s; unfold infty; omega) _) (Or.inl ⟨rfl, fun i => by have := boundTask_cost i; omega, by decide⟩) rfl
    (totalEnv_total wt (fun s => ?_)) (boundTask_fits _) ⟨_, boundTask_plan⟩
  have h1 := exH_small s
  have h2 := exH_nonneg s
  have : (wt : Int) * exH s ≤ 100 * 5 := Int.mul_le_mul (by omega) h1 h2 (by omega)
  omega

/-- C23 applies: the plan found costs 5 -/
example : ∃ n π, Eager.search (World.ofTask boundTask (fun _ _ => true) .normal) (totalEnv exH 1) (sortHeap State) (fun _ => true) ⟨true, 2147483647⟩
    (.tiebreaking false false [1, 0]) ⟨fun _ => 0, 0⟩ () n = some (.solved π) ∧ boundTask.planCost π ≤ 5 := by
  obtain ⟨n, π, h, _⟩ := boundTask_solved (.tiebreaking false false [1, 0]) (by simp [Spec.WF]) rfl 1 (by omega)
  exact ⟨n, π, h, (C23_astar_optimal boundTask_wf _ (totalEnv_legal exH_nonneg 1) (totalEnv_prunesOnly exH 1) _ _ _ _ _ (prunesNothing_safely (totalEnv_prunesNothing exH 1))
    (totalEnv_weighted exH_nonneg 1 (fun s => by have := exH_small s; unfold infty; omega) exH_admissible) rfl h).2 _ boundTask_plan⟩

/-- C28 applies -/
example : ∃ n π, Eager.search (World.ofTask boundTask (fun _ _ => true) .normal) (totalEnv exH 3) (sortHeap State) (fun _ => true) ⟨true, 2147483647⟩
    (.bestFirst false 1) ⟨fun _ => 0, 0⟩ () n = some (.solved π) ∧ boundTask.planCost π ≤ 15 := by
  obtain ⟨n, π, h, _⟩ := boundTask_solved (.bestFirst false 1) (by simp [Spec.WF]) rfl 3 (by omega)
  exact ⟨n, π, h, (C28_weighted_astar boundTask_wf _ (totalEnv_legal exH_nonneg 3) (totalEnv_prunesOnly exH 3) _ _ _ _ _ (prunesNothing_safely (totalEnv_prunesNothing exH 3))
    (totalEnv_weighted exH_nonneg 3 (fun s => by have := exH_small s; unfold infty; omega) exH_admissible) rfl h).2 _ boundTask_plan⟩

/-- the search with an unsolvable goal fails -/
def deadTask : Task := { boundTask with ops := [move 0 1 0, move 1 0 0], goal := [⟨0, 5⟩] }

example : (match Eager.search (World.ofTask deadTask (fun _ _ => true) .normal) (totalEnv exH 1) (sortHeap State) (fun _ => true) ⟨true, 2147483647⟩
    (.tiebreaking false false [1, 0]) ⟨fun _ => 0, 0⟩ () 3 with | some .failed => true | _ => false) = true := by
  rw [sortedWorld_eq (by decide)]
  decide +kernel

end Verif.Search
