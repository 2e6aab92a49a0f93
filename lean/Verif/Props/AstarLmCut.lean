import Verif.Props.LmCut
import Verif.Lemmas.AstarHeuristic

/-
C23 and C33 combined: A* with LM-cut.
-/
namespace Verif.LmCut
open Verif.Search Verif.OpenList

theorem lmcut_object (H : AdaptiveQueue.StdHeap Nat) {t : Task} (h : t.LmCutOk) (hc : (t.ops.map (·.cost)).sum < 2 ^ 30) :
    AdmissibleObject t (fun st : St => ∃ bag, AdaptiveQueue.Rep st.queue bag) (lmcut H t) := by
  intro s st hs hst
  obtain ⟨v, st', h1, h2, h3⟩ := lmcut_result H h hs hst
  refine ⟨v, st', h1, h2, ?_, ?_⟩
  · rintro n rfl
    -- the set of all operators is a relaxed plan
    obtain ⟨k, _, hk, _⟩ := h3.2
    have hall : t.IsRelaxedPlan (· ∈ List.range t.ops.length) s := by
      intro g hg
      have := Relax.reach_of_hmax (hk g hg)
      clear hk hg
      induction this with
      | state f hf => exact .state f hf
      | effect i cs f c he _ _ ih =>
        refine .effect i cs f c he ?_ ih
        rintro j rfl
        cases he with
        | op i o e h1 h2 => simpa using (List.getElem?_eq_some_iff.mp h1).1
    have hle := h3.1 _ hall
    have hcost : t.planCost (List.range t.ops.length) = (t.ops.map (·.cost)).sum := by
      rw [← sumN_opCost, ofTask_length, sumN_succ]
      simp [sumN, Task.planCost, Task.opCost]
    omega
  · intro π hπ
    have hrel := relaxed_of_solves h.wf h.axioms hπ
    cases v with
    | none =>
      refine absurd (fun g hg => ?_) h3
      obtain ⟨n, hn⟩ := Relax.hmax_of_reach (hrel g hg)
      exact Relax.reach_of_hmax hn
    | some n => exact ⟨n, rfl, h3.1 π hrel⟩

/-- C33 and C23: A* with LM-cut, on a task whose costs fit into the C++ types, ends; it returns a plan of minimal cost if there is a plan, and fails
otherwise.  `u` is any choice made by the successor generator, `H` and `H'` any implementations of the standard heap functions, `rel` any
assignment of "dead ends are reliable", `rng` and `σ` any initial states. -/
theorem C33_astar_lmcut {t : Task} (h : t.LmCutOk) (hc : (t.ops.map (·.cost)).sum < 2 ^ 29) (hfit : t.FitsTypes .normal) (u : Nat → Nat → Bool) (H : AdaptiveQueue.StdHeap Nat) (H' : StdHeap State) (rel : Nat → Bool)
    (rng : Rng) (σ : { st : St // ∃ bag, AdaptiveQueue.Rep st.queue bag }) :
    ∃ n, OptimalResult t (Eager.search (World.ofTask t u .normal) (objEnv (lmcut_object H h (by omega))) H' rel ⟨true, 2147483647⟩ (.tiebreaking false false [1, 0]) rng σ n) := by
  have hcost : ∀ i, t.opCost i < 2 ^ 29 := by
    intro i
    by_cases hi : i < t.ops.length
    · have h1 := le_sumN (n := (LTask.ofTask t).ops.length) (i := i) (by rw [ofTask_length]; omega) t.opCost
      rw [sumN_opCost] at h1
      omega
    · have : t.opCost i = 0 := by simp [Task.opCost, List.getElem?_eq_none (by omega : t.ops.length ≤ i)]
      omega
  exact astar_object (lmcut_object H h (by omega)) h.wf hfit hcost u H' rel rng σ

/-- the hypotheses are met by the task of the examples -/
example : cutTask.FitsTypes .normal ∧ (cutTask.ops.map (·.cost)).sum < 2 ^ 29 ∧ cutTask.LmCutOk := by
  have h : ∀ i, cutTask.opCost i ≤ 3 := by
    intro i
    match i with
    | 0 | 1 | 2 => decide
    | n + 3 => simp [Task.opCost, cutTask]
  exact ⟨⟨3, fun i => ⟨h i, h i⟩, by decide⟩, by decide, cutTask_ok⟩

end Verif.LmCut
