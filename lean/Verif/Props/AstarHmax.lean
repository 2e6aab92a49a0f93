import Verif.Props.Relaxation
import Verif.Props.EagerSearch

/-
C23 and C31 combined: A* with h^max, from the state registry and the open list down to the queue of the heuristic.
-/
namespace Verif.Relax
open Verif.Search Verif.OpenList

/-- the members of the heuristic object between two evaluations -/
def Ready : Type := { st : RSt // ∃ bag, AdaptiveQueue.Rep st.queue bag }

section
variable (H : AdaptiveQueue.StdHeap Nat) {t : Task} (hv : t.FactsValid)

open Classical in
/-- the evaluation of a state: evaluator 0 is h^max, evaluator 1 is g + h^max.  Sequences of values that are not
states of the task do not occur. -/
noncomputable def hmaxEval (σ : Ready) (s : State) (g : Int) (pref : Bool) : Option (Ctx × Ready) :=
  if hs : t.ValidState s then
    match hr : hmax H t s σ.1 with
    | none => none
    | some (none, st) => some (⟨fun _ => infty, pref⟩, ⟨st, (hmax_result H hv hs σ.2 hr).2⟩)
    | some (some n, st) => if 0 ≤ g ∧ g + n < infty then some (⟨fun ev => if ev = 0 then n else g + n, pref⟩, ⟨st, (hmax_result H hv hs σ.2 hr).2⟩) else none
  else some (⟨fun _ => infty, pref⟩, σ)

/-- an A* configuration with h^max; the heuristic object is threaded through the search -/
noncomputable def hmaxEnv : Env State Ready where
  notifyInitial σ _ := σ
  notifyTransition σ _ _ _ := σ
  eval := hmaxEval H hv
  reeval σ s g := hmaxEval H hv σ s g false
  preferredOps σ _ _ := ([], σ)
  prune σ _ l := (l, σ)
  progress σ _ := (false, σ)
  fStatistics σ _ _ := σ
  lazyEvaluator := none
  cachedEstimate _ _ := none

theorem hmaxEval_cases {σ σ' : Ready} {s : State} {g : Int} {pref : Bool} {c : Ctx} (h : hmaxEval H hv σ s g pref = some (c, σ')) :
    ((∀ ev, c.value ev = infty) ∧ (t.ValidState s → ∀ n, ¬t.HmaxGoalLe s n)) ∨
    (0 ≤ g ∧ ∃ n : Nat, g + n < infty ∧ (∀ ev, c.value ev = if ev = 0 then (n : Int) else g + n) ∧ ∀ k, t.HmaxGoalLe s k → n ≤ k) := by
  unfold hmaxEval at h
  split at h
  · rename_i hs
    split at h
    · simp at h
    · rename_i st hr
      simp only [Option.some.injEq, Prod.mk.injEq] at h
      obtain ⟨rfl, _⟩ := h
      exact Or.inl ⟨fun _ => rfl, fun _ => (hmax_result H hv hs σ.2 hr).1⟩
    · rename_i n st hr
      split at h
      · rename_i hg
        simp only [Option.some.injEq, Prod.mk.injEq] at h
        obtain ⟨rfl, _⟩ := h
        exact Or.inr ⟨hg.1, n, hg.2, fun _ => rfl, (hmax_result H hv hs σ.2 hr).1.2⟩
      · simp at h
  · rename_i hs
    simp only [Option.some.injEq, Prod.mk.injEq] at h
    obtain ⟨rfl, _⟩ := h
    exact Or.inl ⟨fun _ => rfl, fun h => absurd h hs⟩

theorem hmaxEnv_yields {s : State} {g : Int} {c : Ctx} (h : (hmaxEnv H hv).Yields s g c) :
    ((∀ ev, c.value ev = infty) ∧ (t.ValidState s → ∀ n, ¬t.HmaxGoalLe s n)) ∨
    (0 ≤ g ∧ ∃ n : Nat, g + n < infty ∧ (∀ ev, c.value ev = if ev = 0 then (n : Int) else g + n) ∧ ∀ k, t.HmaxGoalLe s k → n ≤ k) := by
  rcases h with ⟨env, pref, env', h⟩ | ⟨env, env', h⟩
  · exact hmaxEval_cases H hv h
  · exact hmaxEval_cases H hv h

theorem hmaxEnv_legal : (hmaxEnv H hv).Legal := by
  have key : ∀ s g c, (hmaxEnv H hv).Yields s g c → ∀ ev, intMin < c.value ev := by
    intro s g c hy ev
    rcases hmaxEnv_yields H hv hy with ⟨h1, _⟩ | ⟨h1, n, h2, h3, _⟩
    · rw [h1]; decide
    · rw [h3]
      unfold intMin
      split <;> omega
  exact ⟨fun s g c hc => key s g c (Or.inl hc), fun s g c hc => key s g c (Or.inr hc)⟩

theorem hmaxEnv_prunesOnly : (hmaxEnv H hv).PrunesOnly := by rintro s l os ⟨env, rfl⟩ o ho; exact ho
theorem hmaxEnv_prunesNothing : (hmaxEnv H hv).PrunesNothing := by rintro s l os ⟨env, rfl⟩ o ho; exact ho

theorem hmaxEnv_weighted (hwf : t.WF) (hax : t.axioms = []) : (hmaxEnv H hv).Weighted t .normal 1 0 1 := by
  intro s g c hs hg hy
  rcases hmaxEnv_yields H hv hy with ⟨h1, h2⟩ | ⟨h1, n, h2, h3, h4⟩
  · left
    refine ⟨h1 0, h1 1, ?_⟩
    rintro ⟨π, hπ⟩
    exact h2 hs _ (hmax_plan hwf hax hπ)
  · right
    rw [h3, h3]
    simp only [if_true, if_neg (by decide : ¬(1 : Nat) = 0)]
    refine ⟨by omega, by omega, by simp, h2, fun π hπ => ?_⟩
    have := h4 _ (hmax_plan hwf hax hπ)
    exact_mod_cast this

theorem hmaxEnv_safe (hwf : t.WF) (hax : t.axioms = []) (evs : List Nat) : (hmaxEnv H hv).SafeFor t evs := by
  rintro s g c hs hg hy ⟨ev, _, he⟩
  rcases hmaxEnv_yields H hv hy with ⟨h1, h2⟩ | ⟨h1, n, h2, h3, h4⟩
  · rintro ⟨π, hπ⟩
    exact h2 hs _ (hmax_plan hwf hax hπ)
  · exfalso
    rw [h3] at he
    split at he <;> omega

theorem hmaxEnv_total {B : Nat} (hB : ∀ o ∈ t.ops, o.cost ≤ B) (hov : ((t.vars.map (·.domain)).sum + 1) * B < 2 ^ 30) : (hmaxEnv H hv).Total := by
  have key : ∀ σ s g pref, 0 ≤ g → g < 2 ^ 29 → ∃ c σ', hmaxEval H hv σ s g pref = some (c, σ') := by
    intro σ s g pref hg hg'
    unfold hmaxEval
    split
    · rename_i hs
      have hB' : ∀ o ∈ (RTask.ofTask t).ops, o.base ≤ B := by
        intro o ho
        obtain ⟨i, cs, f, c, h, rfl⟩ := mem_allUnary.mp (simplify_subset _ _ ho)
        cases h with
        | op i op e h1 h2 => exact hB op (List.mem_of_getElem? h1)
        | ax a e h1 h2 => exact Nat.zero_le _
      obtain ⟨bag, hb⟩ := σ.2
      obtain ⟨v, st', h1, h2⟩ := max_defined H (ofTask_ok hv (K := .max) (by simp)) hB' (show (countFacts t + 1) * B < 2 ^ 31 by unfold countFacts; omega) (factsOf_lt hs) (ofTask_goals hv) hb
      have hm : hmax H t s σ.1 = some (v, st') := h1
      split
      · rename_i hr; rw [hm] at hr; simp at hr
      · exact ⟨_, _, rfl⟩
      · rename_i n st hr
        rw [hm] at hr
        simp only [Option.some.injEq, Prod.mk.injEq] at hr
        obtain ⟨rfl, rfl⟩ := hr
        have hn := max_value hB' h2
        have hle : (RTask.ofTask t).numProps * B ≤ ((t.vars.map (·.domain)).sum + 1) * B := Nat.mul_le_mul_right _ (by show countFacts t ≤ _; unfold countFacts; omega)
        rw [if_pos ⟨hg, by unfold infty; omega⟩]
        exact ⟨_, _, rfl⟩
    · exact ⟨_, _, rfl⟩
  exact ⟨fun σ s g pref => key σ s g pref, fun σ s g => key σ s g false⟩

/-- C23 and C31: A* with h^max, on a task without axioms whose costs fit into the C++ types, ends; it returns a plan of minimal cost
if there is a plan, and fails otherwise.  `u` is any choice made by the successor generator, `H` and `H'` any implementations of the
standard heap functions, `rel` any assignment of "dead ends are reliable", `rng` and `σ` any initial states. -/
theorem C23_astar_hmax {t : Task} (hwf : t.WF) (hax : t.axioms = []) {B : Nat} (hB : ∀ o ∈ t.ops, o.cost ≤ B) (hov : ((t.vars.map (·.domain)).sum + 1) * B < 2 ^ 30) (hfit : t.FitsTypes .normal)
    (hcost : ∀ i, t.opCost i < 2 ^ 29) (u : Nat → Nat → Bool) (H : AdaptiveQueue.StdHeap Nat) (H' : StdHeap State) (rel : Nat → Bool) (rng : Rng) (σ : Ready) :
    ∃ n, match Eager.search (World.ofTask t u .normal) (hmaxEnv H (WF_factsValid hwf hax)) H' rel ⟨true, 2147483647⟩ (.tiebreaking false false [1, 0]) rng σ n with
      | some (.solved π) => t.IsPlan π ∧ ∀ ρ, t.IsPlan ρ → t.planCost π ≤ t.planCost ρ
      | some .failed => ¬∃ π, t.IsPlan π
      | _ => False := by
  have hcfg : Spec.WF (.tiebreaking false false [1, 0]) := by simp [Spec.WF]
  have hL := hmaxEnv_legal H (WF_factsValid hwf hax)
  have hpr := hmaxEnv_prunesOnly H (WF_factsValid hwf hax)
  have hpn := prunesNothing_safely (t := t) (hmaxEnv_prunesNothing H (WF_factsValid hwf hax))
  obtain ⟨n, h | ⟨π, h⟩⟩ := C22_eager_ends hwf u .normal hL hpr H' rel ⟨true, 2147483647⟩ (.tiebreaking false false [1, 0]) rng σ hcfg rfl (hmaxEnv_total H _ hB hov) hfit
  · refine ⟨n, ?_⟩
    rw [h]
    exact C22_eager_complete hwf u .normal hL hpr H' rel _ _ rng σ hcfg (by simp [Spec.Unrestricted]) hpn (hmaxEnv_safe H _ hwf hax _) (Or.inl ⟨rfl, hcost, by decide⟩) h
  · refine ⟨n, ?_⟩
    rw [h]
    exact C23_astar_optimal hwf u hL hpr H' rel _ rng σ hpn (hmaxEnv_weighted H _ hwf hax) rfl h

end

/-- the hypotheses are met by the task of the examples -/
example : relTask.FitsTypes .normal ∧ (∀ i, relTask.opCost i < 2 ^ 29) ∧ (∀ o ∈ relTask.ops, o.cost ≤ 3) ∧ ((relTask.vars.map (·.domain)).sum + 1) * 3 < 2 ^ 30 := by
  have h : ∀ i, relTask.opCost i ≤ 3 := by
    intro i
    match i with
    | 0 | 1 | 2 => decide
    | n + 3 => simp [Task.opCost, relTask]
  exact ⟨⟨3, fun i => ⟨h i, h i⟩, by decide⟩, fun i => by have := h i; omega, by decide, by decide⟩

example : relTask.axioms = [] ∧ relTask.WF := ⟨rfl, relTask_wf⟩

end Verif.Relax
