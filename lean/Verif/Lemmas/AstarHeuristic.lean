import Verif.Props.EagerSearch

/-
A* with any admissible heuristic object: the members of the object are threaded through the search.
-/
namespace Verif.Search
open Verif.OpenList

/-- `f` evaluates a state and changes the members of the heuristic object; if the members satisfy `R`, every
evaluation of a valid state returns an admissible value below 2^30 (or DEAD_END) and members that satisfy `R` -/
def AdmissibleObject (t : Task) {M : Type} (R : M → Prop) (f : State → M → Option (Option Nat × M)) : Prop :=
  ∀ s m, t.ValidState s → R m → ∃ v m', f s m = some (v, m') ∧ R m' ∧ (∀ n, v = some n → n < 2 ^ 30) ∧ ∀ π, t.SolvesFrom s π → ∃ n, v = some n ∧ n ≤ t.planCost π

/-- the search has ended with a plan of minimal cost, or has failed and there is no plan -/
def OptimalResult (t : Task) {X : Type} : Option (Res X) → Prop
  | some (.solved π) => t.IsPlan π ∧ ∀ ρ, t.IsPlan ρ → t.planCost π ≤ t.planCost ρ
  | some .failed => ¬∃ π, t.IsPlan π
  | _ => False

section
variable {t : Task} {M : Type} {R : M → Prop} {f : State → M → Option (Option Nat × M)} (hf : AdmissibleObject t R f)

include hf in
theorem AdmissibleObject.keep {s : State} {m m' : M} {v : Option Nat} (hs : t.ValidState s) (hm : R m) (h : f s m = some (v, m')) : R m' := by
  obtain ⟨v', m2, h1, h2, _⟩ := hf s m hs hm
  rw [h] at h1
  simp only [Option.some.injEq, Prod.mk.injEq] at h1
  rw [h1.2]; exact h2

open Classical in
/-- the evaluation of a state: evaluator 0 is the heuristic, evaluator 1 is g plus the heuristic.  Sequences of values that are not
states of the task do not occur. -/
noncomputable def objEval (σ : { m : M // R m }) (s : State) (g : Int) (pref : Bool) : Option (Ctx × { m : M // R m }) :=
  if hs : t.ValidState s then
    match hr : f s σ.1 with
    | none => none
    | some (none, m) => some (⟨fun _ => infty, pref⟩, ⟨m, hf.keep hs σ.2 hr⟩)
    | some (some n, m) => if 0 ≤ g ∧ g + n < infty then some (⟨fun ev => if ev = 0 then n else g + n, pref⟩, ⟨m, hf.keep hs σ.2 hr⟩) else none
  else some (⟨fun _ => infty, pref⟩, σ)

/-- an A* configuration with the heuristic -/
noncomputable def objEnv : Env State { m : M // R m } where
  notifyInitial σ _ := σ
  notifyTransition σ _ _ _ := σ
  eval := objEval hf
  reeval σ s g := objEval hf σ s g false
  preferredOps σ _ _ := ([], σ)
  prune σ _ l := (l, σ)
  progress σ _ := (false, σ)
  fStatistics σ _ _ := σ
  lazyEvaluator := none
  cachedEstimate _ _ := none

theorem objEval_cases {σ σ' : { m : M // R m }} {s : State} {g : Int} {pref : Bool} {c : Ctx} (h : objEval hf σ s g pref = some (c, σ')) :
    ((∀ ev, c.value ev = infty) ∧ (t.ValidState s → ∀ π, ¬t.SolvesFrom s π)) ∨
    (0 ≤ g ∧ ∃ n : Nat, g + n < infty ∧ (∀ ev, c.value ev = if ev = 0 then (n : Int) else g + n) ∧ ∀ π, t.SolvesFrom s π → n ≤ t.planCost π) := by
  unfold objEval at h
  split at h
  · rename_i hs
    obtain ⟨v, m2, k1, k2, k3, k4⟩ := hf s σ.1 hs σ.2
    split at h
    · simp at h
    · rename_i st hr
      simp only [Option.some.injEq, Prod.mk.injEq] at h
      obtain ⟨rfl, _⟩ := h
      rw [hr] at k1
      simp only [Option.some.injEq, Prod.mk.injEq] at k1
      refine Or.inl ⟨fun _ => rfl, fun _ π hπ => ?_⟩
      obtain ⟨n, e, _⟩ := k4 π hπ
      rw [← k1.1] at e
      simp at e
    · rename_i n st hr
      rw [hr] at k1
      simp only [Option.some.injEq, Prod.mk.injEq] at k1
      split at h
      · rename_i hg
        simp only [Option.some.injEq, Prod.mk.injEq] at h
        obtain ⟨rfl, _⟩ := h
        refine Or.inr ⟨hg.1, n, hg.2, fun _ => rfl, fun π hπ => ?_⟩
        obtain ⟨n', e, h5⟩ := k4 π hπ
        rw [← k1.1] at e
        simp only [Option.some.injEq] at e
        omega
      · simp at h
  · rename_i hs
    simp only [Option.some.injEq, Prod.mk.injEq] at h
    obtain ⟨rfl, _⟩ := h
    exact Or.inl ⟨fun _ => rfl, fun h => absurd h hs⟩

theorem objEnv_yields {s : State} {g : Int} {c : Ctx} (h : (objEnv hf).Yields s g c) :
    ((∀ ev, c.value ev = infty) ∧ (t.ValidState s → ∀ π, ¬t.SolvesFrom s π)) ∨
    (0 ≤ g ∧ ∃ n : Nat, g + n < infty ∧ (∀ ev, c.value ev = if ev = 0 then (n : Int) else g + n) ∧ ∀ π, t.SolvesFrom s π → n ≤ t.planCost π) := by
  rcases h with ⟨env, pref, env', h⟩ | ⟨env, env', h⟩
  · exact objEval_cases hf h
  · exact objEval_cases hf h

theorem objEnv_legal : (objEnv hf).Legal := by
  have key : ∀ s g c, (objEnv hf).Yields s g c → ∀ ev, intMin < c.value ev := by
    intro s g c hy ev
    rcases objEnv_yields hf hy with ⟨h1, _⟩ | ⟨h1, n, h2, h3, _⟩
    · rw [h1]; decide
    · rw [h3]
      unfold intMin
      split <;> omega
  exact ⟨fun s g c hc => key s g c (Or.inl hc), fun s g c hc => key s g c (Or.inr hc)⟩

theorem objEnv_prunesOnly : (objEnv hf).PrunesOnly := by rintro s l os ⟨env, rfl⟩ o ho; exact ho
theorem objEnv_prunesNothing : (objEnv hf).PrunesNothing := by rintro s l os ⟨env, rfl⟩ o ho; exact ho

theorem objEnv_weighted : (objEnv hf).Weighted t .normal 1 0 1 := by
  intro s g c hs hg hy
  rcases objEnv_yields hf hy with ⟨h1, h2⟩ | ⟨h1, n, h2, h3, h4⟩
  · left
    refine ⟨h1 0, h1 1, ?_⟩
    rintro ⟨π, hπ⟩
    exact h2 hs π hπ
  · right
    rw [h3, h3]
    simp only [if_true, if_neg (by decide : ¬(1 : Nat) = 0)]
    refine ⟨by omega, by omega, by simp, h2, fun π hπ => ?_⟩
    have := h4 π hπ
    exact_mod_cast this

theorem objEnv_safe (evs : List Nat) : (objEnv hf).SafeFor t evs := by
  rintro s g c hs hg hy ⟨ev, _, he⟩
  rcases objEnv_yields hf hy with ⟨h1, h2⟩ | ⟨h1, n, h2, h3, h4⟩
  · rintro ⟨π, hπ⟩
    exact h2 hs π hπ
  · exfalso
    rw [h3] at he
    split at he <;> omega

theorem objEnv_total : (objEnv hf).Total := by
  have key : ∀ σ s g pref, 0 ≤ g → g < 2 ^ 29 → ∃ c σ', objEval hf σ s g pref = some (c, σ') := by
    intro σ s g pref hg hg'
    unfold objEval
    split
    · rename_i hs
      obtain ⟨v, m2, k1, k2, k3, k4⟩ := hf s σ.1 hs σ.2
      split
      · rename_i hr; rw [k1] at hr; simp at hr
      · exact ⟨_, _, rfl⟩
      · rename_i n st hr
        rw [k1] at hr
        simp only [Option.some.injEq, Prod.mk.injEq] at hr
        have := k3 n hr.1
        rw [if_pos ⟨hg, by unfold infty; omega⟩]
        exact ⟨_, _, rfl⟩
    · exact ⟨_, _, rfl⟩
  exact ⟨fun σ s g pref => key σ s g pref, fun σ s g => key σ s g false⟩

/-- A* with an admissible heuristic object ends; it returns a plan of minimal cost if there is a plan, and fails otherwise. -/
theorem astar_object (hwf : t.WF) (hfit : t.FitsTypes .normal) (hcost : ∀ i, t.opCost i < 2 ^ 29) (u : Nat → Nat → Bool) (H : StdHeap State) (rel : Nat → Bool) (rng : Rng) (σ : { m : M // R m }) :
    ∃ n, OptimalResult t (Eager.search (World.ofTask t u .normal) (objEnv hf) H rel ⟨true, 2147483647⟩ (.tiebreaking false false [1, 0]) rng σ n) := by
  have hcfg : Spec.WF (.tiebreaking false false [1, 0]) := by simp [Spec.WF]
  have hL := objEnv_legal hf
  have hpr := objEnv_prunesOnly hf
  have hpn := prunesNothing_safely (t := t) (objEnv_prunesNothing hf)
  obtain ⟨n, h | ⟨π, h⟩⟩ := C22_eager_ends hwf u .normal hL hpr H rel ⟨true, 2147483647⟩ (.tiebreaking false false [1, 0]) rng σ hcfg rfl (objEnv_total hf) hfit
  · refine ⟨n, ?_⟩
    rw [h]
    exact C22_eager_complete hwf u .normal hL hpr H rel _ _ rng σ hcfg (by simp [Spec.Unrestricted]) hpn (objEnv_safe hf _) (Or.inl ⟨rfl, hcost, by decide⟩) h
  · refine ⟨n, ?_⟩
    rw [h]
    exact C23_astar_optimal hwf u hL hpr H rel _ rng σ hpn (objEnv_weighted hf) rfl h

end
end Verif.Search
