import Verif.Lemmas.StubbornEC
import Verif.Lemmas.StubbornAC
import Verif.Lemmas.AstarHeuristic

/-
Safe pruning methods in A* search.
-/
namespace Verif.Search
open Verif.OpenList Verif.Stubborn

/-- A pruning method whose members are in `L` is defined for all non-goal states, and its selections are safe; it never adds operators. -/
structure SafePruner (t : Task) {L : Type} (pr : L → State → List Nat → Option (List Nat × L)) : Prop where
  only : ∀ l s ops os l', pr l s ops = some (os, l') → ∀ i ∈ os, i ∈ ops
  safe : ∀ l s ops, t.ValidState s → ¬ allHold t.goal s → t.ApplicableOps s ops → ∃ os l', pr l s ops = some (os, l') ∧ t.SafeSelection s os

/-- the search configuration with another pruning method (`SafePruner.safe`: `none` does not occur) -/
def Env.withPruning {S σ L : Type} (E : Env S σ) (pr : L → S → List Nat → Option (List Nat × L)) : Env S (σ × L) where
  notifyInitial e s := (E.notifyInitial e.1 s, e.2)
  notifyTransition e s i s' := (E.notifyTransition e.1 s i s', e.2)
  eval e s g pref := (E.eval e.1 s g pref).map (fun x => (x.1, (x.2, e.2)))
  reeval e s g := (E.reeval e.1 s g).map (fun x => (x.1, (x.2, e.2)))
  preferredOps e s g := ((E.preferredOps e.1 s g).1, ((E.preferredOps e.1 s g).2, e.2))
  prune e s ops := match pr e.2 s ops with
    | none => ([], e)
    | some (os, l) => (os, (e.1, l))
  progress e c := ((E.progress e.1 c).1, ((E.progress e.1 c).2, e.2))
  fStatistics e s f := (E.fStatistics e.1 s f, e.2)
  lazyEvaluator := E.lazyEvaluator
  cachedEstimate e s := E.cachedEstimate e.1 s

section
variable {S σ L : Type} {E : Env S σ} {pr : L → S → List Nat → Option (List Nat × L)}

theorem withPruning_evals {s : S} {g : Int} {c : Ctx} (h : (E.withPruning pr).Evals s g c) : E.Evals s g c := by
  obtain ⟨env, pref, env', h⟩ := h
  simp only [Env.withPruning, Option.map_eq_some_iff] at h
  obtain ⟨⟨c', e'⟩, h1, h2⟩ := h
  simp only [Prod.mk.injEq] at h2
  exact ⟨env.1, pref, e', by rw [h1, h2.1]⟩

theorem withPruning_reevals {s : S} {g : Int} {c : Ctx} (h : (E.withPruning pr).Reevals s g c) : E.Reevals s g c := by
  obtain ⟨env, env', h⟩ := h
  simp only [Env.withPruning, Option.map_eq_some_iff] at h
  obtain ⟨⟨c', e'⟩, h1, h2⟩ := h
  simp only [Prod.mk.injEq] at h2
  exact ⟨env.1, e', by rw [h1, h2.1]⟩

theorem withPruning_yields {s : S} {g : Int} {c : Ctx} (h : (E.withPruning pr).Yields s g c) : E.Yields s g c :=
  h.imp withPruning_evals withPruning_reevals

theorem withPruning_legal (h : E.Legal) : (E.withPruning pr).Legal :=
  ⟨fun s g c hc => h.eval s g c (withPruning_evals hc), fun s g c hc => h.reeval s g c (withPruning_reevals hc)⟩

theorem withPruning_total (h : E.Total) : (E.withPruning pr).Total where
  eval env s g pref h1 h2 := by
    obtain ⟨c, e, he⟩ := h.eval env.1 s g pref h1 h2
    exact ⟨c, (e, env.2), by simp [Env.withPruning, he]⟩
  reeval env s g h1 h2 := by
    obtain ⟨c, e, he⟩ := h.reeval env.1 s g h1 h2
    exact ⟨c, (e, env.2), by simp [Env.withPruning, he]⟩
end

section
variable {t : Task} {σ L : Type} {E : Env State σ} {pr : L → State → List Nat → Option (List Nat × L)}

theorem withPruning_only (hp : SafePruner t pr) : (E.withPruning pr).PrunesOnly := by
  rintro s l os ⟨env, rfl⟩ o ho
  simp only [Env.withPruning] at ho
  split at ho
  · simp at ho
  · rename_i os' l' h
    exact hp.only _ _ _ _ _ h o ho

theorem withPruning_safely (hp : SafePruner t pr) : (E.withPruning pr).PrunesSafely t := by
  rintro s l os hs hg hl ⟨env, rfl⟩ π hπ
  obtain ⟨os, l', h1, h2⟩ := hp.safe env.2 s l hs hg hl
  obtain ⟨i, ρ, h3, h4⟩ := h2 π hπ
  exact ⟨i, ρ, by simpa [Env.withPruning, h1] using h3, h4⟩

variable {M : Type} {R : M → Prop} {f : State → M → Option (Option Nat × M)} (hf : AdmissibleObject t R f)

/-- A* with an admissible heuristic and a safe pruning method ends; it returns a plan of minimal cost if there is a plan, and fails otherwise. -/
theorem astar_object_pruning (hwf : t.WF) (hfit : t.FitsTypes .normal) (hcost : ∀ i, t.opCost i < 2 ^ 29) (hp : SafePruner t pr) (u : Nat → Nat → Bool) (H : StdHeap State) (rel : Nat → Bool) (rng : Rng) (σ : { m : M // R m } × L) :
    ∃ n, OptimalResult t (Eager.search (World.ofTask t u .normal) ((objEnv hf).withPruning pr) H rel ⟨true, 2147483647⟩ (.tiebreaking false false [1, 0]) rng σ n) := by
  have hcfg : Spec.WF (.tiebreaking false false [1, 0]) := by simp [Spec.WF]
  have hL := withPruning_legal (pr := pr) (objEnv_legal hf)
  have hpr := withPruning_only (E := objEnv hf) hp
  have hpn := withPruning_safely (E := objEnv hf) hp
  obtain ⟨n, h | ⟨π, h⟩⟩ := C22_eager_ends hwf u .normal hL hpr H rel ⟨true, 2147483647⟩ (.tiebreaking false false [1, 0]) rng σ hcfg rfl (withPruning_total (objEnv_total hf)) hfit
  · refine ⟨n, ?_⟩
    rw [h]
    exact C22_eager_complete hwf u .normal hL hpr H rel _ _ rng σ hcfg (by simp [Spec.Unrestricted]) hpn (fun s g c h1 h2 h3 => objEnv_safe hf _ s g c h1 h2 (withPruning_yields h3)) (Or.inl ⟨rfl, hcost, by decide⟩) h
  · refine ⟨n, ?_⟩
    rw [h]
    exact C23_astar_optimal hwf u hL hpr H rel _ rng σ hpn (fun s g c h1 h2 h3 => objEnv_weighted hf s g c h1 h2 (withPruning_yields h3)) rfl h
end

end Verif.Search

namespace Verif.Stubborn
open Verif.Search

/-- `loop` with a bound on the number of iterations, for examples -/
def loopFuel {W α : Type} (pop : W → Option (α × W)) (handle : W → α → Option W) : Nat → W → Option W
  | 0, _ => none
  | n + 1, w =>
    match pop w with
    | none => some w
    | some (a, w') =>
      match handle w' a with
      | none => none
      | some w'' => loopFuel pop handle n w''

theorem loopFuel_sound {W α : Type} {pop : W → Option (α × W)} {handle : W → α → Option W} {n : Nat} {w w' : W} (h : loopFuel pop handle n w = some w') : loop pop handle w = some w' := by
  induction n generalizing w with
  | zero => simp [loopFuel] at h
  | succ n ih =>
    rw [loop]
    unfold loopFuel at h
    cases hp : pop w with
    | none => simpa [hp] using h
    | some x =>
      obtain ⟨a, w1⟩ := x
      simp only [hp] at h ⊢
      cases hh : handle w1 a with
      | none => simp [hh] at h
      | some w2 =>
        simp only [hh] at h ⊢
        exact ih h

/-- for examples -/
def pruneSimpleFuel (n : Nat) (t : Task) (s : State) (ops : List Nat) : Option (List Nat) :=
  ((initSimple t s).bind (loopFuel Work.pop (handleSimple t s) n)).map (fun w => keep w.stubborn ops)

theorem pruneSimpleFuel_sound {n : Nat} {t : Task} {s : State} {ops os : List Nat} (h : pruneSimpleFuel n t s ops = some os) : pruneSimple t s ops = some os := by
  simp only [pruneSimpleFuel, Option.map_eq_some_iff, Option.bind_eq_some_iff] at h
  obtain ⟨w, ⟨w0, h1, h2⟩, h3⟩ := h
  simp only [pruneSimple, computeSimple, h1, loopFuel_sound h2, Option.map_some, h3]

/-- for examples -/
def pruneACFuel (n : Nat) (t : Task) (sc : Bool) (st : Strategy) (s : State) (ops : List Nat) : Option (List Nat) :=
  match AC.empty.select t s st (sortFacts t.goal) with
  | some (some g) => (loopFuel AC.pop (AC.handle t s sc st) n (AC.empty.enqueueP g)).map (fun w => keep w.stubborn ops)
  | _ => none

theorem pruneACFuel_sound {n : Nat} {t : Task} {sc : Bool} {st : Strategy} {s : State} {ops os : List Nat} (h : pruneACFuel n t sc st s ops = some os) : pruneAC t sc st s ops = some os := by
  unfold pruneACFuel at h
  split at h
  · rename_i g hg
    simp only [Option.map_eq_some_iff] at h
    obtain ⟨w, h2, h3⟩ := h
    simp only [pruneAC, computeAC, hg, loopFuel_sound h2, Option.map_some, h3]
  · simp at h

end Verif.Stubborn
