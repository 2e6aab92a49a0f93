import Verif.Lemmas.SaturationRun
import Verif.Props.Cartesian

/-
C41: saturated cost partitioning.
-/
namespace Verif.Cart
open Verif.AdaptiveQueue

variable {t : Task}

theorem costAt_ops {op : Nat} : costAt (t.ops.map (·.cost)) op = t.opCost op := by simp [costAt, Task.opCost]

/-- C41: the heuristic functions are computed for every sequence of sound subtasks (if the distances cannot exceed the range of ints).  In every reachable state the sum is computed; if it
reports a dead end, there is no plan for the state; otherwise the sum is at most the cost of every plan for the state. -/
theorem C41_admissible (H : StdHeap Nat) (general : Bool) {subs : List Subtask} {ns : List Nat} (hs : List.Forall₂ (Sound t) subs ns) (hC : ∀ o ∈ t.ops, o.cost < 2 ^ 31 - 1) (hb : Fits H general subs ns (t.ops.map (·.cost)) (2 ^ 31 - 1)) :
    ∃ fs, saturate H general subs (t.ops.map (·.cost)) = some fs ∧ ∀ s, t.Reachable s → ∃ r, additiveValue fs s = some r ∧
      (r = none → ∀ π, ¬ t.SolvesFrom s π) ∧ ∀ n, r = some n → ∀ π, t.SolvesFrom s π → n ≤ t.planCost π := by
  have hinf : infinite = 2 ^ 31 - 1 := rfl
  have hle : ∀ c ∈ t.ops.map (·.cost), c < infinite := by intro c hc; obtain ⟨o, ho, rfl⟩ := List.mem_map.mp hc; exact hC o ho
  obtain ⟨fs, hvs, h1, h2, h3, h4, h5⟩ := saturate_spec H general subs ns (t.ops.map (·.cost)) _ hs (by simp) (fun c hc => Nat.le_of_lt (hle c hc)) hb
  refine ⟨fs, h1, fun s hr => ?_⟩
  have hfin : ∀ op, op < t.ops.length → costAt (t.ops.map (·.cost)) op < infinite := by
    intro op ho
    unfold costAt
    rw [List.getElem?_eq_getElem (by simpa using ho)]
    exact hle _ (List.getElem_mem _)
  have hadm : ∀ π, t.SolvesFrom s π → (∀ hv ∈ hvs, hv s ≠ infinite) ∧ (hvs.map (fun hv => hv s)).sum ≤ t.planCost π := by
    rintro π ⟨u, hu, hg⟩
    have := h2.admissible hfin (fun hv hm s hr hg => (h3 hv hm s hr).2 hg) hu hr hg
    refine ⟨this.1, Nat.le_trans this.2 (Nat.le_of_eq ?_)⟩
    unfold Task.planCost
    congr 1
    exact List.map_congr_left (fun op _ => costAt_ops)
  have h6 := sumValues_spec hr h4 0 (by have := h5 s hr; omega)
  by_cases hd : ∃ hv ∈ hvs, hv s = infinite
  · refine ⟨none, h6.1 hd, fun _ π hπ => ?_, by simp⟩
    obtain ⟨hv, hm, he⟩ := hd
    exact (hadm π hπ).1 hv hm he
  · push Not at hd
    refine ⟨_, h6.2 hd, by simp, fun n hn π hπ => ?_⟩
    simp at hn
    have := (hadm π hπ).2
    omega

/-- C41: the heuristic is consistent. -/
theorem C41_consistent (H : StdHeap Nat) (general : Bool) {subs : List Subtask} {ns : List Nat} (hs : List.Forall₂ (Sound t) subs ns) (hC : ∀ o ∈ t.ops, o.cost < 2 ^ 31 - 1) (hb : Fits H general subs ns (t.ops.map (·.cost)) (2 ^ 31 - 1)) {fs : List HFun}
    (hf : saturate H general subs (t.ops.map (·.cost)) = some fs) {s s' : State} {op : Nat} (hr : t.Reachable s) (hst : t.Step s op s') :
    (additiveValue fs s = some none → additiveValue fs s' = some none) ∧ ∀ n n', additiveValue fs s = some (some n) → additiveValue fs s' = some (some n') → n ≤ t.opCost op + n' := by
  have hinf : infinite = 2 ^ 31 - 1 := rfl
  have hle : ∀ c ∈ t.ops.map (·.cost), c < infinite := by intro c hc; obtain ⟨o, ho, rfl⟩ := List.mem_map.mp hc; exact hC o ho
  obtain ⟨fs', hvs, h1, h2, h3, h4, h5⟩ := saturate_spec H general subs ns (t.ops.map (·.cost)) _ hs (by simp) (fun c hc => Nat.le_of_lt (hle c hc)) hb
  rw [hf] at h1
  simp at h1
  subst h1
  have hfin : ∀ op, op < t.ops.length → costAt (t.ops.map (·.cost)) op < infinite := by
    intro op ho
    unfold costAt
    rw [List.getElem?_eq_getElem (by simpa using ho)]
    exact hle _ (List.getElem_mem _)
  have hr' := Reachable.step hr hst
  obtain ⟨m1, m2⟩ := h2.main (fun _ => False) (fun _ _ _ _ _ h => h) (fun s op s' _ hst h => absurd h (Nat.ne_of_lt (hfin op (step_op hst)))) (fun op ho => Nat.le_of_lt (hfin op ho))
  simp only [false_or] at m1 m2
  have a1 := sumValues_spec hr h4 0 (by have := h5 s hr; omega)
  have a2 := sumValues_spec hr' h4 0 (by have := h5 s' hr'; omega)
  unfold additiveValue
  refine ⟨fun h => a2.1 (m1 s op s' hr hst ?_), fun n n' hn hn' => ?_⟩
  · by_contra hno
    push Not at hno
    rw [a1.2 hno] at h
    simp at h
  · have d1 : ¬ ∃ hv ∈ hvs, hv s = infinite := fun hd => by rw [a1.1 hd] at hn; simp at hn
    have d2 : ¬ ∃ hv ∈ hvs, hv s' = infinite := fun hd => by rw [a2.1 hd] at hn'; simp at hn'
    have := m2 s op s' hr hst d1 d2
    push Not at d1 d2
    rw [a1.2 d1] at hn
    rw [a2.2 d2] at hn'
    simp at hn hn'
    rw [costAt_ops] at this
    omega

end Verif.Cart
