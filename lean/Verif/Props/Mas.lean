import Verif.Lemmas.MasAlgorithm
import Verif.Lemmas.SimpleTask

/-
C38: the factors of merge-and-shrink are abstractions of the task, and the heuristic is admissible and consistent.
-/
namespace Verif.Mas
open Verif.AdaptiveQueue

/-- the factored transition systems that arise from the atomic one by any sequence of merges, shrinking, label reductions and pruning, where unreachable states are pruned only
if `U` is set -/
inductive Derived (O : HashOrder) (H : StdHeap Nat) (t : Task) (U ci cg : Bool) : FTS → Prop where
  | atomic {F} : createFts H t ci cg = some F → Derived O H t U ci cg F
  | merge {F F'} (i j) : Derived O H t U ci cg F → F.merge O H i j = some F' → Derived O H t U ci cg F'
  | shrink {F F'} (i rel f) : Derived O H t U ci cg F → F.factor i = some f → Covers f.ts.size rel → F.applyAbstraction H i rel = some F' → Derived O H t U ci cg F'
  | reduce {F F'} (i b) : Derived O H t U ci cg F → F.reduceAt O i = some (F', b) → Derived O H t U ci cg F'
  | prune {F F'} (U' I i) : Derived O H t U ci cg F → (U' = true → U = true) → F.pruneStep H U' I i = some F' → Derived O H t U ci cg F'

theorem derived_inv {O : HashOrder} {H : StdHeap Nat} {t : Task} (ht : MasTask t) (hax : t.axioms = []) {U ci cg : Bool} {F : FTS} (h : Derived O H t U ci cg F) : FtsInv t U F := by
  induction h with
  | atomic h => exact createFts_inv ht.wf hax ht.costs ht.single h
  | merge i j _ h ih => exact ih.merge ht.wf h
  | shrink i rel f _ hf hc h ih => exact ih.shrink ht.wf hf hc.1 hc.2 h
  | reduce i b _ h ih => exact ih.reduceAt h
  | prune U' I i _ hU h ih => exact ih.prune ht.wf hU h

theorem live_iff {t : Task} {U : Bool} {s : State} : Live t U s ↔ t.ValidState s ∧ Solvable t U s := Iff.rfl

/-- C38: Through any sequence of merges, shrinking steps, label reductions and pruning steps, every factor remains an abstraction of the task, and its goal distances and its distances from the
initial state do not exceed the costs of plans and of paths. -/
theorem C38_operations {O : HashOrder} {H : StdHeap Nat} {t : Task} (ht : MasTask t) (hax : t.axioms = []) {U ci cg : Bool} {F : FTS} (h : Derived O H t U ci cg F) {i : Nat} {f : Factor} (hf : F.factor i = some f) :
    IsAbstraction t U f.ts f.repr.value ∧
    (∀ ds, f.dist.goal = some ds → ∀ s, t.ValidState s → ∀ π, t.SolvesFrom s π → t.planCost π < infinity → (U = true → ∃ ρ, t.Exec t.init ρ s ∧ t.planCost ρ + t.planCost π < infinity) →
      ∃ a d : Nat, f.repr.value s = some (some a) ∧ ds[a]? = some d ∧ d ≤ t.planCost π) ∧
    (∀ ds, f.dist.init = some ds → ∀ s ρ, t.Exec t.init ρ s → (∃ π, t.SolvesFrom s π ∧ t.planCost ρ + t.planCost π < infinity) →
      ∃ a d : Nat, f.repr.value s = some (some a) ∧ ds[a]? = some d ∧ d ≤ t.planCost ρ) := by
  obtain ⟨lab, hl, hall⟩ := derived_inv ht hax h
  have hI := (hall i f hf).1
  refine ⟨⟨fun s hs => ?_, fun i o s s' a b hs ho ha hsu h1 h2 => ?_, fun s a hs hg h1 => hI.goal s a hs hg h1, hI.init, fun s hs hso => hI.live s ⟨hs, hso⟩⟩, ?_, ?_⟩
  · obtain ⟨o, h1, h2⟩ := hI.repr.value hs
    exact ⟨o, h1, fun a ha => hI.dom ▸ h2 a ha⟩
  · obtain ⟨c, h3, h4⟩ := tr_arc hI.ok (hI.tr i o s s' a b hs ho ha hsu h1 h2) (hl.cost i (op_lt ho))
    exact ⟨c, h3, h4⟩
  · intro ds hds s hs π hπ hc hU
    have hd := hI.dist.goal ds hds
    have hv : LiveVia t U s π := ⟨hs, hπ, hc, hU⟩
    obtain ⟨a, ha⟩ := hI.live s hv.live
    have hlt : a < ds.length := by rw [hd.length]; exact hI.lt hs ha
    have e := List.getElem?_eq_getElem hlt
    obtain ⟨u, h1, h2⟩ := hπ
    exact ⟨a, _, ha, e, hI.goal_le ht.wf hl hd h1 h2 hv a _ ha e⟩
  · intro ds hds s ρ hρ ⟨π, hπ, hc⟩
    have hd := hI.dist.init ds hds
    have hs := Search.exec_valid ht.wf ht.wf.init hρ
    have hv : LiveVia t U s π := ⟨hs, hπ, by rw [inf_eq] at hc; omega, fun _ => ⟨ρ, hρ, hc⟩⟩
    obtain ⟨a, ha⟩ := hI.live s hv.live
    have hlt : a < ds.length := by rw [hd.length]; exact hI.lt hs ha
    have e := List.getElem?_eq_getElem hlt
    obtain ⟨w, hw, hg⟩ := id hπ
    have hlive : LiveVia t U t.init (ρ ++ π) := ⟨ht.wf.init, ⟨w, exec_append hρ hw, hg⟩, by rw [planCost_append]; exact hc, fun _ => ⟨[], .nil _, by rw [planCost_append]; simpa [Task.planCost, ← inf_eq] using hc⟩⟩
    obtain ⟨j, hj⟩ := hI.live _ hlive.live
    have hinit : f.ts.init = some j := by
      have := hI.init
      rw [hj] at this
      simpa using this.symm
    have := hI.init_le ht.wf hl hd hρ hπ hlive j 0 a _ hj (hd.zero j hinit) ha e
    exact ⟨a, _, ha, e, by omega⟩

theorem total_value : ∀ {r : Repr} {s : State} {v : Option Nat}, r.total = true → r.value s = some v → ∃ a, v = some a
  | .leaf _ x table, s, v, ht, h => by
    simp only [Repr.total, List.all_eq_true] at ht
    simp only [Repr.value] at h
    split at h
    · simp at h
    · exact Option.isSome_iff_exists.mp (ht v (List.mem_of_getElem? h))
  | .merge _ l r table, s, v, ht, h => by
    simp only [Repr.total, List.all_eq_true, Bool.and_eq_true] at ht
    obtain ⟨h1, h2, h3⟩ := ht
    simp only [Repr.value] at h
    split at h
    · rename_i a b _ _
      split at h
      · simp at h
      · rename_i row hrow
        exact Option.isSome_iff_exists.mp (h1 row (List.mem_of_getElem? hrow) v (List.mem_of_getElem? h))
    · rename_i x y hne hl hr
      obtain ⟨a, rfl⟩ := total_value h2 hl
      obtain ⟨b, rfl⟩ := total_value h3 hr
      exact (hne a b rfl rfl).elim
    · simp at h

/-- C38: the factors left out of the heuristic because they are trivial map all states to goal states: their distances are 0 and would not change the maximum. -/
theorem C38_trivial {O : HashOrder} {H : StdHeap Nat} {t : Task} (ht : MasTask t) (hax : t.axioms = []) {U ci cg : Bool} {F : FTS} (h : Derived O H t U ci cg F) {i : Nat} {f : Factor} (hf : F.factor i = some f)
    (htr : f.trivial = true) {s : State} (hs : t.ValidState s) : ∃ a : Nat, f.repr.value s = some (some a) ∧ f.ts.goals[a]? = some true := by
  obtain ⟨lab, hl, hall⟩ := derived_inv ht hax h
  have hI := (hall i f hf).1
  obtain ⟨o, h1, h2⟩ := hI.repr.value hs
  simp only [Factor.trivial, Bool.and_eq_true, List.all_eq_true, id_eq] at htr
  obtain ⟨a, rfl⟩ := total_value htr.1 h1
  refine ⟨a, h1, ?_⟩
  have hlt : a < f.ts.goals.length := by
    have := h2 a rfl
    rw [hI.dom] at this
    exact this
  rw [List.getElem?_eq_getElem hlt, htr.2 _ (List.getElem_mem hlt)]

/-- C38: For all options, all choices of the merge strategy, all shrink strategies that return classes containing all states and all points in time at which the time limit is reached: when the
heuristic has been constructed, it has a value for every state; the value of a state that has a plan (which, if unreachable states are pruned, continues a path from the initial state) is not DEAD_END and at most the cost of the plan.
Costs of paths must be less than infinity. -/
theorem C38_admissible (O : HashOrder) (H : StdHeap Nat) (c : Config) (hc : c.ShrinksAll) {t : Task} (ht : MasTask t) {rs : List Repr} (h : construct O H c t = some rs) {s : State} (hs : t.ValidState s) :
    ∃ v, heuristic rs s = some v ∧
      ∀ π, t.SolvesFrom s π → t.planCost π < infinity → (c.unreachable = true → ∃ ρ, t.Exec t.init ρ s ∧ t.planCost ρ + t.planCost π < infinity) → ∃ n, v = some n ∧ n ≤ t.planCost π := by
  unfold construct at h
  split at h
  · simp at h
  · rename_i F hF
    have hgood := extract_good (build_inv hc ht hF) h
    obtain ⟨v, hv⟩ := heuristicLoop_defined (h := 0) (fun r hr => (hgood r hr).defined hs)
    refine ⟨v, hv, fun π hπ hcost hU => ?_⟩
    have hlive : LiveVia t c.unreachable s π := ⟨hs, hπ, hcost, hU⟩
    have hall : ∀ rs : List Repr, (∀ r ∈ rs, Good t c.unreachable r) → ∀ h0, h0 ≤ t.planCost π → ∃ n, heuristicLoop s rs h0 = some (some n) ∧ n ≤ t.planCost π := by
      intro rs
      induction rs with
      | nil => intro _ h0 hle; exact ⟨h0, rfl, hle⟩
      | cons r rs ih =>
        intro hg h0 hle
        obtain ⟨n, h1, h2, h3⟩ := (hg r (by simp)).admissible ht.wf hlive
        simp only [heuristicLoop, h1]
        rw [if_neg (by omega)]
        exact ih (fun r hr => hg r (by simp [hr])) _ (by omega)
    obtain ⟨n, h1, h2⟩ := hall rs hgood 0 (by omega)
    rw [h1] at hv
    simp only [Option.some.injEq] at hv
    exact ⟨n, hv.symm, h2⟩

/-- C38: the values that are not DEAD_END are consistent: 0 in goal states, and an operator decreases the value by at most its cost. -/
theorem C38_consistent (O : HashOrder) (H : StdHeap Nat) (c : Config) (hc : c.ShrinksAll) {t : Task} (ht : MasTask t) {rs : List Repr} (h : construct O H c t = some rs) :
    (∀ s n, t.ValidState s → allHold t.goal s → heuristic rs s = some (some n) → n = 0) ∧
    ∀ i o s s' n n', t.ValidState s → t.ops[i]? = some o → o.applicable s → t.SuccRel o s s' → heuristic rs s = some (some n) → heuristic rs s' = some (some n') → n ≤ t.opCost i + n' := by
  unfold construct at h
  split at h
  · simp at h
  · rename_i F hF
    have hgood := extract_good (build_inv hc ht hF) h
    refine ⟨fun s n hs hg hn => ?_, fun i o s s' n n' hs ho ha hsu hn hn' => ?_⟩
    · obtain ⟨_, _, h3⟩ := heuristicLoop_some.mp hn
      rcases h3 with h3 | ⟨r, h4, h5⟩
      · exact h3
      · exact (hgood r h4).goal hs hg h5
    · obtain ⟨_, _, h3⟩ := heuristicLoop_some.mp hn
      obtain ⟨k1, _, _⟩ := heuristicLoop_some.mp hn'
      rcases h3 with h3 | ⟨r, h4, h5⟩
      · omega
      · obtain ⟨v, h6, _, h7⟩ := k1 r h4
        have := (hgood r h4).consistent ht.wf hs ho ha hsu h5 h6
        omega

end Verif.Mas
