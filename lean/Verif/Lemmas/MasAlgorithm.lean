import Verif.Lemmas.MasAtomic

/-
The merge-and-shrink algorithm keeps all factors abstractions of the task; the heuristic is the largest goal distance.
-/
namespace Verif.Mas
open Verif.AdaptiveQueue

/-- the shrink strategy always returns classes which contain all states -/
def Config.ShrinksAll (c : Config) : Prop :=
  ∀ k T d n rel, (c.shrink1 k T d n = some rel → Covers T.size rel) ∧ (c.shrink2 k T d n = some rel → Covers T.size rel)

section
variable {t : Task} (hwf : t.WF) {O : HashOrder} {H : StdHeap Nat} {c : Config} (hc : c.ShrinksAll)

include hwf in
theorem FtsInv.shrinkFactor {U : Bool} {S : TS → Distances → Nat → Option (List (List Nat))} (hS : ∀ T d n rel, S T d n = some rel → Covers T.size rel) {F F' : FTS} (h : FtsInv t U F) {i n thr : Nat} (hF : F.shrinkFactor H S i n thr = some F') : FtsInv t U F' := by
  unfold FTS.shrinkFactor at hF
  cases hf : F.factor i with
  | none => rw [hf] at hF; simp at hF
  | some f =>
    rw [hf] at hF
    simp only at hF
    split at hF
    · cases hrel : S f.ts f.dist n with
      | none => rw [hrel] at hF; simp at hF
      | some rel =>
        rw [hrel] at hF
        obtain ⟨h1, h2⟩ := hS _ _ _ _ hrel
        exact h.shrink hwf hf h1 h2 hF
    · simp only [Option.some.injEq] at hF
      exact hF ▸ h

include hwf in
theorem FtsInv.shrinkStep {U : Bool} {S1 S2 : TS → Distances → Nat → Option (List (List Nat))} (hS1 : ∀ T d n rel, S1 T d n = some rel → Covers T.size rel) (hS2 : ∀ T d n rel, S2 T d n = some rel → Covers T.size rel) {F F' : FTS} (h : FtsInv t U F)
    {m b thr i j : Nat} (hF : F.shrinkStep H S1 S2 m b thr i j = some F') : FtsInv t U F' := by
  unfold FTS.shrinkStep at hF
  split at hF
  · split at hF
    · simp at hF
    · split at hF
      · simp at hF
      · rename_i F1 h1
        exact (h.shrinkFactor hwf hS1 h1).shrinkFactor hwf hS2 hF
  · simp at hF

include hwf in
theorem FtsInv.pruneIf {F F' : FTS} (h : FtsInv t c.unreachable F) {i : Nat} (hF : pruneIf H c F i = some F') : FtsInv t c.unreachable F' := by
  unfold Mas.pruneIf at hF
  split at hF
  · exact h.prune hwf id hF
  · simp only [Option.some.injEq] at hF
    exact hF ▸ h

theorem FtsInv.reduceIf {U : Bool} {F F' : FTS} {b : Reduction → Bool} {n : Nat} {pair : Nat × Nat} (h : FtsInv t U F) (hF : reduceIf O c b n pair F = some F') : FtsInv t U F' := by
  unfold Mas.reduceIf at hF
  split at hF
  · simp only [Option.some.injEq] at hF
    exact hF ▸ h
  · split at hF
    · exact h.reduce hF
    · simp only [Option.some.injEq] at hF
      exact hF ▸ h

include hwf hc in
theorem FtsInv.iteration {F F' : FTS} {n k : Nat} {b : Bool} (h : FtsInv t c.unreachable F) (hF : iteration O H c n k F = some (F', b)) : FtsInv t c.unreachable F' := by
  unfold Mas.iteration at hF
  split at hF
  · simp only [Option.some.injEq, Prod.mk.injEq] at hF
    exact hF.1 ▸ h
  · split at hF
    · simp at hF
    · rename_i F1 h1
      have i1 := h.reduceIf h1
      unfold shrinkMerge at hF
      split at hF
      · simp only [Option.some.injEq, Prod.mk.injEq] at hF
        exact hF.1 ▸ i1
      · split at hF
        · simp at hF
        · rename_i F2 h2
          have i2 := i1.shrinkStep hwf (fun T d n rel => (hc k T d n rel).1) (fun T d n rel => (hc k T d n rel).2) h2
          unfold reduceMerge at hF
          split at hF
          · simp only [Option.some.injEq, Prod.mk.injEq] at hF
            exact hF.1 ▸ i2
          · split at hF
            · simp at hF
            · rename_i F3 h3
              have i3 := i2.reduceIf h3
              unfold mergeStep at hF
              split at hF
              · simp only [Option.some.injEq, Prod.mk.injEq] at hF
                exact hF.1 ▸ i3
              · split at hF
                · simp at hF
                · rename_i F4 h4
                  have i4 := i3.merge hwf h4
                  unfold afterMerge at hF
                  split at hF
                  · simp only [Option.some.injEq, Prod.mk.injEq] at hF
                    exact hF.1 ▸ i4
                  · split at hF
                    · simp at hF
                    · rename_i F5 h5
                      have i5 := i4.pruneIf hwf h5
                      split at hF
                      · simp at hF
                      · simp only [Option.some.injEq, Prod.mk.injEq] at hF
                        exact hF.1 ▸ i5
                      · simp only [Option.some.injEq, Prod.mk.injEq] at hF
                        exact hF.1 ▸ i5

include hwf hc in
theorem FtsInv.mainLoop {F F' : FTS} {n k : Nat} (h : FtsInv t c.unreachable F) (hF : mainLoop O H c n k F = some F') : FtsInv t c.unreachable F' := by
  refine mainLoop.partial_correctness O H c n (motive := fun k F F' => FtsInv t c.unreachable F → FtsInv t c.unreachable F') ?_ k F F' hF h
  intro ml ih k F r hr hI
  split at hr
  · split at hr
    · simp at hr
    · rename_i F1 h1
      simp only [Option.some.injEq] at hr
      exact hr ▸ hI.iteration hwf hc h1
    · rename_i F1 h1
      exact ih _ _ _ hr (hI.iteration hwf hc h1)
  · simp only [Option.some.injEq] at hr
    exact hr ▸ hI

include hwf in
theorem FtsInv.pruneAtomic : ∀ {is : List Nat} {F F' : FTS} {b : Bool}, FtsInv t c.unreachable F → pruneAtomic H c is F = some (F', b) → FtsInv t c.unreachable F'
  | [], F, F', b, h, hF => by
    simp only [Mas.pruneAtomic, Option.some.injEq, Prod.mk.injEq] at hF
    exact hF.1 ▸ h
  | i :: is, F, F', b, h, hF => by
    simp only [Mas.pruneAtomic] at hF
    split at hF
    · simp at hF
    · rename_i F1 h1
      have i1 := h.pruneIf hwf h1
      split at hF
      · simp at hF
      · simp only [Option.some.injEq, Prod.mk.injEq] at hF
        exact hF.1 ▸ i1
      · exact FtsInv.pruneAtomic i1 hF

include hc in
omit hwf in
theorem build_inv (ht : MasTask t) {F : FTS} (h : build O H c t = some F) : FtsInv t c.unreachable F := by
  unfold build at h
  split at h
  · rename_i hax
    have hax := List.isEmpty_iff.mp hax
    split at h
    · simp at h
    · rename_i F0 h0
      have i0 := createFts_inv (U := c.unreachable) ht.wf hax ht.costs ht.single h0
      split at h
      · simp at h
      · rename_i F1 u h1
        have i1 := i0.pruneAtomic ht.wf h1
        split at h
        · exact i1.mainLoop ht.wf hc h
        · simp only [Option.some.injEq] at h
          exact h ▸ i1
  · simp at h

end

/-! ### the heuristic -/

/-- a representation with distances that do not overestimate -/
def Good (t : Task) (U : Bool) (r : Repr) : Prop :=
  ∃ lab L f ds, LabOk t lab L ∧ FInv t U lab L f ∧ GoalClosed L f.ts ds ∧ f.repr.setDistances ds = some r

theorem extractFactor_good {t : Task} {U : Bool} {lab : Nat → Nat} {L : Labels} (hl : LabOk t lab L) {f : Factor} (hf : FInv t U lab L f) {H : StdHeap Nat} {r : Repr} (h : extractFactor H f = some r) : Good t U r := by
  unfold extractFactor at h
  split at h
  · rename_i ds hds
    exact ⟨lab, L, f, ds, hl, hf, hf.dist.goal ds hds, h⟩
  · split at h
    · rename_i di ds hd
      exact ⟨lab, L, f, ds, hl, hf, (computeDistances_ok hf.ok hf.dist hd).goal ds rfl, h⟩
    · simp at h

theorem unsolvableFactor_mem : ∀ {fs : List Factor} {f : Factor}, unsolvableFactor fs = some (some f) → f ∈ fs
  | [], f, h => by simp [unsolvableFactor] at h
  | g :: fs, f, h => by
    simp only [unsolvableFactor] at h
    split at h
    · simp at h
    · simp only [Option.some.injEq] at h
      simp [h]
    · exact List.mem_cons_of_mem _ (unsolvableFactor_mem h)

theorem extract_good {t : Task} {U : Bool} {F : FTS} (hF : FtsInv t U F) {H : StdHeap Nat} {rs : List Repr} (h : extract H F = some rs) : ∀ r ∈ rs, Good t U r := by
  obtain ⟨lab, hl, hf⟩ := hF
  have hmem : ∀ f ∈ F.factors.filterMap id, FInv t U lab F.labels f := by
    intro f hf'
    simp only [List.mem_filterMap, id, exists_eq_right] at hf'
    obtain ⟨j, hj⟩ := List.getElem?_of_mem hf'
    exact (hf j f (by unfold FTS.factor; rw [hj]; rfl)).1
  intro r hr
  unfold extract at h
  split at h
  · simp at h
  · rename_i f hu
    simp only [Option.map_eq_some_iff] at h
    obtain ⟨r', h1, rfl⟩ := h
    simp only [List.mem_singleton] at hr
    subst hr
    exact extractFactor_good hl (hmem f (unsolvableFactor_mem hu)) h1
  · obtain ⟨f, h1, h2⟩ := mapAll_mem h hr
    exact extractFactor_good hl (hmem f (List.mem_filter.mp h1).1) h2

theorem Good.defined {t : Task} {U : Bool} {r : Repr} (h : Good t U r) {s : State} (hs : t.ValidState s) : ∃ o, r.value s = some o := by
  obtain ⟨lab, L, f, ds, hl, hf, hd, hr⟩ := h
  obtain ⟨o, h1, _⟩ := hf.repr.value hs
  obtain ⟨o', h2, _⟩ := setDistances_repr hr h1
  exact ⟨o', h2⟩

/-- the distance stored for a state -/
theorem Good.value {t : Task} {U : Bool} {r : Repr} {f : Factor} {ds : List Nat} (hrep : ReprOk t f.repr) (hr : f.repr.setDistances ds = some r) {s : State} (hs : t.ValidState s) {n : Nat} :
    r.value s = some (some n) ↔ ∃ a, f.repr.value s = some (some a) ∧ ds[a]? = some n := by
  constructor
  · intro h
    obtain ⟨o, h1, _⟩ := hrep.value hs
    obtain ⟨o', h2, h3⟩ := setDistances_repr hr h1
    rw [h] at h2
    simp only [Option.some.injEq] at h2
    subst h2
    cases o with
    | none => simp [mapEntry] at h3
    | some a =>
      simp only [mapEntry, Option.map_eq_some_iff, Option.some.injEq] at h3
      obtain ⟨x, h4, rfl⟩ := h3
      exact ⟨a, h1, h4⟩
  · rintro ⟨a, h1, h2⟩
    obtain ⟨o', h3, h4⟩ := setDistances_repr hr h1
    simp only [mapEntry, h2, Option.map_some, Option.some.injEq] at h4
    rw [h3, ← h4]

theorem Good.admissible {t : Task} (hwf : t.WF) {U : Bool} {r : Repr} (h : Good t U r) {s : State} {π : List Nat} (hs : LiveVia t U s π) : ∃ n, r.value s = some (some n) ∧ n ≤ t.planCost π ∧ n < inf := by
  obtain ⟨lab, L, f, ds, hl, hf, hd, hr⟩ := h
  obtain ⟨a, ha⟩ := hf.live s hs.live
  have hlt : a < ds.length := by rw [hd.length]; exact hf.lt hs.1 ha
  have e := List.getElem?_eq_getElem hlt
  obtain ⟨u, h1, h2⟩ := hs.2.1
  have := hf.goal_le hwf hl hd h1 h2 hs a _ ha e
  exact ⟨_, (Good.value (U := U) hf.repr hr hs.1).mpr ⟨a, ha, e⟩, this, by have := hs.2.2.1; omega⟩

theorem Good.consistent {t : Task} (hwf : t.WF) {U : Bool} {r : Repr} (h : Good t U r) {i : Nat} {o : Operator} {s s' : State} (hs : t.ValidState s) (ho : t.ops[i]? = some o) (ha : o.applicable s) (hsu : t.SuccRel o s s') {n n' : Nat}
    (h1 : r.value s = some (some n)) (h2 : r.value s' = some (some n')) : n ≤ t.opCost i + n' := by
  obtain ⟨lab, L, f, ds, hl, hf, hd, hr⟩ := h
  obtain ⟨a, e1, e2⟩ := (Good.value (U := U) hf.repr hr hs).mp h1
  obtain ⟨b, e3, e4⟩ := (Good.value (U := U) hf.repr hr (succ_valid hwf hs ho ha hsu)).mp h2
  exact hd.edge _ a b _ n n' (hf.tr i o s s' a b hs ho ha hsu e1 e3) (hl.cost i (op_lt ho)) e2 e4

theorem Good.goal {t : Task} {U : Bool} {r : Repr} (h : Good t U r) {s : State} (hs : t.ValidState s) (hg : allHold t.goal s) {n : Nat} (h1 : r.value s = some (some n)) : n = 0 := by
  obtain ⟨lab, L, f, ds, hl, hf, hd, hr⟩ := h
  obtain ⟨a, e1, e2⟩ := (Good.value (U := U) hf.repr hr hs).mp h1
  have := hd.zero a (hf.goal s a hs hg e1)
  rw [e2] at this
  simpa using this

theorem heuristicLoop_defined {s : State} : ∀ {rs : List Repr} {h : Nat}, (∀ r ∈ rs, ∃ o, r.value s = some o) → ∃ v, heuristicLoop s rs h = some v
  | [], h, _ => ⟨_, rfl⟩
  | r :: rs, h, hr => by
    obtain ⟨o, ho⟩ := hr r (by simp)
    simp only [heuristicLoop, ho]
    cases o with
    | none => exact ⟨_, rfl⟩
    | some v =>
      simp only
      split
      · exact ⟨_, rfl⟩
      · exact heuristicLoop_defined (fun r hr' => hr r (by simp [hr']))

/-- the value is the largest one, unless one is infinite -/
theorem heuristicLoop_some {s : State} : ∀ {rs : List Repr} {h n : Nat}, heuristicLoop s rs h = some (some n) ↔
    (∀ r ∈ rs, ∃ v, r.value s = some (some v) ∧ v ≠ inf ∧ v ≤ n) ∧ h ≤ n ∧ (n = h ∨ ∃ r ∈ rs, r.value s = some (some n))
  | [], h, n => by
    simp only [heuristicLoop, Option.some.injEq, List.not_mem_nil, false_implies, implies_true, true_and, false_and, exists_false, or_false]
    omega
  | r :: rs, h, n => by
    simp only [heuristicLoop]
    cases hv : r.value s with
    | none =>
      simp only [reduceCtorEq, false_iff, not_and]
      intro hall
      obtain ⟨v, h1, _⟩ := hall r (by simp)
      rw [hv] at h1
      simp at h1
    | some o =>
      cases o with
      | none =>
        simp only [Option.some.injEq, reduceCtorEq, false_iff, not_and]
        intro hall
        obtain ⟨v, h1, _⟩ := hall r (by simp)
        rw [hv] at h1
        simp at h1
      | some v =>
        simp only
        by_cases hi : v = inf
        · rw [if_pos hi]
          simp only [Option.some.injEq, reduceCtorEq, false_iff, not_and]
          intro hall
          obtain ⟨v', h1, h2, _⟩ := hall r (by simp)
          rw [hv] at h1
          simp only [Option.some.injEq] at h1
          exact absurd (h1 ▸ hi) h2
        · rw [if_neg hi, heuristicLoop_some]
          constructor
          · rintro ⟨h1, h2, h3⟩
            refine ⟨fun r' hr' => ?_, by omega, ?_⟩
            · rcases List.mem_cons.mp hr' with rfl | h
              · exact ⟨v, hv, hi, by omega⟩
              · exact h1 r' h
            · rcases h3 with h3 | ⟨r', h4, h5⟩
              · by_cases hle : v ≤ h
                · left; omega
                · right; exact ⟨r, by simp, by rw [hv]; congr 2; omega⟩
              · right; exact ⟨r', by simp [h4], h5⟩
          · rintro ⟨h1, h2, h3⟩
            obtain ⟨v', h4, _, h5⟩ := h1 r (by simp)
            rw [hv] at h4
            simp only [Option.some.injEq] at h4
            subst h4
            refine ⟨fun r' hr' => h1 r' (by simp [hr']), by omega, ?_⟩
            rcases h3 with h3 | ⟨r', h4, h6⟩
            · left; omega
            · rcases List.mem_cons.mp h4 with rfl | h7
              · rw [hv] at h6
                simp only [Option.some.injEq] at h6
                left; omega
              · right; exact ⟨r', h7, h6⟩

end Verif.Mas
