import Verif.Lemmas.Canonical
import Verif.Props.ZeroOnePdbs

/-
C36: the canonical pattern database heuristic.
-/
namespace Verif.Pdb
open Verif.AdaptiveQueue Verif.Search

section
variable (H : AdaptiveQueue.StdHeap Nat) {t : Task} (ht : t.PdbOk) {patterns : List (List Nat)} {C B : Nat} (hfit : t.CollectionFits patterns C B)
include ht hfit

/-- everything that is computed without pruning -/
theorem canonical_spec : ∃ dbs cliques, canonicalPdbs H t patterns none = .ok (dbs, cliques) ∧ createPdbs H t patterns = .ok dbs ∧ patternCliques t patterns = some cliques ∧ CSpec t patterns B dbs ∧ (∀ c ∈ cliques, t.AdditiveSubset patterns c) ∧
    (∀ A, t.AdditiveSubset patterns A → ∃ c ∈ cliques, ∀ i ∈ A, i ∈ c) ∧ ∀ c ∈ cliques, c.length * B < 2 ^ 31 - 1 := by
  have hB : B < 2 ^ 31 - 1 := by
    have := hfit.fits
    rw [Nat.add_mul, Nat.one_mul] at this
    omega
  obtain ⟨dbs, h1, h2, h3⟩ := createPdbs_spec H ht hfit.cost hB patterns (fun P hP => ⟨⟨hfit.range P hP, (hfit.sorted P hP).imp (fun h => Nat.ne_of_lt h)⟩, hfit.states P hP, hfit.bound P hP⟩)
  obtain ⟨cliques, k1, k2, k3⟩ := patternCliques_spec ht.wf hfit.range
  refine ⟨dbs, cliques, by simp only [canonicalPdbs, h1, k1], h1, k1, ⟨h2, h3⟩, k2, k3, fun c hc => ?_⟩
  have := ((k2 c hc).nodup.subperm (l₂ := List.range patterns.length) (fun i hi => List.mem_range.mpr ((k2 c hc).range i hi))).length_le
  rw [List.length_range] at this
  have h4 := hfit.fits
  rw [Nat.add_mul, Nat.one_mul] at h4
  have h5 := Nat.mul_le_mul_right B this
  omega

/-- C36: the canonical heuristic is the largest sum of perfect values of projections over all additive subsets of the collection (sets of patterns such that no operator affects two of them); it is infinite exactly if
one of the projections is unsolvable. -/
theorem C36_value : ∃ dbs cliques, canonicalPdbs H t patterns none = .ok (dbs, cliques) ∧ ∀ s, t.ValidState s →
      (canonicalHeuristic dbs cliques s = some none ∧ ∃ P ∈ patterns, ∀ π, ¬(t.project P).SolvesFrom s π) ∨
      (∃ n, ∃ h : Nat → Nat, canonicalHeuristic dbs cliques s = some (some n) ∧ (∀ i P, patterns[i]? = some P → (t.project P).PerfectValue t.opCost s (some (h i))) ∧
        (∃ A, t.AdditiveSubset patterns A ∧ n = (A.map h).sum) ∧ ∀ A, t.AdditiveSubset patterns A → (A.map h).sum ≤ n) := by
  obtain ⟨dbs, cliques, h1, _, _, h2, h3, h4, h5⟩ := canonical_spec H ht hfit
  refine ⟨dbs, cliques, h1, fun s hs => ?_⟩
  rcases canonicalHeuristic_spec (h2.value hs) (fun c hc i hi => by rw [h2.len]; exact (h3 c hc).range i hi) h5 with ⟨⟨db, k1, k2⟩, k3⟩ | ⟨k1, r, k2, k3, k4⟩
  · obtain ⟨P, hP, hspec⟩ := h2.get_db k1
    obtain ⟨v, l1, l2, _⟩ := hspec.value s hs
    rw [k2] at l1
    simp only [Option.some.injEq] at l1
    subst l1
    exact Or.inl ⟨k3, P, hP, l2⟩
  · refine Or.inr ⟨r, fun i => ((dbs[i]?).map (Db.h s)).getD 0, k2, fun i P hi => h2.perfect hs k1 hi, ?_, fun A hA => ?_⟩
    · rcases k4 with rfl | ⟨c, hc, e⟩
      · exact ⟨[], ⟨List.nodup_nil, by simp, by simp⟩, rfl⟩
      · exact ⟨c, h3 c hc, e⟩
    · obtain ⟨c, c1, c2⟩ := h4 A hA
      refine Nat.le_trans ?_ (k3 c c1)
      obtain ⟨l, l1, l2⟩ := hA.nodup.subperm c2
      have e : (A.map (fun i => ((dbs[i]?).map (Db.h s)).getD 0)).sum = (l.map (fun i => ((dbs[i]?).map (Db.h s)).getD 0)).sum := ((l1.map _).sum_eq).symm
      rw [e]
      exact List.Sublist.sum_le_sum (l2.map _) (fun _ _ => Nat.zero_le _)

/-- C36: dominance pruning never changes the heuristic value of any state, no matter when its time limit is reached. -/
theorem C36_pruning (hne : ∀ P ∈ patterns, P ≠ []) (expired : Nat → Bool) : ∃ dbs cliques dbs' cliques', canonicalPdbs H t patterns none = .ok (dbs, cliques) ∧ canonicalPdbs H t patterns (some expired) = .ok (dbs', cliques') ∧
      (∀ db ∈ dbs', db ∈ dbs) ∧ ∀ s, t.ValidState s → canonicalHeuristic dbs' cliques' s = canonicalHeuristic dbs cliques s := by
  obtain ⟨dbs, cliques, h1, hc1, hc2, h2, h3, h4, h5⟩ := canonical_spec H ht hfit
  obtain ⟨ps', dbs', cliques', rem, p1, p2, p3, p4, p5, g, p6, p7⟩ := pruneDominated_spec hfit.range hne (fun c hc => (h3 c hc).range) h2.len.symm expired
  refine ⟨dbs, cliques, dbs', cliques', h1, by simp only [canonicalPdbs, hc1, hc2, p1], fun db hdb => ?_, fun s hs => ?_⟩
  · obtain ⟨i, hi⟩ := p4 db hdb
    exact List.mem_of_getElem? hi
  have hsub : ∀ db ∈ dbs', db ∈ dbs := fun db hdb => by
    obtain ⟨i, hi⟩ := p4 db hdb
    exact List.mem_of_getElem? hi
  have hlen : ∀ c ∈ rem, (g c).length = c.length := fun c hc => by
    have := congrArg List.length (p7 c hc)
    simpa using this
  have hsum : ∀ c ∈ rem, cliqueH dbs' s (g c) = cliqueH dbs s c := fun c hc => by
    unfold cliqueH
    have e1 : (g c).map (fun i => ((dbs'[i]?).map (Db.h s)).getD 0) = ((g c).map (fun k => dbs'[k]?)).map (fun d => (d.map (Db.h s)).getD 0) := by rw [List.map_map]; rfl
    have e2 : c.map (fun i => ((dbs[i]?).map (Db.h s)).getD 0) = (c.map (fun k => dbs[k]?)).map (fun d => (d.map (Db.h s)).getD 0) := by rw [List.map_map]; rfl
    rw [e1, e2, p7 c hc]
  have hrange : ∀ c ∈ cliques', ∀ i ∈ c, i < dbs'.length := by
    intro c hc i hi
    rw [p6] at hc
    obtain ⟨c0, hc0, rfl⟩ := List.mem_map.mp hc
    have hm : dbs'[i]? ∈ (g c0).map (fun k => dbs'[k]?) := List.mem_map.mpr ⟨i, hi, rfl⟩
    rw [p7 c0 hc0] at hm
    obtain ⟨j, hj, e⟩ := List.mem_map.mp hm
    have hj' : j < dbs.length := by rw [h2.len]; exact (h3 c0 (p2 c0 hc0)).range j hj
    rw [List.getElem?_eq_getElem hj'] at e
    exact (List.getElem?_eq_some_iff.mp e.symm).1
  have hbound : ∀ c ∈ cliques', c.length * B < 2 ^ 31 - 1 := by
    intro c hc
    rw [p6] at hc
    obtain ⟨c0, hc0, rfl⟩ := List.mem_map.mp hc
    rw [hlen c0 hc0]
    exact h5 c0 (p2 c0 hc0)
  rcases canonicalHeuristic_spec (h2.value hs) (fun c hc i hi => by rw [h2.len]; exact (h3 c hc).range i hi) h5 with ⟨⟨db, k1, k2⟩, k3⟩ | ⟨k1, r, k2, k3, k4⟩
  · rw [k3]
    -- a remaining database is infinite
    have hinf : ∃ db ∈ dbs', db.heuristic s = some none := by
      obtain ⟨i, hi⟩ := List.getElem?_of_mem k1
      have hil : i < patterns.length := by rw [← h2.len]; exact (List.getElem?_eq_some_iff.mp hi).1
      obtain ⟨c, c1, c2⟩ := h4 [i] ⟨by simp, by simpa using hil, by
        intro a ha b hb hab
        simp only [List.mem_singleton] at ha hb
        exact absurd (ha.trans hb.symm) hab⟩
      have hic := c2 i (List.mem_singleton.mpr rfl)
      rcases p3 c c1 with hr | ⟨c', hr, hdom⟩
      · exact ⟨db, p5 c hr i hic db hi, k2⟩
      · obtain ⟨j, hj, P, Q, a1, a2, a3⟩ := hdom i hic
        have hjl : j < dbs.length := by rw [h2.len]; exact (List.getElem?_eq_some_iff.mp a2).1
        have hj' := List.getElem?_eq_getElem hjl
        refine ⟨dbs[j], p5 c' hr j hj _ hj', ?_⟩
        obtain ⟨v, l1, l2, _⟩ := (h2.spec i P db a1 hi).value s hs
        rw [k2] at l1
        simp only [Option.some.injEq] at l1
        subst l1
        obtain ⟨w, m1, m2, _⟩ := (h2.spec j Q _ a2 hj').value s hs
        rw [m1, perfect_none_of_subset ht.simple hs a3 l2 m2]
    rcases canonicalHeuristic_spec (fun d hd => h2.value hs d (hsub d hd)) hrange hbound with ⟨_, l3⟩ | ⟨l1, _⟩
    · exact l3
    · obtain ⟨d, d1, d2⟩ := hinf
      rw [l1 d d1] at d2
      simp at d2
  · rw [k2]
    rcases canonicalHeuristic_spec (fun d hd => h2.value hs d (hsub d hd)) hrange hbound with ⟨⟨d, d1, d2⟩, _⟩ | ⟨_, r', l2, l3, l4⟩
    · rw [k1 d (hsub d d1)] at d2
      simp at d2
    · rw [l2]
      congr 2
      refine Nat.le_antisymm ?_ ?_
      · rcases l4 with rfl | ⟨c, hc, rfl⟩
        · omega
        · rw [p6] at hc
          obtain ⟨c0, hc0, rfl⟩ := List.mem_map.mp hc
          rw [hsum c0 hc0]
          exact k3 c0 (p2 c0 hc0)
      · have hrem : ∀ c ∈ rem, cliqueH dbs s c ≤ r' := fun c hc => by
          rw [← hsum c hc]
          exact l3 (g c) (by rw [p6]; exact List.mem_map.mpr ⟨c, hc, rfl⟩)
        rcases k4 with rfl | ⟨c, hc, rfl⟩
        · omega
        · rcases p3 c hc with hr | ⟨c', hr, hdom⟩
          · exact hrem c hr
          · exact Nat.le_trans (cliqueH_dom h2 ht.simple hs k1 (h3 c hc) hdom) (hrem c' hr)

/-- goal-aware, consistent and admissible, with values of at most the number of patterns times `B` -/
theorem canonical_heuristic {dbs : List Db} {cliques : List (List Nat)} (h2 : CSpec t patterns B dbs) (h3 : ∀ c ∈ cliques, t.AdditiveSubset patterns c) (h5 : ∀ c ∈ cliques, c.length * B < 2 ^ 31 - 1) :
      (∀ s, t.ValidState s → ∃ v, canonicalHeuristic dbs cliques s = some v ∧ ∀ n, v = some n → n ≤ patterns.length * B) ∧
      (∀ s s' i o n, t.ValidState s → t.ops[i]? = some o → o.applicable s → t.SuccRel o s s' → canonicalHeuristic dbs cliques s' = some (some n) → ∃ m, canonicalHeuristic dbs cliques s = some (some m) ∧ m ≤ t.opCost i + n) ∧
      (∀ s π, t.ValidState s → t.SolvesFrom s π → ∃ n, canonicalHeuristic dbs cliques s = some (some n) ∧ n ≤ t.planCost π) := by
  have hspec := fun s (hs : t.ValidState s) => canonicalHeuristic_spec (h2.value hs) (fun c hc i hi => by rw [h2.len]; exact (h3 c hc).range i hi) h5
  refine ⟨fun s hs => ?_, fun s s' i o n hs ho ha hsucc hn => ?_, fun s π hs hπ => ?_⟩
  · rcases hspec s hs with ⟨_, k3⟩ | ⟨k1, r, k2, k3, k4⟩
    · exact ⟨none, k3, by simp⟩
    · refine ⟨some r, k2, fun n hn => ?_⟩
      simp only [Option.some.injEq] at hn
      subst hn
      rcases k4 with rfl | ⟨c, hc, rfl⟩
      · omega
      · have hB : ∀ db ∈ dbs, db.h s ≤ B := fun db hdb => by
          obtain ⟨v, e1, e2⟩ := h2.value hs db hdb
          rw [k1 db hdb] at e1
          simp only [Option.some.injEq] at e1
          exact e2 _ e1.symm
        have h6 := (cliqueSum_spec hB c 0 (fun i hi => by rw [h2.len]; exact (h3 c hc).range i hi) (by have := h5 c hc; omega)).2
        have h7 := ((h3 c hc).nodup.subperm (l₂ := List.range patterns.length) (fun i hi => List.mem_range.mpr ((h3 c hc).range i hi))).length_le
        rw [List.length_range] at h7
        exact Nat.le_trans h6 (Nat.mul_le_mul_right B h7)
  · have hs' := succ_valid ht.wf hs ho ha hsucc
    rcases hspec s' hs' with ⟨_, k3⟩ | ⟨k1, r', k2, k3, _⟩
    · rw [k3] at hn; simp at hn
    · rw [k2] at hn
      simp only [Option.some.injEq] at hn
      subst hn
      have hcons : ∀ (k : Nat) P d, patterns[k]? = some P → dbs[k]? = some d → ∃ m, d.heuristic s = some (some m) ∧ m ≤ t.costOn t.opCost P i + d.h s' := fun k P d hP hdk =>
        (h2.spec k P d hP hdk).consistent ht.simple hs ho ha hsucc (k1 d (List.mem_of_getElem? hdk))
      rcases hspec s hs with ⟨⟨db, l1, l2⟩, _⟩ | ⟨l1, r, l2, _, l4⟩
      · obtain ⟨k, hk⟩ := List.getElem?_of_mem l1
        have hkl : k < patterns.length := by rw [← h2.len]; exact (List.getElem?_eq_some_iff.mp hk).1
        obtain ⟨m, e, _⟩ := hcons k _ db (List.getElem?_eq_getElem hkl) hk
        rw [l2] at e; simp at e
      · refine ⟨r, l2, ?_⟩
        rcases l4 with rfl | ⟨c, hc, rfl⟩
        · omega
        · have h6 : cliqueH dbs s c ≤ (c.map (fun k => t.costOn t.opCost ((patterns[k]?).getD []) i + ((dbs[k]?).map (Db.h s')).getD 0)).sum := by
            refine List.sum_le_sum (fun k hk => ?_)
            have hkl := (h3 c hc).range k hk
            have hkd : k < dbs.length := by rw [h2.len]; exact hkl
            obtain ⟨m, e, hm⟩ := hcons k _ _ (List.getElem?_eq_getElem hkl) (List.getElem?_eq_getElem hkd)
            rw [l1 _ (List.getElem_mem hkd)] at e
            simp only [Option.some.injEq] at e
            simp only [List.getElem?_eq_getElem hkl, List.getElem?_eq_getElem hkd, Option.map_some, Option.getD_some]
            rw [e]; exact hm
          rw [List.sum_map_add] at h6
          have h7 := additive_cost_le (t := t) (c := t.opCost) (i := i) (P := fun k => (patterns[k]?).getD []) (additive_pairwise h2 (h3 c hc))
          have h8 : cliqueH dbs s' c ≤ r' := k3 c hc
          unfold cliqueH at h8
          omega
  · rcases hspec s hs with ⟨⟨db, l1, l2⟩, _⟩ | ⟨l1, r, l2, _, l4⟩
    · obtain ⟨P, _, hP⟩ := h2.get_db l1
      obtain ⟨v, e1, e2, _⟩ := hP.value s hs
      rw [l2] at e1
      simp only [Option.some.injEq] at e1
      subst e1
      exact absurd (proj_solves_all ht.wf ht.axioms ht.conds ht.eff hs hs (fun _ _ => rfl) hπ) (e2 π)
    · refine ⟨r, l2, ?_⟩
      rcases l4 with rfl | ⟨c, hc, rfl⟩
      · omega
      · exact cliqueH_admissible h2 ht.simple hs l1 (h3 c hc) hπ

/-- the values with or without pruning -/
theorem canonical_prune (prune : Option (Nat → Bool)) (hne : prune.isSome → ∀ P ∈ patterns, P ≠ []) : ∃ dbs cliques, canonicalPdbs H t patterns prune = .ok (dbs, cliques) ∧
      (∀ s, t.ValidState s → ∃ v, canonicalHeuristic dbs cliques s = some v ∧ ∀ n, v = some n → n ≤ patterns.length * B) ∧
      (∀ s s' i o n, t.ValidState s → t.ops[i]? = some o → o.applicable s → t.SuccRel o s s' → canonicalHeuristic dbs cliques s' = some (some n) → ∃ m, canonicalHeuristic dbs cliques s = some (some m) ∧ m ≤ t.opCost i + n) ∧
      (∀ s π, t.ValidState s → t.SolvesFrom s π → ∃ n, canonicalHeuristic dbs cliques s = some (some n) ∧ n ≤ t.planCost π) := by
  obtain ⟨dbs, cliques, h1, _, _, h2, h3, _, h5⟩ := canonical_spec H ht hfit
  have h := canonical_heuristic ht hfit h2 h3 h5
  cases prune with
  | none => exact ⟨dbs, cliques, h1, h⟩
  | some expired =>
    obtain ⟨dbs0, cliques0, dbs', cliques', k1, k2, _, k3⟩ := C36_pruning H ht hfit (hne rfl) expired
    rw [h1] at k1
    simp only [Build.ok.injEq, Prod.mk.injEq] at k1
    obtain ⟨rfl, rfl⟩ := k1
    refine ⟨dbs', cliques', k2, fun s hs => ?_, fun s s' i o n hs ho ha hsucc hn => ?_, fun s π hs hπ => ?_⟩
    · rw [k3 s hs]; exact h.1 s hs
    · rw [k3 s hs]
      rw [k3 s' (succ_valid ht.wf hs ho ha hsucc)] at hn
      exact h.2.1 s s' i o n hs ho ha hsucc hn
    · rw [k3 s hs]; exact h.2.2 s π hs hπ

/-- C36: with and without dominance pruning, the canonical heuristic is goal-aware, consistent and admissible. -/
theorem C36_heuristic (prune : Option (Nat → Bool)) (hne : prune.isSome → ∀ P ∈ patterns, P ≠ []) : ∃ dbs cliques, canonicalPdbs H t patterns prune = .ok (dbs, cliques) ∧
      (∀ s, t.ValidState s → allHold t.goal s → canonicalHeuristic dbs cliques s = some (some 0)) ∧
      (∀ s s' i o n, t.ValidState s → t.ops[i]? = some o → o.applicable s → t.SuccRel o s s' → canonicalHeuristic dbs cliques s' = some (some n) → ∃ m, canonicalHeuristic dbs cliques s = some (some m) ∧ m ≤ t.opCost i + n) ∧
      (∀ s π, t.ValidState s → t.SolvesFrom s π → ∃ n, canonicalHeuristic dbs cliques s = some (some n) ∧ n ≤ t.planCost π) := by
  obtain ⟨dbs, cliques, h1, _, h3, h4⟩ := canonical_prune H ht hfit prune hne
  refine ⟨dbs, cliques, h1, fun s hs hg => ?_, h3, h4⟩
  obtain ⟨n, k1, k2⟩ := h4 s [] hs ⟨s, .nil s, hg⟩
  simp only [Task.planCost, List.map_nil, List.sum_nil, Nat.le_zero] at k2
  rw [k1, k2]

/-- C36 and C23: A* with the canonical heuristic returns a plan of minimal cost if there is a plan, and fails otherwise. -/
theorem C36_astar (prune : Option (Nat → Bool)) (hne : prune.isSome → ∀ P ∈ patterns, P ≠ []) (hC : C < 2 ^ 29) (hB : patterns.length * B < 2 ^ 30) (hty : t.FitsTypes .normal) :
    ∃ dbs cliques, canonicalPdbs H t patterns prune = .ok (dbs, cliques) ∧ ∃ hobj : AdmissibleObject t (fun _ : Unit => True) (fun s m => (canonicalHeuristic dbs cliques s).map (fun v => (v, m))),
      ∀ (u : Nat → Nat → Bool) (H' : OpenList.StdHeap State) (rel : Nat → Bool) (rng : OpenList.Rng) (σ : { _m : Unit // True }),
        ∃ n, OptimalResult t (Eager.search (World.ofTask t u .normal) (objEnv hobj) H' rel ⟨true, 2147483647⟩ (.tiebreaking false false [1, 0]) rng σ n) := by
  obtain ⟨dbs, cliques, h1, h2, _, h4⟩ := canonical_prune H ht hfit prune hne
  have hobj : AdmissibleObject t (fun _ : Unit => True) (fun s m => (canonicalHeuristic dbs cliques s).map (fun v => (v, m))) := by
    intro s m hs _
    obtain ⟨v, k1, k2⟩ := h2 s hs
    refine ⟨v, m, by simp [k1], trivial, fun n hn => by have := k2 n hn; omega, fun π hπ => ?_⟩
    obtain ⟨n, e, hn⟩ := h4 s π hs hπ
    rw [k1] at e
    simp only [Option.some.injEq] at e
    exact ⟨n, e, hn⟩
  exact ⟨dbs, cliques, h1, hobj, fun u H' rel rng σ => astar_object hobj ht.wf hty (fun i => Nat.lt_of_le_of_lt (hfit.cost i) hC) u H' rel rng σ⟩

end

/-- four variables, each changed by one operator -/
def fourTask : Task where
  vars := [⟨2, none, 0⟩, ⟨2, none, 0⟩, ⟨2, none, 0⟩, ⟨2, none, 0⟩]
  ops := [⟨[⟨0, 0⟩], [⟨[], ⟨0, 1⟩⟩], 1⟩, ⟨[⟨0, 1⟩], [⟨[], ⟨1, 1⟩⟩], 2⟩, ⟨[], [⟨[], ⟨2, 1⟩⟩, ⟨[], ⟨3, 1⟩⟩], 3⟩]
  axioms := []
  init := [0, 0, 0, 0]
  goal := [⟨0, 1⟩, ⟨1, 1⟩, ⟨2, 1⟩, ⟨3, 1⟩]

theorem fourTask_ok : fourTask.PdbOk := by
  refine ⟨taskOK_wf (by decide), rfl, ?_, ?_, ?_, ?_⟩ <;> decide

theorem fourTask_fits : fourTask.CollectionFits [[0], [1], [0, 1], [2], [3]] 3 12 where
  cost := fun i => by
    match i with
    | 0 | 1 | 2 => decide
    | n + 3 => simp [Task.opCost, fourTask]
  range := by decide
  sorted := by decide
  states := by decide
  bound := by decide
  fits := by decide

example : ∀ P ∈ [[0], [1], [0, 1], [2], [3]], P ≠ [] := by decide

/-- The maximal additive subsets of the collection [0], [1], [0, 1], [2], [3]. -/
example : patternCliques fourTask [[0], [1], [0, 1], [2], [3]] = some [[2, 4], [2, 3], [0, 1, 4], [0, 1, 3]] := by
  have hg : ((additiveVars fourTask).bind fun m => graphLoop (patternsAdditive fourTask.vars.length m) [[0], [1], [0, 1], [2], [3]] (pairs 5) (List.replicate 5 [])) = some [[1, 3, 4], [0, 3, 4], [3, 4], [0, 1, 2], [0, 1, 2]] := by
    decide +kernel
  unfold patternCliques
  cases hm : additiveVars fourTask with
  | none => rw [hm] at hg; simp at hg
  | some m =>
    rw [hm] at hg
    simp only [Option.bind_some] at hg
    simp only [List.length_cons, List.length_nil, Nat.zero_add, Nat.reduceAdd, hg]
    simp [MaxCliques.computeMaxCliques, List.range, List.range.loop, MaxCliques.expand, MaxCliques.expandLoop, MaxCliques.getMaximizingVertex, MaxCliques.maximizingLoop, MaxCliques.setIntersection,
      MaxCliques.setDifference, MaxCliques.eraseLowerBound]

/-- Dominance pruning removes the subsets with [0] and [1] (parts of [0, 1]), and renumbers the others. -/
example : (pruneDominated 4 [[0], [1], [0, 1], [2], [3]] ["a", "b", "c", "d", "e"] [[2, 4], [2, 3], [0, 1, 4], [0, 1, 3]] (fun _ => false)).map (fun r => (r.1, r.2.1, r.2.2)) = some ([[0, 1], [2], [3]], ["c", "d", "e"], [[0, 2], [0, 1]]) := by
  decide +kernel

/-- If the time limit is reached in the first iteration, only the first clique has been used. -/
example : (pruneDominated 4 [[0], [1], [0, 1], [2], [3]] ["a", "b", "c", "d", "e"] [[2, 4], [2, 3], [0, 1, 4], [0, 1, 3]] (fun _ => true)).map (fun r => (r.1, r.2.1, r.2.2)) =
    some ([[0], [1], [0, 1], [2], [3]], ["a", "b", "c", "d", "e"], [[2, 4], [2, 3], [0, 1, 3]]) := by
  decide +kernel

end Verif.Pdb
