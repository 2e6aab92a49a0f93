import Verif.Lemmas.ZeroOne

/-
C37: zero-one pattern databases.
-/
namespace Verif.Pdb
open Verif.AdaptiveQueue Verif.Search

theorem opCost_eq (t : Task) : (fun i : Nat => ((t.ops.map (·.cost))[i]?).getD 0) = t.opCost := by
  funext i
  unfold Task.opCost
  rw [List.getElem?_map]

/-- everything about zero-one pattern databases -/
theorem zero_one_spec (H : AdaptiveQueue.StdHeap Nat) {t : Task} (ht : t.PdbOk) {patterns : List (List Nat)} {C B : Nat} (hfit : t.CollectionFits patterns C B) :
    ∃ fam : List (Db × List Nat × (Nat → Nat)), zeroOnePdbs H t patterns = .ok (fam.map (·.1)) ∧ fam.map (·.2) = patterns.zip (zeroOneCosts t t.opCost patterns) ∧ (∀ q ∈ fam, PdbSpec t q.2.1 q.2.2 B q.1) ∧
      (∀ i, (fam.map (fun q => t.costOn q.2.2 q.2.1 i)).sum ≤ t.opCost i) ∧ fam.length * B < 2 ^ 31 - 1 := by
  have hB : B < 2 ^ 31 - 1 := by
    have := hfit.fits
    rw [Nat.add_mul, Nat.one_mul] at this
    omega
  have hc := opCost_eq t
  obtain ⟨fam, h1, h2, h3, h4⟩ := zeroOneLoop_spec H ht hB patterns (t.ops.map (·.cost)) (by simp) (C := C) (fun i => by
    have := congrFun hc i
    rw [this]
    exact hfit.cost i) (fun P hP => ⟨⟨hfit.range P hP, (hfit.sorted P hP).imp (fun h => Nat.ne_of_lt h)⟩, hfit.sorted P hP, hfit.states P hP, hfit.bound P hP⟩)
  have hlen : fam.length = patterns.length := by
    have := congrArg List.length h2
    simp only [List.length_map, List.length_zip] at this
    have h5 : ∀ (Ps : List (List Nat)) c, (zeroOneCosts t c Ps).length = Ps.length := by
      intro Ps
      induction Ps with
      | nil => intro c; rfl
      | cons P Ps ih => intro c; simp [zeroOneCosts, ih]
    rw [h5] at this
    omega
  refine ⟨fam, h1, by rw [h2, hc], h3, fun i => ?_, ?_⟩
  · have := h4 i
    have hi := congrFun hc i
    rw [hi] at this
    exact this
  · rw [hlen]
    have := hfit.fits
    rw [Nat.add_mul, Nat.one_mul] at this
    omega

section
variable {t : Task} {B : Nat} {fam : List (Db × List Nat × (Nat → Nat))} (h3 : ∀ q ∈ fam, PdbSpec t q.2.1 q.2.2 B q.1) (h5 : fam.length * B < 2 ^ 31 - 1)
include h3 h5

theorem fam_heuristic {s : State} (hs : t.ValidState s) :
    ((∃ q ∈ fam, q.1.heuristic s = some none) ∧ zeroOneHeuristic (fam.map (·.1)) s = some none) ∨
    ((∀ q ∈ fam, q.1.heuristic s = some (some (q.1.h s))) ∧ zeroOneHeuristic (fam.map (·.1)) s = some (some ((fam.map (fun q => q.1.h s)).sum))) := by
  rcases zeroOneHeuristic_spec (dbs := fam.map (·.1)) (s := s) (B := B) (fun db hdb => by
    obtain ⟨q, hq, rfl⟩ := List.mem_map.mp hdb
    obtain ⟨v, k1, _, k2⟩ := (h3 q hq).value s hs
    exact ⟨v, k1, k2⟩) (by rw [List.length_map]; exact h5) with ⟨⟨db, k1, k2⟩, k3⟩ | ⟨k1, k2⟩
  · obtain ⟨q, hq, rfl⟩ := List.mem_map.mp k1
    exact Or.inl ⟨⟨q, hq, k2⟩, k3⟩
  · rw [List.map_map] at k2
    exact Or.inr ⟨fun q hq => k1 q.1 (List.mem_map.mpr ⟨q, hq, rfl⟩), k2⟩

theorem fam_perfect {s : State} (hs : t.ValidState s) {q : Db × List Nat × (Nat → Nat)} (hq : q ∈ fam) {v : Option Nat} (h : q.1.heuristic s = some v) : (t.project q.2.1).PerfectValue q.2.2 s v := by
  obtain ⟨v', k1, k2, _⟩ := (h3 q hq).value s hs
  rw [h] at k1
  simp only [Option.some.injEq] at k1
  rw [k1]; exact k2

theorem fam_admissible (ht : t.Simple) {c : Nat → Nat} (h4 : ∀ i, (fam.map (fun q => t.costOn q.2.2 q.2.1 i)).sum ≤ c i) {s : State} (hs : t.ValidState s) {π : List Nat} (hπ : t.SolvesFrom s π) :
    ∃ n, zeroOneHeuristic (fam.map (·.1)) s = some (some n) ∧ n ≤ (π.map c).sum := by
  rcases fam_heuristic h3 h5 hs with ⟨⟨q, k1, k2⟩, _⟩ | ⟨k1, k2⟩
  · have hn := fam_perfect h3 h5 hs k1 k2
    exact absurd (proj_solves_all ht.wf ht.axioms ht.conds ht.eff hs hs (fun _ _ => rfl) hπ) (hn π)
  · exact ⟨_, k2, partition_le ht hs fam (fun q => q.2.1) (fun q => q.2.2) (fun q => q.1.h s) (fun q hq => fam_perfect h3 h5 hs hq (k1 q hq)) h4 hπ⟩

end

/-- C37: the zero-one heuristic is the sum of the perfect values of all projections, where operators are charged only for the first pattern that they affect (the cost of the operator is 0 for all later
patterns); it is infinite exactly if one of the projections is unsolvable. -/
theorem C37_value (H : AdaptiveQueue.StdHeap Nat) {t : Task} (ht : t.PdbOk) {patterns : List (List Nat)} {C B : Nat} (hfit : t.CollectionFits patterns C B) :
    ∃ dbs, zeroOnePdbs H t patterns = .ok dbs ∧ ∀ s, t.ValidState s →
      (zeroOneHeuristic dbs s = some none ∧ ∃ P ∈ patterns, ∀ π, ¬(t.project P).SolvesFrom s π) ∨
      (∃ hs : List Nat, zeroOneHeuristic dbs s = some (some hs.sum) ∧ hs.length = patterns.length ∧
        ∀ k P h, patterns[k]? = some P → hs[k]? = some h → (t.project P).PerfectValue (t.zeroOneCost patterns k) s (some h)) := by
  obtain ⟨fam, h1, h2, h3, h4, h5⟩ := zero_one_spec H ht hfit
  refine ⟨_, h1, fun s hs => ?_⟩
  have hget : ∀ (k : Nat) P, patterns[k]? = some P → ∀ q, fam[k]? = some q → q.2 = (P, t.zeroOneCost patterns k) := by
    intro k P hP q hq
    have e : (fam.map (·.2))[k]? = some q.2 := by rw [List.getElem?_map, hq]; rfl
    rw [h2, List.getElem?_zip_eq_some] at e
    rw [hP, zeroOneCosts_getElem? (List.getElem?_eq_some_iff.mp hP).1] at e
    simp only [Option.some.injEq] at e
    have e2 : q.2.2 = t.zeroOneCost patterns k := e.2.symm
    exact Prod.ext e.1.symm e2
  have hpat : ∀ q ∈ fam, q.2.1 ∈ patterns := by
    intro q hq
    have : q.2 ∈ fam.map (·.2) := List.mem_map.mpr ⟨q, hq, rfl⟩
    rw [h2] at this
    exact (List.of_mem_zip this).1
  have hlen : fam.length = patterns.length := by
    have := congrArg List.length h2
    simp only [List.length_map, List.length_zip] at this
    have h5 : ∀ (Ps : List (List Nat)) c, (zeroOneCosts t c Ps).length = Ps.length := by
      intro Ps
      induction Ps with
      | nil => intro c; rfl
      | cons P Ps ih => intro c; simp [zeroOneCosts, ih]
    rw [h5] at this
    omega
  rcases fam_heuristic h3 h5 hs with ⟨⟨q, k1, k2⟩, k3⟩ | ⟨k1, k2⟩
  · exact Or.inl ⟨k3, q.2.1, hpat q k1, fam_perfect h3 h5 hs k1 k2⟩
  · refine Or.inr ⟨fam.map (fun q => q.1.h s), k2, by simpa using hlen, fun k P h hP hk => ?_⟩
    rw [List.getElem?_map, Option.map_eq_some_iff] at hk
    obtain ⟨q, hq, rfl⟩ := hk
    have e := hget k P hP q hq
    have := fam_perfect h3 h5 hs (List.mem_of_getElem? hq) (k1 q (List.mem_of_getElem? hq))
    rw [e] at this
    exact this

/-- C37: the zero-one heuristic is goal-aware, consistent and admissible. -/
theorem C37_heuristic (H : AdaptiveQueue.StdHeap Nat) {t : Task} (ht : t.PdbOk) {patterns : List (List Nat)} {C B : Nat} (hfit : t.CollectionFits patterns C B) :
    ∃ dbs, zeroOnePdbs H t patterns = .ok dbs ∧
      (∀ s, t.ValidState s → allHold t.goal s → zeroOneHeuristic dbs s = some (some 0)) ∧
      (∀ s s' i o n, t.ValidState s → t.ops[i]? = some o → o.applicable s → t.SuccRel o s s' → zeroOneHeuristic dbs s' = some (some n) → ∃ m, zeroOneHeuristic dbs s = some (some m) ∧ m ≤ t.opCost i + n) ∧
      (∀ s π, t.ValidState s → t.SolvesFrom s π → ∃ n, zeroOneHeuristic dbs s = some (some n) ∧ n ≤ t.planCost π) := by
  obtain ⟨fam, h1, h2, h3, h4, h5⟩ := zero_one_spec H ht hfit
  refine ⟨_, h1, ?_, ?_, ?_⟩
  · intro s hs hg
    obtain ⟨n, k1, k2⟩ := fam_admissible h3 h5 ht.simple h4 hs (π := []) ⟨s, .nil s, hg⟩
    simp only [List.map_nil, List.sum_nil, Nat.le_zero] at k2
    rw [k1, k2]
  · intro s s' i o n hs ho ha hsucc hn
    have hs' := succ_valid ht.wf hs ho ha hsucc
    rcases fam_heuristic h3 h5 hs' with ⟨_, k3⟩ | ⟨k1, k2⟩
    · rw [k3] at hn; simp at hn
    · rw [k2] at hn
      simp only [Option.some.injEq] at hn
      have hcons : ∀ q ∈ fam, ∃ m, q.1.heuristic s = some (some m) ∧ m ≤ t.costOn q.2.2 q.2.1 i + q.1.h s' := fun q hq => (h3 q hq).consistent ht.simple hs ho ha hsucc (k1 q hq)
      rcases fam_heuristic h3 h5 hs with ⟨⟨q, l1, l2⟩, _⟩ | ⟨l1, l2⟩
      · obtain ⟨m, e, _⟩ := hcons q l1
        rw [l2] at e; simp at e
      · refine ⟨_, l2, ?_⟩
        have : (fam.map (fun q => q.1.h s)).sum ≤ (fam.map (fun q => t.costOn q.2.2 q.2.1 i + q.1.h s')).sum := by
          refine List.sum_le_sum (fun q hq => ?_)
          obtain ⟨m, e, hm⟩ := hcons q hq
          rw [l1 q hq] at e
          simp only [Option.some.injEq] at e
          rw [e]; exact hm
        rw [List.sum_map_add] at this
        have h6 := h4 i
        omega
  · intro s π hs hπ
    exact fam_admissible h3 h5 ht.simple h4 hs hπ

/-- C37 and C23: A* with the zero-one heuristic returns a plan of minimal cost if there is a plan, and fails otherwise. -/
theorem C37_astar {t : Task} (ht : t.PdbOk) {patterns : List (List Nat)} {C B : Nat} (hfit : t.CollectionFits patterns C B) (hC : C < 2 ^ 29) (hB : patterns.length * B < 2 ^ 30) (hty : t.FitsTypes .normal) (H : AdaptiveQueue.StdHeap Nat) :
    ∃ dbs, zeroOnePdbs H t patterns = .ok dbs ∧ ∃ hobj : AdmissibleObject t (fun _ : Unit => True) (fun s m => (zeroOneHeuristic dbs s).map (fun v => (v, m))),
      ∀ (u : Nat → Nat → Bool) (H' : OpenList.StdHeap State) (rel : Nat → Bool) (rng : OpenList.Rng) (σ : { _m : Unit // True }),
        ∃ n, OptimalResult t (Eager.search (World.ofTask t u .normal) (objEnv hobj) H' rel ⟨true, 2147483647⟩ (.tiebreaking false false [1, 0]) rng σ n) := by
  obtain ⟨fam, h1, h2, h3, h4, h5⟩ := zero_one_spec H ht hfit
  have hlen : fam.length ≤ patterns.length := by
    have := congrArg List.length h2
    simp only [List.length_map, List.length_zip] at this
    omega
  have hobj : AdmissibleObject t (fun _ : Unit => True) (fun s m => (zeroOneHeuristic (fam.map (·.1)) s).map (fun v => (v, m))) := by
    intro s m hs _
    rcases fam_heuristic h3 h5 hs with ⟨⟨q, k1, k2⟩, k3⟩ | ⟨k1, k2⟩
    · refine ⟨none, m, by simp [k3], trivial, by simp, fun π hπ => ?_⟩
      obtain ⟨n, e, _⟩ := fam_admissible h3 h5 ht.simple h4 hs hπ
      rw [k3] at e; simp at e
    · refine ⟨some (fam.map (fun q => q.1.h s)).sum, m, by simp only [k2, Option.map_some], trivial, fun n hn => ?_, fun π hπ => ?_⟩
      · simp only [Option.some.injEq] at hn
        have h6 := sum_le_length_mul (l := fam.map (·.1)) (s := s) (B := B) (fun db hdb => by
          obtain ⟨q, hq, rfl⟩ := List.mem_map.mp hdb
          obtain ⟨v, e1, _, e2⟩ := (h3 q hq).value s hs
          rw [k1 q hq] at e1
          simp only [Option.some.injEq] at e1
          exact e2 _ e1.symm)
        rw [List.map_map, List.length_map] at h6
        have h7 : (fam.map (fun q => q.1.h s)).sum ≤ fam.length * B := h6
        have h8 : fam.length * B ≤ patterns.length * B := Nat.mul_le_mul_right _ hlen
        omega
      · obtain ⟨n, e, hn⟩ := fam_admissible h3 h5 ht.simple h4 hs hπ
        rw [k2] at e
        simp only [Option.some.injEq] at e
        exact ⟨_, rfl, by rw [e]; exact hn⟩
  exact ⟨_, h1, hobj, fun u H' rel rng σ => astar_object hobj ht.wf hty (fun i => Nat.lt_of_le_of_lt (hfit.cost i) hC) u H' rel rng σ⟩

/-- the zero-one construction with at most `k` iterations for each database, for examples -/
def zeroOneProbe (H : AdaptiveQueue.StdHeap Nat) (t : Task) (s : State) (k : Nat) : List (List Nat) → List Nat → Option (List (Option Nat))
  | [], _ => some []
  | P :: Ps, costs =>
    match probe H t P costs s k with
    | none => none
    | some v =>
      match zeroLoop P t.ops.zipIdx costs with
      | none => none
      | some costs =>
        match zeroOneProbe H t s k Ps costs with
        | none => none
        | some vs => some (v :: vs)

theorem zeroOneProbe_sound {H : AdaptiveQueue.StdHeap Nat} {t : Task} {s : State} {k : Nat} : ∀ {Ps : List (List Nat)} {costs : List Nat} {vs : List (Option Nat)}, zeroOneProbe H t s k Ps costs = some vs →
    ∃ dbs, zeroOneLoop H t Ps costs = .ok dbs ∧ dbs.map (fun db => db.heuristic s) = vs.map some
  | [], _, vs, h => by
    simp only [zeroOneProbe, Option.some.injEq] at h
    subst h
    exact ⟨[], rfl, rfl⟩
  | P :: Ps, costs, vs, h => by
    unfold zeroOneProbe at h
    split at h
    · simp at h
    · rename_i v hv
      split at h
      · simp at h
      · rename_i costs' hc
        split at h
        · simp at h
        · rename_i vs' hvs
          simp only [Option.some.injEq] at h
          subst h
          obtain ⟨db, h1, h2⟩ := probe_sound hv
          obtain ⟨dbs, h3, h4⟩ := zeroOneProbe_sound hvs
          refine ⟨db :: dbs, ?_, by simp [h2, h4]⟩
          simp only [zeroOneLoop, h1, computePdb_pattern h1, hc, h3]

theorem pdbTask_fits : pdbTask.CollectionFits [[0], [1], [0, 1]] 5 45 where
  cost := pdbTask_cost
  range := by decide
  sorted := by decide
  states := by decide
  bound := by decide
  fits := by decide

/-- The patterns [0] and [1] are both affected by the first operator, which is charged only for the first one; the second operator is charged for [1]; nothing is left for [0, 1]. -/
example : ∃ dbs, zeroOnePdbs (AdaptiveQueue.insertHeap Nat) pdbTask [[0], [1], [0, 1]] = .ok dbs ∧ dbs.map (fun db => db.heuristic [0, 0, 0]) = [some (some 5), some (some 3), some (some 0)] :=
  zeroOneProbe_sound (k := 20) (vs := [some 5, some 3, some 0]) (by decide +kernel)

end Verif.Pdb
