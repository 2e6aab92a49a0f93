import Verif.Lemmas.Dominance

/-
The canonical pattern database heuristic.
-/
namespace Verif.Pdb
open Verif.AdaptiveQueue

/-- the sum of the finite values of a clique -/
def cliqueH (dbs : List Db) (s : State) (c : List Nat) : Nat := (c.map (fun i => ((dbs[i]?).map (Db.h s)).getD 0)).sum

theorem hValues_spec {s : State} {B : Nat} : ∀ dbs : List Db, (∀ db ∈ dbs, ∃ v, db.heuristic s = some v ∧ ∀ n, v = some n → n ≤ B) →
    ((∃ db ∈ dbs, db.heuristic s = some none) ∧ hValues s dbs = some none) ∨ ((∀ db ∈ dbs, db.heuristic s = some (some (db.h s)) ∧ db.h s ≤ B) ∧ hValues s dbs = some (some (dbs.map (Db.h s))))
  | [], _ => Or.inr ⟨by simp, rfl⟩
  | db :: dbs, h => by
    obtain ⟨v, h1, h2⟩ := h db (List.mem_cons_self ..)
    obtain ⟨h3, h4⟩ := heuristic_value h1
    unfold hValues
    rw [h3]
    cases v with
    | none => exact Or.inl ⟨⟨db, List.mem_cons_self .., h1⟩, by simp⟩
    | some n =>
      have he : db.h s = n := by simp [Db.h, h1]
      simp only [Option.getD_some, if_neg (h4 n rfl)]
      rcases hValues_spec dbs (fun d hd => h d (List.mem_cons_of_mem _ hd)) with ⟨⟨d, k1, k2⟩, k3⟩ | ⟨k1, k2⟩
      · exact Or.inl ⟨⟨d, List.mem_cons_of_mem _ k1, k2⟩, by rw [k3]⟩
      · refine Or.inr ⟨fun d hd => ?_, by rw [k2, List.map_cons, he]⟩
        rcases List.mem_cons.mp hd with rfl | hd
        · exact ⟨by rw [h1, he], by rw [he]; exact h2 n rfl⟩
        · exact k1 d hd

theorem cliqueSum_spec {dbs : List Db} {s : State} {B : Nat} (hB : ∀ db ∈ dbs, db.h s ≤ B) : ∀ (c : List Nat) (a : Nat), (∀ i ∈ c, i < dbs.length) → a + c.length * B < 2 ^ 31 - 1 → cliqueSum (dbs.map (Db.h s)) c a = some (a + cliqueH dbs s c) ∧ cliqueH dbs s c ≤ c.length * B
  | [], a, _, _ => by simp [cliqueSum, cliqueH]
  | i :: c, a, hr, hb => by
    have hi := hr i (List.mem_cons_self ..)
    have hB' := hB _ (List.getElem_mem hi)
    rw [List.length_cons, Nat.add_mul, Nat.one_mul] at hb
    obtain ⟨h1, h2⟩ := cliqueSum_spec hB c (a + dbs[i].h s) (fun k hk => hr k (List.mem_cons_of_mem _ hk)) (by omega)
    have e : cliqueH dbs s (i :: c) = dbs[i].h s + cliqueH dbs s c := by simp [cliqueH, hi]
    unfold cliqueSum
    rw [List.getElem?_map, List.getElem?_eq_getElem hi]
    simp only [Option.map_some]
    rw [if_pos (by omega), h1, e]
    refine ⟨by rw [Nat.add_assoc], ?_⟩
    rw [List.length_cons, Nat.add_mul, Nat.one_mul]
    omega

theorem cliqueMax_spec {dbs : List Db} {s : State} {B : Nat} (hB : ∀ db ∈ dbs, db.h s ≤ B) : ∀ (cs : List (List Nat)) (a : Nat), (∀ c ∈ cs, ∀ i ∈ c, i < dbs.length) → (∀ c ∈ cs, c.length * B < 2 ^ 31 - 1) →
    ∃ r, cliqueMax (dbs.map (Db.h s)) cs a = some r ∧ a ≤ r ∧ (∀ c ∈ cs, cliqueH dbs s c ≤ r) ∧ (r = a ∨ ∃ c ∈ cs, r = cliqueH dbs s c)
  | [], a, _, _ => ⟨a, rfl, Nat.le_refl _, by simp, Or.inl rfl⟩
  | c :: cs, a, hr, hl => by
    obtain ⟨h1, _⟩ := cliqueSum_spec hB c 0 (hr c (List.mem_cons_self ..)) (by have := hl c (List.mem_cons_self ..); omega)
    rw [Nat.zero_add] at h1
    obtain ⟨r, k1, k2, k3, k4⟩ := cliqueMax_spec hB cs (max a (cliqueH dbs s c)) (fun d hd => hr d (List.mem_cons_of_mem _ hd)) (fun d hd => hl d (List.mem_cons_of_mem _ hd))
    refine ⟨r, by simp only [cliqueMax, h1, k1], by omega, fun d hd => ?_, ?_⟩
    · rcases List.mem_cons.mp hd with rfl | hd
      · omega
      · exact k3 d hd
    · rcases k4 with h | ⟨d, hd, e⟩
      · rcases Nat.le_total a (cliqueH dbs s c) with h' | h'
        · exact Or.inr ⟨c, List.mem_cons_self .., by rw [h, Nat.max_eq_right h']⟩
        · exact Or.inl (by rw [h, Nat.max_eq_left h'])
      · exact Or.inr ⟨d, List.mem_cons_of_mem _ hd, e⟩

/-- the value is infinite if one of the databases has an infinite value, otherwise it is the maximum of the sums of the cliques -/
theorem canonicalHeuristic_spec {dbs : List Db} {cliques : List (List Nat)} {s : State} {B : Nat} (hv : ∀ db ∈ dbs, ∃ v, db.heuristic s = some v ∧ ∀ n, v = some n → n ≤ B) (hr : ∀ c ∈ cliques, ∀ i ∈ c, i < dbs.length)
    (hl : ∀ c ∈ cliques, c.length * B < 2 ^ 31 - 1) :
    ((∃ db ∈ dbs, db.heuristic s = some none) ∧ canonicalHeuristic dbs cliques s = some none) ∨
    ((∀ db ∈ dbs, db.heuristic s = some (some (db.h s))) ∧ ∃ r, canonicalHeuristic dbs cliques s = some (some r) ∧ (∀ c ∈ cliques, cliqueH dbs s c ≤ r) ∧ (r = 0 ∨ ∃ c ∈ cliques, r = cliqueH dbs s c)) := by
  rcases hValues_spec dbs hv with ⟨h1, h2⟩ | ⟨h1, h2⟩
  · exact Or.inl ⟨h1, by simp [canonicalHeuristic, canonicalValue, h2, toHeuristic]⟩
  · have hB : ∀ db ∈ dbs, db.h s ≤ B := fun db hdb => (h1 db hdb).2
    obtain ⟨r, k1, _, k3, k4⟩ := cliqueMax_spec hB cliques 0 hr hl
    refine Or.inr ⟨fun db hdb => (h1 db hdb).1, r, ?_, k3, k4⟩
    have hne : r ≠ Dijkstra.inf := by
      unfold Dijkstra.inf
      rcases k4 with h | ⟨c, hc, e⟩
      · omega
      · have := (cliqueSum_spec hB c 0 (hr c hc) (by have := hl c hc; omega)).2
        have := hl c hc
        omega
    simp [canonicalHeuristic, canonicalValue, h2, k1, toHeuristic, hne]

theorem createPdbs_spec (H : StdHeap Nat) {t : Task} (ht : t.PdbOk) {C B : Nat} (hC : ∀ i, t.opCost i ≤ C) (hB : B < 2 ^ 31 - 1) : ∀ Ps : List (List Nat),
    (∀ P ∈ Ps, t.IsPattern P ∧ t.numAbstractStates P < 2 ^ 31 ∧ t.numAbstractStates P * C ≤ B) →
    ∃ dbs, createPdbs H t Ps = .ok dbs ∧ dbs.length = Ps.length ∧ ∀ (i : Nat) P d, Ps[i]? = some P → dbs[i]? = some d → PdbSpec t P t.opCost B d
  | [], _ => ⟨[], rfl, rfl, by simp⟩
  | P :: Ps, h => by
    obtain ⟨p1, p2, p3⟩ := h P (List.mem_cons_self ..)
    obtain ⟨db, h1, h2, h3⟩ := pdb_spec H ht p1 (costs := []) (Or.inl rfl) (C := C) (fun i => by rw [costWith_nil]; exact hC i) p2 (by omega)
    obtain ⟨dbs, k1, k2, k3⟩ := createPdbs_spec H ht hC hB Ps (fun Q hQ => h Q (List.mem_cons_of_mem _ hQ))
    refine ⟨db :: dbs, by simp only [createPdbs, h1, k1], by simp [k2], fun i Q d hQ hd => ?_⟩
    cases i with
    | zero =>
      simp only [List.getElem?_cons_zero, Option.some.injEq] at hQ hd
      subst hQ hd
      rw [costWith_nil] at h2
      exact ⟨fun s hs => by
        obtain ⟨v, l1, l2, l3⟩ := h2 s hs
        exact ⟨v, l1, l2, fun n hn => Nat.le_trans (l3 n hn) p3⟩, h3⟩
    | succ i => exact k3 i Q d (by simpa using hQ) (by simpa using hd)

/-- databases for a collection of patterns -/
structure CSpec (t : Task) (patterns : List (List Nat)) (B : Nat) (dbs : List Db) : Prop where
  len : dbs.length = patterns.length
  spec : ∀ (i : Nat) P d, patterns[i]? = some P → dbs[i]? = some d → PdbSpec t P t.opCost B d

section
variable {t : Task} {patterns : List (List Nat)} {B : Nat} {dbs : List Db} (hd : CSpec t patterns B dbs)
include hd

theorem CSpec.get {i : Nat} (hi : i < patterns.length) : ∃ P d, patterns[i]? = some P ∧ dbs[i]? = some d ∧ PdbSpec t P t.opCost B d :=
  ⟨_, _, List.getElem?_eq_getElem hi, List.getElem?_eq_getElem (by rw [hd.len]; exact hi), hd.spec i _ _ (List.getElem?_eq_getElem hi) (List.getElem?_eq_getElem (by rw [hd.len]; exact hi))⟩

theorem CSpec.get_db {d : Db} (h : d ∈ dbs) : ∃ P ∈ patterns, PdbSpec t P t.opCost B d := by
  obtain ⟨i, hi⟩ := List.getElem?_of_mem h
  obtain ⟨P, d', h1, h2, h3⟩ := hd.get (i := i) (by rw [← hd.len]; exact (List.getElem?_eq_some_iff.mp hi).1)
  rw [hi] at h2
  simp only [Option.some.injEq] at h2
  subst h2
  exact ⟨P, List.mem_of_getElem? h1, h3⟩

theorem CSpec.value {s : State} (hs : t.ValidState s) : ∀ db ∈ dbs, ∃ v, db.heuristic s = some v ∧ ∀ n, v = some n → n ≤ B := fun db hdb => by
  obtain ⟨P, _, h⟩ := hd.get_db hdb
  obtain ⟨v, k1, _, k2⟩ := h.value s hs
  exact ⟨v, k1, k2⟩

/-- the value of the pattern with number `i` if all values are finite -/
theorem CSpec.perfect {s : State} (hs : t.ValidState s) (hfin : ∀ db ∈ dbs, db.heuristic s = some (some (db.h s))) {i : Nat} {P : List Nat} (hi : patterns[i]? = some P) : (t.project P).PerfectValue t.opCost s (some (((dbs[i]?).map (Db.h s)).getD 0)) := by
  obtain ⟨P', d, h1, h2, h3⟩ := hd.get (i := i) (List.getElem?_eq_some_iff.mp hi).1
  rw [hi] at h1
  simp only [Option.some.injEq] at h1
  subst h1
  obtain ⟨v, k1, k2, _⟩ := h3.value s hs
  rw [hfin d (List.mem_of_getElem? h2)] at k1
  simp only [Option.some.injEq] at k1
  rw [h2]
  subst k1
  exact k2

/-- the patterns of an additive subset are additive -/
theorem additive_pairwise {A : List Nat} (hA : t.AdditiveSubset patterns A) : A.Pairwise (fun i j => t.AdditivePatterns ((patterns[i]?).getD []) ((patterns[j]?).getD [])) := by
  refine (List.Pairwise.and_mem.mp hA.nodup).imp (fun {i j} h => ?_)
  obtain ⟨h1, h2, h3⟩ := h
  have hi := List.getElem?_eq_getElem (hA.range i h1)
  have hj := List.getElem?_eq_getElem (hA.range j h2)
  rw [hi, hj]
  exact hA.additive i h1 j h2 h3 _ _ hi hj

/-- the values of an additive subset add up to at most the cost of every plan -/
theorem cliqueH_admissible (ht : t.Simple) {s : State} (hs : t.ValidState s) (hfin : ∀ db ∈ dbs, db.heuristic s = some (some (db.h s))) {A : List Nat} (hA : t.AdditiveSubset patterns A) {π : List Nat} (hπ : t.SolvesFrom s π) :
    cliqueH dbs s A ≤ (π.map t.opCost).sum := by
  refine partition_le ht hs A (fun i => (patterns[i]?).getD []) (fun _ => t.opCost) (fun i => ((dbs[i]?).map (Db.h s)).getD 0) (fun i hi => ?_) (fun i => ?_) hπ
  · have e := List.getElem?_eq_getElem (hA.range i hi)
    simp only [e, Option.getD_some]
    exact hd.perfect hs hfin e
  · exact additive_cost_le (P := fun i => (patterns[i]?).getD []) (additive_pairwise hd hA)

theorem group_le {c : List Nat} {g : Nat → Nat} {h : Nat → Nat} : ∀ {c' : List Nat}, (∀ i ∈ c', g i ∈ c) → (c'.map h).sum ≤ (c.map (fun j => ((c'.filter (fun i => decide (g i = j))).map h).sum)).sum
  | [], _ => by simp
  | i :: c', hg => by
    have ih := group_le (h := h) (c' := c') (fun k hk => hg k (List.mem_cons_of_mem _ hk))
    have h1 : (c.map (fun j => (((i :: c').filter (fun i => decide (g i = j))).map h).sum)).sum = (c.map (fun j => (if g i = j then h i else 0) + ((c'.filter (fun i => decide (g i = j))).map h).sum)).sum := by
      congr 1
      refine List.map_congr_left (fun j _ => ?_)
      by_cases hij : g i = j <;> simp [hij]
    have h2 : h i ≤ (c.map (fun j => if g i = j then h i else 0)).sum := by
      have := List.single_le_sum (l := c.map (fun j => if g i = j then h i else 0)) (fun _ _ => Nat.zero_le _) (h i) (List.mem_map.mpr ⟨g i, hg i (List.mem_cons_self ..), by simp⟩)
      exact this
    rw [h1, List.sum_map_add, List.map_cons, List.sum_cons]
    omega

/-- a dominated additive subset has a value of at most the value of the dominating clique -/
theorem cliqueH_dom (ht : t.Simple) {s : State} (hs : t.ValidState s) (hfin : ∀ db ∈ dbs, db.heuristic s = some (some (db.h s))) {c c' : List Nat} (hc' : t.AdditiveSubset patterns c') (hdom : Dom patterns c c') : cliqueH dbs s c' ≤ cliqueH dbs s c := by
  choose! g hg using hdom
  have h1 := group_le hd (c := c) (c' := c') (g := g) (h := fun i => ((dbs[i]?).map (Db.h s)).getD 0) (fun i hi => (hg i hi).1)
  refine Nat.le_trans h1 (List.sum_le_sum (fun j hj => ?_))
  by_cases hex : ∃ i ∈ c', g i = j
  · obtain ⟨i0, hi0, hij0⟩ := hex
    obtain ⟨_, P0, Q, a1, a2, _⟩ := hg i0 hi0
    rw [hij0] at a2
    refine additive_le_project ht hs _ (fun i => (patterns[i]?).getD []) _ (hd.perfect hs hfin a2) (fun i hi => ?_) (fun i hi => ?_) ((additive_pairwise hd hc').filter _)
    · have hi' := List.mem_of_mem_filter hi
      have e := List.getElem?_eq_getElem (hc'.range i hi')
      simp only [e, Option.getD_some]
      exact hd.perfect hs hfin e
    · obtain ⟨hi1, hi2⟩ := List.mem_filter.mp hi
      obtain ⟨_, P, Q', b1, b2, b3⟩ := hg i hi1
      rw [of_decide_eq_true hi2, a2] at b2
      simp only [Option.some.injEq] at b2
      subst b2
      simpa [b1] using b3
  · have : c'.filter (fun i => decide (g i = j)) = [] := by
      rw [List.filter_eq_nil_iff]
      intro i hi hc
      exact hex ⟨i, hi, of_decide_eq_true hc⟩
    rw [this]
    simp

end
end Verif.Pdb
