import Verif.Model.PdbCollections
import Verif.Lemmas.CostPartition
import Verif.Props.Pdb

/-
Zero-one pattern databases.
-/
namespace Verif.Pdb
open Verif.AdaptiveQueue

/-- a database has the perfect values of the projection for the operator costs `d`, and finite values are at most `B` -/
structure PdbSpec (t : Task) (P : List Nat) (d : Nat → Nat) (B : Nat) (db : Db) : Prop where
  value : ∀ s, t.ValidState s → ∃ v, db.heuristic s = some v ∧ (t.project P).PerfectValue d s v ∧ ∀ n, v = some n → n ≤ B
  agree : ∀ s s', t.ValidState s → t.ValidState s' → Agree P s s' → db.heuristic s = db.heuristic s'

theorem PdbSpec.goal {t : Task} {P : List Nat} {d : Nat → Nat} {B : Nat} {db : Db} (h : PdbSpec t P d B db) {s : State} (hs : t.ValidState s) (hg : allHold t.goal s) : db.heuristic s = some (some 0) := by
  obtain ⟨v, h1, h2, _⟩ := h.value s hs
  have hsol : (t.project P).SolvesFrom s [] := ⟨s, .nil s, fun f hf => hg f (List.mem_of_mem_filter hf)⟩
  cases v with
  | none => exact absurd hsol (h2 _)
  | some n =>
    have := h2.2 _ hsol
    simp only [List.map_nil, List.sum_nil, Nat.le_zero] at this
    rw [h1, this]

/-- consistency, even if only operators that affect the pattern are counted -/
theorem PdbSpec.consistent {t : Task} (ht : t.Simple) {P : List Nat} {d : Nat → Nat} {B : Nat} {db : Db} (h : PdbSpec t P d B db) {s s' : State} {i : Nat} {o : Operator} {n : Nat} (hs : t.ValidState s) (ho : t.ops[i]? = some o) (ha : o.applicable s)
    (hsucc : t.SuccRel o s s') (hn : db.heuristic s' = some (some n)) : ∃ m, db.heuristic s = some (some m) ∧ m ≤ t.costOn d P i + n := by
  have hs' := succ_valid ht.wf hs ho ha hsucc
  by_cases hq : t.affects P i = true
  · obtain ⟨j1, s'', j2, j3, j4⟩ := proj_step ht.wf ht.axioms ht.conds ht.eff (P := P) (List.mem_of_getElem? ho) hs hs ha hsucc (fun _ _ => rfl)
    rw [h.agree s' s'' hs' j2 j4] at hn
    obtain ⟨v, k1, k2, _⟩ := h.value s'' j2
    rw [hn] at k1
    simp only [Option.some.injEq] at k1
    subst k1
    obtain ⟨⟨π, ⟨u, k3, k4⟩, k5⟩, _⟩ := k2
    have hsol : (t.project P).SolvesFrom s (i :: π) := ⟨u, .cons s i (o.project P) s'' π u (by rw [project_ops, ho]; rfl) j1 j3 k3, k4⟩
    obtain ⟨v, l1, l2, _⟩ := h.value s hs
    cases v with
    | none => exact absurd hsol (l2 _)
    | some m =>
      refine ⟨m, l1, ?_⟩
      have := l2.2 _ hsol
      simp only [List.map_cons, List.sum_cons] at this
      unfold Task.costOn
      rw [if_pos hq]
      omega
  · have hag : Agree P s s' := by
      obtain ⟨_, _, a3⟩ := succ_simple ht.wf ht.axioms (ht.conds o (List.mem_of_getElem? ho)) (ht.eff o (List.mem_of_getElem? ho)) hsucc
      intro v hv
      exact (a3 v (fun e he hc => hq (affects_iff.mpr ⟨o, ho, e, he, hc ▸ hv⟩))).symm
    exact ⟨n, by rw [h.agree s s' hs hs' hag, hn], by omega⟩

theorem isOperatorRelevant_spec {P : List Nat} (hP : P.Pairwise (· < ·)) : ∀ es : List Effect, isOperatorRelevant P es = some (es.any (fun e => decide (e.fact.var ∈ P)))
  | [] => rfl
  | e :: es => by
    have hP' : P.Pairwise (· ≤ ·) := hP.imp (fun h => Nat.le_of_lt h)
    unfold isOperatorRelevant binarySearch
    rw [if_pos hP', isOperatorRelevant_spec hP es]
    by_cases h : e.fact.var ∈ P <;> simp [h]

/-- costs are set to 0 exactly for relevant operators -/
theorem zeroLoop_spec {P : List Nat} (hP : P.Pairwise (· < ·)) : ∀ (l : List (Operator × Nat)) (costs : List Nat), (∀ q ∈ l, q.2 < costs.length) →
    ∃ costs', zeroLoop P l costs = some costs' ∧ costs'.length = costs.length ∧
      ∀ i, (costs'[i]?).getD 0 = if l.any (fun q => q.2 == i && q.1.effects.any (fun e => decide (e.fact.var ∈ P))) then 0 else (costs[i]?).getD 0
  | [], costs, _ => ⟨costs, rfl, rfl, fun i => by simp⟩
  | (o, k) :: l, costs, h => by
    have hk : k < costs.length := h (o, k) (List.mem_cons_self ..)
    unfold zeroLoop
    rw [isOperatorRelevant_spec hP]
    cases hr : o.effects.any (fun e => decide (e.fact.var ∈ P)) with
    | true =>
      simp only [if_pos hk]
      obtain ⟨costs', h1, h2, h3⟩ := zeroLoop_spec hP l (costs.set k 0) (fun q hq => by simpa using h q (List.mem_cons_of_mem _ hq))
      refine ⟨costs', h1, by simpa using h2, fun i => ?_⟩
      rw [h3 i, List.any_cons]
      simp only [hr, Bool.and_true]
      by_cases hki : k = i
      · subst hki; simp [hk]
      · have hb : (k == i) = false := by simpa using hki
        rw [List.getElem?_set_ne hki]
        show _ = if (k == i || _) = true then 0 else _
        rw [hb, Bool.false_or]
    | false =>
      obtain ⟨costs', h1, h2, h3⟩ := zeroLoop_spec hP l costs (fun q hq => h q (List.mem_cons_of_mem _ hq))
      refine ⟨costs', h1, h2, fun i => ?_⟩
      rw [h3 i, List.any_cons]
      simp only [hr, Bool.and_false, Bool.false_or]

theorem any_zipIdx {t : Task} {P : List Nat} {i : Nat} : t.ops.zipIdx.any (fun q => q.2 == i && q.1.effects.any (fun e => decide (e.fact.var ∈ P))) = t.affects P i := by
  rw [Bool.eq_iff_iff, affects_iff, List.any_eq_true]
  constructor
  · rintro ⟨⟨o, k⟩, h1, h2⟩
    rw [List.mem_zipIdx_iff_getElem?] at h1
    simp only [Bool.and_eq_true, beq_iff_eq, List.any_eq_true, decide_eq_true_eq] at h2
    obtain ⟨rfl, e, he, hm⟩ := h2
    exact ⟨o, h1, e, he, hm⟩
  · rintro ⟨o, ho, e, he, hm⟩
    refine ⟨(o, i), List.mem_zipIdx_iff_getElem?.mpr ho, ?_⟩
    simp only [Bool.and_eq_true, beq_iff_eq, List.any_eq_true, decide_eq_true_eq]
    exact ⟨trivial, e, he, hm⟩

/-- the cost functions of the patterns -/
def zeroOneCosts (t : Task) (c : Nat → Nat) : List (List Nat) → List (Nat → Nat)
  | [] => []
  | P :: Ps => c :: zeroOneCosts t (fun i => if t.affects P i then 0 else c i) Ps

theorem projLoop_pattern {t : Task} : ∀ {vs : List Nat} {p q : Proj}, projLoop t vs p = .ok q → q.pattern = p.pattern
  | [], p, q, h => by simp only [projLoop, Build.ok.injEq] at h; rw [h]
  | v :: vs, p, q, h => by
    unfold projLoop at h
    split at h
    · simp at h
    · split at h
      · have := projLoop_pattern h
        simpa using this
      · simp at h

theorem computePdb_pattern {H : StdHeap Nat} {t : Task} {P costs : List Nat} {db : Db} (h : computePdb H t P costs = .ok db) : db.proj.pattern = P := by
  unfold computePdb at h
  split at h
  · simp at h
  · simp at h
  · simp at h
  · rename_i p hp
    split at h
    · simp at h
    · split at h
      · simp at h
      · split at h
        · simp at h
        · simp only [Build.ok.injEq] at h
          rw [← h]
          unfold project at hp
          split at hp
          · simp at hp
          · split at hp
            · simp at hp
            · exact projLoop_pattern hp

theorem zeroOneCosts_getElem? {t : Task} : ∀ {Ps : List (List Nat)} {c : Nat → Nat} {k : Nat}, k < Ps.length → (zeroOneCosts t c Ps)[k]? = some (fun i => if (Ps.take k).any (fun P => t.affects P i) then 0 else c i)
  | [], _, _, h => by simp at h
  | P :: Ps, c, 0, _ => by simp [zeroOneCosts]
  | P :: Ps, c, k + 1, h => by
    rw [zeroOneCosts, List.getElem?_cons_succ, zeroOneCosts_getElem? (by simpa using h)]
    congr 1
    funext i
    rw [List.take_succ_cons, List.any_cons]
    cases t.affects P i <;> simp

theorem costWith_eq {t : Task} {costs : List Nat} (h : costs.length = t.ops.length) : t.costWith costs = fun i => (costs[i]?).getD 0 := by
  funext i
  unfold Task.costWith
  split
  · rename_i he
    subst he
    have : t.ops = [] := List.eq_nil_of_length_eq_zero h.symm
    simp [Task.opCost, this]
  · rfl

/-- everything that the constructor of the zero-one databases computes: for each pattern a database with the perfect values for its costs -/
theorem zeroOneLoop_spec (H : StdHeap Nat) {t : Task} (ht : t.PdbOk) {C B : Nat} (hB : B < 2 ^ 31 - 1) : ∀ (Ps : List (List Nat)) (costs : List Nat), costs.length = t.ops.length → (∀ i : Nat, (costs[i]?).getD 0 ≤ C) →
    (∀ P ∈ Ps, t.IsPattern P ∧ P.Pairwise (· < ·) ∧ t.numAbstractStates P < 2 ^ 31 ∧ t.numAbstractStates P * C ≤ B) →
    ∃ fam : List (Db × List Nat × (Nat → Nat)), zeroOneLoop H t Ps costs = .ok (fam.map (·.1)) ∧ fam.map (·.2) = Ps.zip (zeroOneCosts t (fun i : Nat => (costs[i]?).getD 0) Ps) ∧ (∀ q ∈ fam, PdbSpec t q.2.1 q.2.2 B q.1) ∧
      ∀ i : Nat, (fam.map (fun q => t.costOn q.2.2 q.2.1 i)).sum ≤ (costs[i]?).getD 0
  | [], costs, _, _, _ => ⟨[], by simp [zeroOneLoop], by simp, by simp, by simp⟩
  | P :: Ps, costs, hlen, hC, hP => by
    obtain ⟨p1, p2, p3, p4⟩ := hP P (List.mem_cons_self ..)
    have hcw := costWith_eq hlen
    obtain ⟨db, h1, h2, h3⟩ := pdb_spec H ht p1 (costs := costs) (Or.inr hlen) (C := C) (fun i => by rw [hcw]; exact hC i) p3 (by omega)
    have hpat : db.proj.pattern = P := computePdb_pattern h1
    obtain ⟨costs', k1, k2, k3⟩ := zeroLoop_spec p2 t.ops.zipIdx costs (fun q hq => by
      rw [hlen]
      have := List.mem_zipIdx_iff_getElem?.mp hq
      exact (List.getElem?_eq_some_iff.mp this).1)
    simp only [any_zipIdx] at k3
    obtain ⟨fam, f1, f2, f3, f4⟩ := zeroOneLoop_spec H ht hB Ps costs' (by omega) (fun i => by
      rw [k3 i]
      split
      · omega
      · exact hC i) (fun Q hQ => hP Q (List.mem_cons_of_mem _ hQ))
    have hcf : (fun i => (costs'[i]?).getD 0) = fun i => if t.affects P i then 0 else (costs[i]?).getD 0 := funext k3
    refine ⟨(db, P, fun i => (costs[i]?).getD 0) :: fam, ?_, ?_, ?_, ?_⟩
    · simp only [zeroOneLoop, h1, hpat, k1, f1, List.map_cons]
    · rw [List.map_cons, f2, zeroOneCosts, List.zip_cons_cons, hcf]
    · intro q hq
      rcases List.mem_cons.mp hq with rfl | hq
      · rw [hcw] at h2
        exact ⟨fun s hs => by
          obtain ⟨v, l1, l2, l3⟩ := h2 s hs
          exact ⟨v, l1, l2, fun n hn => Nat.le_trans (l3 n hn) p4⟩, h3⟩
      · exact f3 q hq
    · intro i
      rw [List.map_cons, List.sum_cons]
      have := f4 i
      rw [k3 i] at this
      unfold Task.costOn at this ⊢
      simp only
      split at this
      · rename_i ha; rw [if_pos ha]; omega
      · rename_i ha; rw [if_neg ha]; omega

/-- the finite heuristic value of a database -/
def Db.h (s : State) (db : Db) : Nat := ((db.heuristic s).getD none).getD 0

theorem heuristic_value {db : Db} {s : State} {v : Option Nat} (h : db.heuristic s = some v) : db.value s = some (v.getD Dijkstra.inf) ∧ ∀ n, v = some n → n ≠ Dijkstra.inf := by
  unfold Db.heuristic at h
  split at h
  · simp at h
  · rename_i x hx
    split at h
    · rename_i he
      simp only [Option.some.injEq] at h
      subst h
      exact ⟨by rw [hx, he]; rfl, by simp⟩
    · rename_i he
      simp only [Option.some.injEq] at h
      subst h
      exact ⟨by rw [hx]; rfl, fun n hn => by simp only [Option.some.injEq] at hn; rw [← hn]; exact he⟩

theorem sum_le_length_mul {l : List Db} {s : State} {B : Nat} (h : ∀ db ∈ l, db.h s ≤ B) : (l.map (Db.h s)).sum ≤ l.length * B := by
  induction l with
  | nil => simp
  | cons a l ih =>
    have h1 := h a (List.mem_cons_self ..)
    have h2 := ih (fun db hdb => h db (List.mem_cons_of_mem _ hdb))
    simp only [List.map_cons, List.sum_cons, List.length_cons, Nat.add_mul, Nat.one_mul]
    omega

/-- the value is infinite if one of the databases has an infinite value, the sum otherwise -/
theorem zeroOneValue_spec {s : State} {B : Nat} : ∀ (dbs : List Db) (a : Nat), (∀ db ∈ dbs, ∃ v, db.heuristic s = some v ∧ ∀ n, v = some n → n ≤ B) → a + dbs.length * B < 2 ^ 31 - 1 →
    ((∃ db ∈ dbs, db.heuristic s = some none) ∧ zeroOneValue s dbs a = some Dijkstra.inf) ∨
    ((∀ db ∈ dbs, db.heuristic s = some (some (db.h s))) ∧ zeroOneValue s dbs a = some (a + (dbs.map (Db.h s)).sum))
  | [], a, _, _ => Or.inr ⟨by simp, by simp [zeroOneValue]⟩
  | db :: dbs, a, h, hb => by
    obtain ⟨v, h1, h2⟩ := h db (List.mem_cons_self ..)
    obtain ⟨h3, h4⟩ := heuristic_value h1
    rw [List.length_cons, Nat.add_mul, Nat.one_mul] at hb
    unfold zeroOneValue
    rw [h3]
    cases v with
    | none => exact Or.inl ⟨⟨db, List.mem_cons_self .., h1⟩, by simp⟩
    | some n =>
      have hn := h2 n rfl
      have he : db.h s = n := by simp [Db.h, h1]
      simp only [Option.getD_some, if_neg (h4 n rfl)]
      rw [if_pos (by omega)]
      rcases zeroOneValue_spec dbs (a + n) (fun db hdb => h db (List.mem_cons_of_mem _ hdb)) (by omega) with ⟨⟨db', k1, k2⟩, k3⟩ | ⟨k1, k2⟩
      · exact Or.inl ⟨⟨db', List.mem_cons_of_mem _ k1, k2⟩, k3⟩
      · refine Or.inr ⟨fun db' hdb' => ?_, ?_⟩
        · rcases List.mem_cons.mp hdb' with rfl | hdb'
          · rw [h1, he]
          · exact k1 db' hdb'
        · rw [k2, List.map_cons, List.sum_cons, he, Nat.add_assoc]

theorem zeroOneHeuristic_spec {s : State} {B : Nat} {dbs : List Db} (h : ∀ db ∈ dbs, ∃ v, db.heuristic s = some v ∧ ∀ n, v = some n → n ≤ B) (hb : dbs.length * B < 2 ^ 31 - 1) :
    ((∃ db ∈ dbs, db.heuristic s = some none) ∧ zeroOneHeuristic dbs s = some none) ∨
    ((∀ db ∈ dbs, db.heuristic s = some (some (db.h s))) ∧ zeroOneHeuristic dbs s = some (some ((dbs.map (Db.h s)).sum))) := by
  rcases zeroOneValue_spec dbs 0 h (by omega) with ⟨h1, h2⟩ | ⟨h1, h2⟩
  · exact Or.inl ⟨h1, by simp [zeroOneHeuristic, h2, toHeuristic]⟩
  · refine Or.inr ⟨h1, ?_⟩
    have h3 : (dbs.map (Db.h s)).sum ≤ dbs.length * B := sum_le_length_mul (fun db hdb => by
      obtain ⟨v, k1, k2⟩ := h db hdb
      rw [h1 db hdb] at k1
      simp only [Option.some.injEq] at k1
      exact k2 _ k1.symm)
    have h4 : (dbs.map (Db.h s)).sum ≠ Dijkstra.inf := by unfold Dijkstra.inf; omega
    simp [zeroOneHeuristic, h2, toHeuristic, h4]

end Verif.Pdb
