import Verif.Lemmas.ZeroOne
import Verif.Props.MaxCliques

/-
Pattern cliques are the maximal additive subsets of a collection.
-/
namespace Verif.Pdb
open Verif.MaxCliques

theorem additiveVarsLoop_spec {n : Nat} : ∀ (l : List (Nat × Nat)) (m : Nat → Nat → Bool), (∀ q ∈ l, q.1 < n ∧ q.2 < n) → ∃ m', additiveVarsLoop n l m = some m' ∧ ∀ a b, m' a b = true ↔ m a b = true ∧ (a, b) ∉ l
  | [], m, _ => ⟨m, rfl, by simp⟩
  | (v, w) :: l, m, h => by
    obtain ⟨m', h1, h2⟩ := additiveVarsLoop_spec l (fun a b => if a = v ∧ b = w then false else m a b) (fun q hq => h q (List.mem_cons_of_mem _ hq))
    have h0 := h (v, w) (List.mem_cons_self ..)
    refine ⟨m', by rw [additiveVarsLoop, if_pos h0, h1], fun a b => ?_⟩
    rw [h2 a b, List.mem_cons, not_or, Prod.mk.injEq]
    constructor
    · rintro ⟨k1, k2⟩
      split at k1
      · simp at k1
      · rename_i hne; exact ⟨k1, hne, k2⟩
    · rintro ⟨k1, k2, k3⟩
      exact ⟨by rw [if_neg k2]; exact k1, k3⟩

theorem additiveVars_spec {t : Task} (hwf : t.WF) : ∃ m, additiveVars t = some m ∧ ∀ v w, m v w = true ↔ ∀ o ∈ t.ops, ¬((∃ e ∈ o.effects, e.fact.var = v) ∧ ∃ e ∈ o.effects, e.fact.var = w) := by
  have hr : ∀ o ∈ t.ops, ∀ e ∈ o.effects, e.fact.var < t.vars.length := fun o ho e he => by
    obtain ⟨d, hd, _⟩ := hwf.effFact o ho e he
    exact (List.getElem?_eq_some_iff.mp hd).1
  obtain ⟨m, h1, h2⟩ := additiveVarsLoop_spec (t.ops.flatMap (fun o => o.effects.flatMap (fun e1 => o.effects.map (fun e2 => (e1.fact.var, e2.fact.var))))) (fun _ _ => true) (n := t.vars.length) (fun q hq => by
    simp only [List.mem_flatMap, List.mem_map] at hq
    obtain ⟨o, ho, e1, he1, e2, he2, rfl⟩ := hq
    exact ⟨hr o ho e1 he1, hr o ho e2 he2⟩)
  refine ⟨m, h1, fun v w => ?_⟩
  rw [h2]
  simp only [List.mem_flatMap, List.mem_map, true_and, Prod.mk.injEq]
  constructor
  · rintro h o ho ⟨⟨e1, a1, rfl⟩, e2, a2, rfl⟩
    exact h ⟨o, ho, e1, a1, e2, a2, rfl, rfl⟩
  · rintro h ⟨o, ho, e1, a1, e2, a2, rfl, rfl⟩
    exact h o ho ⟨⟨e1, a1, rfl⟩, e2, a2, rfl⟩

theorem additiveLoop_spec {n : Nat} {m : Nat → Nat → Bool} : ∀ l : List (Nat × Nat), (∀ q ∈ l, q.1 < n ∧ q.2 < n) → ∃ b, additiveLoop n m l = some b ∧ (b = true ↔ ∀ q ∈ l, m q.1 q.2 = true)
  | [], _ => ⟨true, rfl, by simp⟩
  | (v, w) :: l, h => by
    obtain ⟨b, h1, h2⟩ := additiveLoop_spec (m := m) l (fun q hq => h q (List.mem_cons_of_mem _ hq))
    have h0 := h (v, w) (List.mem_cons_self ..)
    unfold additiveLoop additiveAt
    rw [if_pos h0]
    cases hm : m v w with
    | false => exact ⟨false, rfl, by simp [hm]⟩
    | true => exact ⟨b, h1, by simp [hm, h2]⟩

theorem patternsAdditive_spec {t : Task} {m : Nat → Nat → Bool} (hm : ∀ v w, m v w = true ↔ ∀ o ∈ t.ops, ¬((∃ e ∈ o.effects, e.fact.var = v) ∧ ∃ e ∈ o.effects, e.fact.var = w)) {P Q : List Nat}
    (hP : ∀ v ∈ P, v < t.vars.length) (hQ : ∀ v ∈ Q, v < t.vars.length) : ∃ b, patternsAdditive t.vars.length m P Q = some b ∧ (b = true ↔ t.AdditivePatterns P Q) := by
  obtain ⟨b, h1, h2⟩ := additiveLoop_spec (m := m) (n := t.vars.length) (P.flatMap (fun v => Q.map (fun w => (v, w)))) (fun q hq => by
    simp only [List.mem_flatMap, List.mem_map] at hq
    obtain ⟨v, hv, w, hw, rfl⟩ := hq
    exact ⟨hP v hv, hQ w hw⟩)
  refine ⟨b, h1, ?_⟩
  rw [h2]
  simp only [List.mem_flatMap, List.mem_map]
  constructor
  · rintro h o ho ⟨⟨e1, a1, a2⟩, e2, b1, b2⟩
    have := h (e1.fact.var, e2.fact.var) ⟨_, a2, _, b2, rfl⟩
    rw [hm] at this
    exact this o ho ⟨⟨e1, a1, rfl⟩, e2, b1, rfl⟩
  · rintro h q ⟨v, hv, w, hw, rfl⟩
    rw [hm]
    rintro o ho ⟨⟨e1, a1, rfl⟩, e2, b1, rfl⟩
    exact h o ho ⟨⟨e1, a1, hv⟩, e2, b1, hw⟩

theorem AdditivePatterns_symm {t : Task} {P Q : List Nat} (h : t.AdditivePatterns P Q) : t.AdditivePatterns Q P := fun o ho hc => h o ho ⟨hc.2, hc.1⟩

/-- the other end of an edge -/
def nbr (v : Nat) (q : Nat × Nat) : Option Nat := if q.1 = v then some q.2 else if q.2 = v then some q.1 else none

theorem graphLoop_spec {add : List Nat → List Nat → Option Bool} {patterns : List (List Nat)} {ok : Nat → Nat → Bool} (hadd : ∀ (i j : Nat) P Q, patterns[i]? = some P → patterns[j]? = some Q → add P Q = some (ok i j)) :
    ∀ (l : List (Nat × Nat)) (g : List (List Nat)), g.length = patterns.length → (∀ q ∈ l, q.1 < q.2 ∧ q.2 < patterns.length) →
      ∃ g', graphLoop add patterns l g = some g' ∧ g'.length = patterns.length ∧ ∀ (v : Nat) nb, g[v]? = some nb → g'[v]? = some (nb ++ (l.filter (fun q => ok q.1 q.2)).filterMap (nbr v))
  | [], g, hg, _ => ⟨g, rfl, hg, by simp⟩
  | (i, j) :: l, g, hg, h => by
    obtain ⟨h1, h2⟩ := h (i, j) (List.mem_cons_self ..)
    simp only at h1 h2
    have hi : i < patterns.length := Nat.lt_trans h1 h2
    have hrec := fun g' hg' => graphLoop_spec hadd l g' hg' (fun q hq => h q (List.mem_cons_of_mem _ hq))
    unfold graphLoop
    simp only [List.getElem?_eq_getElem hi, List.getElem?_eq_getElem h2]
    rw [hadd i j _ _ (List.getElem?_eq_getElem hi) (List.getElem?_eq_getElem h2)]
    cases hok : ok i j with
    | false =>
      obtain ⟨g', k1, k2, k3⟩ := hrec g hg
      refine ⟨g', k1, k2, fun v nb hv => ?_⟩
      rw [List.filter_cons_of_neg (by simp [hok])]
      exact k3 v nb hv
    | true =>
      have hgi : i < g.length := by omega
      have hgj : j < g.length := by omega
      have hij : i ≠ j := by omega
      have hp1 : pushEdge g i j = some (g.set i (g[i] ++ [j])) := by unfold pushEdge; rw [List.getElem?_eq_getElem hgi]
      have hp2 : pushEdge (g.set i (g[i] ++ [j])) j i = some ((g.set i (g[i] ++ [j])).set j (g[j] ++ [i])) := by
        unfold pushEdge
        rw [List.getElem?_set_ne hij, List.getElem?_eq_getElem hgj]
      simp only [hp1, Option.bind_some, hp2]
      obtain ⟨g', k1, k2, k3⟩ := hrec ((g.set i (g[i] ++ [j])).set j (g[j] ++ [i])) (by simpa using hg)
      refine ⟨g', k1, k2, fun v nb hv => ?_⟩
      rw [List.filter_cons_of_pos (by simpa using hok), List.filterMap_cons]
      by_cases hvi : i = v
      · subst hvi
        rw [List.getElem?_eq_getElem hgi] at hv
        simp only [Option.some.injEq] at hv
        have e : nbr i (i, j) = some j := by simp [nbr]
        rw [e, k3 i (g[i] ++ [j]) (by rw [List.getElem?_set_ne hij.symm, List.getElem?_set_self hgi]), hv]
        simp
      · by_cases hvj : j = v
        · subst hvj
          rw [List.getElem?_eq_getElem hgj] at hv
          simp only [Option.some.injEq] at hv
          have e : nbr j (i, j) = some i := by simp [nbr, hij]
          rw [e, k3 j (g[j] ++ [i]) (by rw [List.getElem?_set_self (by simpa using hgj)]), hv]
          simp
        · have e : nbr v (i, j) = none := by simp [nbr, hvi, hvj]
          rw [e, k3 v nb (by rw [List.getElem?_set_ne hvj, List.getElem?_set_ne hvi]; exact hv)]

theorem mem_pairs {n : Nat} {q : Nat × Nat} : q ∈ pairs n ↔ q.1 < q.2 ∧ q.2 < n := by
  simp only [pairs, List.mem_flatMap, List.mem_range, List.mem_map, List.mem_range'_1]
  constructor
  · rintro ⟨i, hi, j, hj, rfl⟩
    simp only
    omega
  · rintro ⟨h1, h2⟩
    exact ⟨q.1, by omega, q.2, by omega, rfl⟩

/-- the order of the pairs -/
def lexLt (q r : Nat × Nat) : Prop := q.1 < r.1 ∨ (q.1 = r.1 ∧ q.2 < r.2)

theorem pairs_sorted (n : Nat) : (pairs n).Pairwise lexLt := by
  unfold pairs
  rw [List.pairwise_flatMap]
  refine ⟨fun i _ => ?_, ?_⟩
  · rw [List.pairwise_map]
    exact (List.pairwise_lt_range' (s := i + 1) (n := n - (i + 1)) 1).imp (fun {a b} h => Or.inr ⟨rfl, h⟩)
  · refine List.pairwise_lt_range.imp (fun {i k} h => ?_)
    simp only [List.mem_map]
    rintro x ⟨j, _, rfl⟩ y ⟨l, _, rfl⟩
    exact Or.inl h

theorem nbr_sorted {l : List (Nat × Nat)} (hl : l.Pairwise lexLt) (hlt : ∀ q ∈ l, q.1 < q.2) (v : Nat) : (l.filterMap (nbr v)).Pairwise (· < ·) := by
  rw [List.pairwise_filterMap]
  refine (List.Pairwise.and_mem.mp hl).imp (fun {q r} h => ?_)
  obtain ⟨h1, h2, h3⟩ := h
  intro b hb c hc
  have hq := hlt q h1
  have hr := hlt r h2
  unfold nbr at hb hc
  unfold lexLt at h3
  split at hb
  · simp only [Option.some.injEq] at hb
    split at hc
    · simp only [Option.some.injEq] at hc; omega
    · split at hc
      · simp only [Option.some.injEq] at hc; omega
      · simp at hc
  · split at hb
    · simp only [Option.some.injEq] at hb
      split at hc
      · simp only [Option.some.injEq] at hc; omega
      · split at hc
        · simp only [Option.some.injEq] at hc; omega
        · simp at hc
    · simp at hb

/-- the compatibility graph is well-formed and connects additive patterns -/
theorem graph_spec {patterns : List (List Nat)} {add : List Nat → List Nat → Option Bool} {ok : Nat → Nat → Bool} (hadd : ∀ (i j : Nat) P Q, patterns[i]? = some P → patterns[j]? = some Q → add P Q = some (ok i j))
    (hsymm : ∀ i j, ok i j = ok j i) : ∃ g, graphLoop add patterns (pairs patterns.length) (List.replicate patterns.length []) = some g ∧ g.length = patterns.length ∧ GraphOK g ∧
      ∀ i j, Adj g i j ↔ i < patterns.length ∧ j < patterns.length ∧ i ≠ j ∧ ok i j = true := by
  obtain ⟨g, h1, h2, h3⟩ := graphLoop_spec hadd (pairs patterns.length) (List.replicate patterns.length []) (by simp) (fun q hq => mem_pairs.mp hq)
  have hget : ∀ v, v < patterns.length → g[v]? = some (((pairs patterns.length).filter (fun q => ok q.1 q.2)).filterMap (nbr v)) := by
    intro v hv
    have := h3 v [] (by simp [List.getElem?_replicate, hv])
    simpa using this
  have hadj : ∀ i j, Adj g i j ↔ i < patterns.length ∧ j < patterns.length ∧ i ≠ j ∧ ok i j = true := by
    intro i j
    constructor
    · rintro ⟨nb, a1, a2⟩
      have hi : i < patterns.length := by rw [← h2]; exact (List.getElem?_eq_some_iff.mp a1).1
      rw [hget i hi] at a1
      simp only [Option.some.injEq] at a1
      rw [← a1, List.mem_filterMap] at a2
      obtain ⟨q, hq, hn⟩ := a2
      rw [List.mem_filter, mem_pairs] at hq
      obtain ⟨⟨b1, b2⟩, b3⟩ := hq
      unfold nbr at hn
      split at hn
      · rename_i e
        simp only [Option.some.injEq] at hn
        subst e hn
        exact ⟨hi, b2, by omega, b3⟩
      · split at hn
        · rename_i e
          simp only [Option.some.injEq] at hn
          subst e hn
          exact ⟨hi, by omega, by omega, by rw [hsymm]; exact b3⟩
        · simp at hn
    · rintro ⟨a1, a2, a3, a4⟩
      refine ⟨_, hget i a1, ?_⟩
      rw [List.mem_filterMap]
      by_cases hij : i < j
      · exact ⟨(i, j), List.mem_filter.mpr ⟨mem_pairs.mpr ⟨hij, a2⟩, a4⟩, by simp [nbr]⟩
      · exact ⟨(j, i), List.mem_filter.mpr ⟨mem_pairs.mpr ⟨by simp only; omega, a1⟩, by rw [hsymm]; exact a4⟩, by simp [nbr, Ne.symm a3]⟩
  refine ⟨g, h1, h2, ⟨?_, ?_, ?_⟩, hadj⟩
  · intro u nb hu
    have hi : u < patterns.length := by rw [← h2]; exact (List.getElem?_eq_some_iff.mp hu).1
    rw [hget u hi] at hu
    simp only [Option.some.injEq] at hu
    rw [← hu]
    exact nbr_sorted ((pairs_sorted _).filter _) (fun q hq => (mem_pairs.mp (List.mem_of_mem_filter hq)).1) u
  · intro u hu
    exact ((hadj u u).mp hu).2.2.1 rfl
  · intro u v hu
    obtain ⟨a1, a2, a3, a4⟩ := (hadj u v).mp hu
    exact (hadj v u).mpr ⟨a2, a1, Ne.symm a3, by rw [hsymm]; exact a4⟩

open Classical in
/-- the cliques are exactly the maximal additive subsets: every clique is an additive subset, and every additive subset is part of a clique -/
theorem patternCliques_spec {t : Task} (hwf : t.WF) {patterns : List (List Nat)} (hP : ∀ P ∈ patterns, ∀ v ∈ P, v < t.vars.length) :
    ∃ cliques, patternCliques t patterns = some cliques ∧ (∀ c ∈ cliques, t.AdditiveSubset patterns c) ∧ ∀ A, t.AdditiveSubset patterns A → ∃ c ∈ cliques, ∀ i ∈ A, i ∈ c := by
  obtain ⟨m, h1, h2⟩ := additiveVars_spec hwf
  let ok : Nat → Nat → Bool := fun i j => decide (∀ P Q, patterns[i]? = some P → patterns[j]? = some Q → t.AdditivePatterns P Q)
  have hadd : ∀ (i j : Nat) P Q, patterns[i]? = some P → patterns[j]? = some Q → patternsAdditive t.vars.length m P Q = some (ok i j) := by
    intro i j P Q hi hj
    obtain ⟨b, k1, k2⟩ := patternsAdditive_spec h2 (hP P (List.mem_of_getElem? hi)) (hP Q (List.mem_of_getElem? hj))
    rw [k1]
    congr 1
    rw [Bool.eq_iff_iff, k2]
    simp only [ok, decide_eq_true_eq, hi, hj, Option.some.injEq, forall_eq', forall_apply_eq_imp_iff]
  have hsymm : ∀ i j, ok i j = ok j i := by
    intro i j
    rw [Bool.eq_iff_iff]
    simp only [ok, decide_eq_true_eq]
    exact ⟨fun h P Q a b => AdditivePatterns_symm (h Q P b a), fun h P Q a b => AdditivePatterns_symm (h Q P b a)⟩
  obtain ⟨g, k1, k2, k3, k4⟩ := graph_spec hadd hsymm
  obtain ⟨out, o1, o2, o3, _⟩ := C12_max_cliques g k3
  rw [k2] at o1
  have hclique : ∀ c ∈ out, t.AdditiveSubset patterns c := by
    intro c hc
    obtain ⟨a1, a2, a3, _⟩ := o2 c hc
    refine ⟨a1, fun i hi => by rw [← k2]; exact a2 i hi, fun i hi j hj hij P Q hPi hQj => ?_⟩
    have := ((k4 i j).mp (a3 i j hi hj hij)).2.2.2
    simp only [ok, decide_eq_true_eq] at this
    exact this P Q hPi hQj
  refine ⟨out, by simp only [patternCliques, h1, k1, o1], hclique, ?_⟩
  have hext : ∀ (d : Nat) (A : List Nat), patterns.length - A.length = d → t.AdditiveSubset patterns A → ∃ c ∈ out, ∀ i ∈ A, i ∈ c := by
    intro d
    induction d using Nat.strongRecOn with
    | _ d ih =>
      intro A hd hA
      by_cases hmax : ∃ w, w < patterns.length ∧ w ∉ A ∧ ∀ v ∈ A, Adj g w v
      · obtain ⟨w, w1, w2, w3⟩ := hmax
        have hA' : t.AdditiveSubset patterns (w :: A) := by
          refine ⟨List.nodup_cons.mpr ⟨w2, hA.nodup⟩, ?_, ?_⟩
          · intro i hi
            rcases List.mem_cons.mp hi with rfl | hi
            · exact w1
            · exact hA.range i hi
          · intro i hi j hj hij P Q hPi hQj
            rcases List.mem_cons.mp hi with rfl | hi'
            · rcases List.mem_cons.mp hj with rfl | hj
              · exact absurd rfl hij
              · have := ((k4 _ _).mp (w3 j hj)).2.2.2
                simp only [ok, decide_eq_true_eq] at this
                exact this P Q hPi hQj
            · rcases List.mem_cons.mp hj with rfl | hj
              · have := ((k4 _ _).mp (w3 i hi')).2.2.2
                simp only [ok, decide_eq_true_eq] at this
                exact AdditivePatterns_symm (this Q P hQj hPi)
              · exact hA.additive i hi' j hj hij P Q hPi hQj
        have hle : (w :: A).length ≤ patterns.length := by
          have := (hA'.nodup.subperm (l₂ := List.range patterns.length) (fun i hi => List.mem_range.mpr (hA'.range i hi))).length_le
          simpa using this
        simp only [List.length_cons] at hle
        obtain ⟨c, c1, c2⟩ := ih (patterns.length - (w :: A).length) (by simp only [List.length_cons]; omega) (w :: A) rfl hA'
        exact ⟨c, c1, fun i hi => c2 i (List.mem_cons_of_mem _ hi)⟩
      · push Not at hmax
        obtain ⟨c, c1, c2⟩ := o3 (· ∈ A) ⟨fun v hv => by rw [k2]; exact hA.range v hv, fun u v hu hv huv => by
          rw [k4]
          refine ⟨hA.range u hu, hA.range v hv, huv, ?_⟩
          simp only [ok, decide_eq_true_eq]
          exact fun P Q a b => hA.additive u hu v hv huv P Q a b, fun w hw hwA => by
            obtain ⟨v, v1, v2⟩ := hmax w (by rw [← k2]; exact hw) hwA
            exact ⟨v, v1, v2⟩⟩
        exact ⟨c, c1, fun i hi => (c2 i).mpr hi⟩
  exact fun A hA => hext _ A rfl hA

end Verif.Pdb
