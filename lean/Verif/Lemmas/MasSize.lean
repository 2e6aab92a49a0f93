import Verif.Lemmas.MasAlgorithm

/- Sizes of factors: label reduction, shrinking and pruning do not increase them. -/
namespace Verif.Mas
open Verif.AdaptiveQueue

theorem shrinkSizes_spec {s1 s2 b a : Nat} {n : Nat × Nat} (h : shrinkSizes s1 s2 b a = some n) (hb : 1 ≤ b) (ha : 1 ≤ a) :
    n.1 ≤ min s1 b ∧ n.2 ≤ min s2 b ∧ n.1 * n.2 ≤ a ∧ (1 ≤ s1 → 1 ≤ n.1) ∧ (1 ≤ s2 → 1 ≤ n.2) := by
  have hsq : a.sqrt * a.sqrt ≤ a := Nat.sqrt_le a
  have hsq1 : 1 ≤ a.sqrt := by
    have := Nat.sqrt_le_sqrt ha
    simpa using this
  unfold shrinkSizes at h
  split at h
  · rename_i hp
    simp only [Option.some.injEq] at h
    subst h
    exact ⟨Nat.le_refl _, Nat.le_refl _, hp, fun h => by simp only; omega, fun h => by simp only; omega⟩
  · rename_i hp
    split at h
    · rename_i h1
      split at h
      · simp at h
      · rename_i h0
        simp only [Option.some.injEq] at h
        subst h
        have hle : a / min s1 b < min s2 b := Nat.div_lt_of_lt_mul (by omega)
        refine ⟨Nat.le_refl _, Nat.le_of_lt hle, Nat.mul_div_le _ _, fun h => by simp only; omega, fun h => ?_⟩
        refine (Nat.one_le_div_iff (by omega)).mpr ?_
        have : a.sqrt ≤ a := Nat.sqrt_le_self a
        omega
    · split at h
      · rename_i h1 h2
        split at h
        · simp at h
        · rename_i h0
          simp only [Option.some.injEq] at h
          subst h
          have hle : a / min s2 b < min s1 b := Nat.div_lt_of_lt_mul (by rw [Nat.mul_comm]; omega)
          refine ⟨Nat.le_of_lt hle, Nat.le_refl _, by simp only; rw [Nat.mul_comm]; exact Nat.mul_div_le _ _, fun h => ?_, fun h => by simp only; omega⟩
          refine (Nat.one_le_div_iff (by omega)).mpr ?_
          have : a.sqrt ≤ a := Nat.sqrt_le_self a
          omega
      · simp only [Option.some.injEq] at h
        subst h
        exact ⟨by simp only; omega, by simp only; omega, hsq, fun _ => hsq1, fun _ => hsq1⟩

/-- the same factors exist, and none is larger -/
def Shrunk (F F' : FTS) : Prop :=
  F'.factors.length = F.factors.length ∧ ∀ (i : Nat) (f' : Factor), F'.factor i = some f' → ∃ f, F.factor i = some f ∧ f'.ts.size ≤ f.ts.size

theorem Shrunk.refl (F : FTS) : Shrunk F F := ⟨rfl, fun _ f h => ⟨f, h, Nat.le_refl _⟩⟩

theorem Shrunk.trans {F G K : FTS} (h : Shrunk F G) (h' : Shrunk G K) : Shrunk F K := by
  refine ⟨h'.1.trans h.1, fun i f hf => ?_⟩
  obtain ⟨g, h1, h2⟩ := h'.2 i f hf
  obtain ⟨e, h3, h4⟩ := h.2 i g h1
  exact ⟨e, h3, by omega⟩

theorem applyAbstraction_size {T T' : TS} {rel : List (List Nat)} {m : List (Option Nat)} (h : T.applyAbstraction rel m = some T') : T'.size = rel.length ∧ rel.length < T.size := by
  unfold TS.applyAbstraction at h
  split at h
  · rename_i hlt
    split at h
    · rename_i goals infos init hg hi hm
      split at h
      · simp at h
      · simp only [Option.some.injEq] at h
        subst h
        exact ⟨mapAll_length hg, hlt⟩
    · simp at h
  · simp at h

theorem factor_size {H : StdHeap Nat} {f f' : Factor} {rel : List (List Nat)} {ci cg : Bool} (h : f.applyAbstraction H rel ci cg = some f') : f'.ts.size = rel.length ∧ f'.ts.size ≤ f.ts.size := by
  unfold Factor.applyAbstraction at h
  split at h
  · rename_i he
    simp only [Option.some.injEq] at h
    subst h
    exact ⟨he.symm, Nat.le_refl _⟩
  · split at h
    · simp at h
    · split at h
      · simp at h
      · rename_i T hT
        split at h
        · simp only [Option.some.injEq] at h
          subst h
          obtain ⟨h1, h2⟩ := applyAbstraction_size hT
          exact ⟨h1, by show T.size ≤ _; omega⟩
        · simp at h

theorem factor_set_if {F : FTS} {i : Nat} {f' : Factor} {j : Nat} (hi : i < F.factors.length) : ({ F with factors := F.factors.set i (some f') } : FTS).factor j = if i = j then some f' else F.factor j := by
  unfold FTS.factor
  simp only [List.getElem?_set]
  split
  · rename_i h; subst h; simp [hi]
  · rfl

theorem factor_lt {F : FTS} {i : Nat} {f : Factor} (h : F.factor i = some f) : i < F.factors.length := by
  unfold FTS.factor at h
  by_contra hc
  rw [List.getElem?_eq_none (by omega)] at h
  simp at h

theorem abstraction_shrunk {H : StdHeap Nat} {F F' : FTS} {i : Nat} {rel : List (List Nat)} (h : F.applyAbstraction H i rel = some F') : Shrunk F F' ∧ ∀ f, F'.factor i = some f → f.ts.size = rel.length := by
  unfold FTS.applyAbstraction at h
  cases hf : F.factor i with
  | none => rw [hf] at h; simp at h
  | some f =>
    rw [hf] at h
    simp only at h
    cases hf' : f.applyAbstraction H rel F.ci F.cg with
    | none => rw [hf'] at h; simp at h
    | some f' =>
      rw [hf'] at h
      simp only [Option.some.injEq] at h
      subst h
      obtain ⟨h1, h2⟩ := factor_size hf'
      refine ⟨⟨by simp, fun j g hg => ?_⟩, fun g hg => ?_⟩
      · rw [factor_set_if (factor_lt hf)] at hg
        split at hg
        · rename_i e
          simp only [Option.some.injEq] at hg
          subst hg e
          exact ⟨f, hf, h2⟩
        · exact ⟨g, hg, Nat.le_refl _⟩
      · rw [factor_set_if (factor_lt hf), if_pos rfl] at hg
        simp only [Option.some.injEq] at hg
        subst hg
        exact h1

theorem labelReduction_size {L : Labels} {T T' : TS} {es : List (Nat × List Nat)} {b : Bool} (h : T.applyLabelReduction L es b = some T') : T'.size = T.size := by
  unfold TS.applyLabelReduction at h
  split at h
  · split at h
    · simp at h
    · simp only [Option.some.injEq] at h
      subst h
      rfl
  · simp at h

theorem mapping_shrunk {F F' : FTS} {es : List (Nat × List Nat)} {i : Nat} (h : F.applyLabelMapping es i = some F') : Shrunk F F' := by
  unfold FTS.applyLabelMapping at h
  split at h
  · simp at h
  · rename_i L hL
    split at h
    · simp at h
    · rename_i fs hfs
      simp only [Option.some.injEq] at h
      subst h
      refine ⟨by simpa using mapAll_length hfs, fun j f' hf' => ?_⟩
      unfold FTS.factor at hf' ⊢
      simp only at hf'
      cases hj : fs[j]? with
      | none => rw [hj] at hf'; simp at hf'
      | some o =>
        rw [hj] at hf'
        simp only [Option.join_some] at hf'
        subst hf'
        have hlt : j < F.factors.zipIdx.length := by
          rw [← mapAll_length hfs]
          exact (List.getElem?_eq_some_iff.mp hj).1
        have e : F.factors.zipIdx[j]? = some F.factors.zipIdx[j] := List.getElem?_eq_getElem hlt
        obtain ⟨o', h1, h2⟩ := mapAll_getElem? hfs e
        rw [hj] at h1
        simp only [Option.some.injEq] at h1
        subst h1
        have hlt' : j < F.factors.length := by simpa using hlt
        simp only [List.getElem_zipIdx, reduceFactor] at h2
        rw [List.getElem?_eq_getElem hlt']
        cases hF : F.factors[j] with
        | none => rw [hF] at h2; simp at h2
        | some f =>
          rw [hF] at h2
          simp only at h2
          split at h2
          · simp at h2
          · rename_i T hT
            simp only [Option.some.injEq] at h2
            subst h2
            exact ⟨f, rfl, Nat.le_of_eq (labelReduction_size hT)⟩

section
variable {O : HashOrder} {H : StdHeap Nat} {c : Config}

theorem reduceAt_shrunk {F F' : FTS} {i : Nat} {b : Bool} (h : F.reduceAt O i = some (F', b)) : Shrunk F F' := by
  unfold FTS.reduceAt at h
  split at h
  · simp at h
  · split at h
    · simp at h
    · simp only [Option.some.injEq, Prod.mk.injEq] at h
      exact h.1 ▸ Shrunk.refl _
    · obtain ⟨G, h1, h2⟩ := Option.map_eq_some_iff.mp h
      simp only [Prod.mk.injEq] at h2
      exact h2.1 ▸ mapping_shrunk h1

theorem reduceIter_shrunk {order : List Nat} {p fails n : Nat} {F F' : FTS} (h : reduceIter O order p fails F = some (F', n)) : Shrunk F F' := by
  unfold reduceIter at h
  split at h
  · simp at h
  · split at h
    · simp at h
    · simp only [Option.some.injEq, Prod.mk.injEq] at h
      exact h.1 ▸ Shrunk.refl _
    · split at h
      · simp at h
      · rename_i hr
        simp only [Option.some.injEq, Prod.mk.injEq] at h
        exact h.1 ▸ reduceAt_shrunk hr
      · rename_i hr
        simp only [Option.some.injEq, Prod.mk.injEq] at h
        exact h.1 ▸ reduceAt_shrunk hr

theorem reduceAll_shrunk {order : List Nat} : ∀ {k p fails : Nat} {F F' : FTS}, reduceAllLoop O order k p fails F = some F' → Shrunk F F'
  | 0, p, fails, F, F', h => by
    simp only [reduceAllLoop, Option.some.injEq] at h
    exact h ▸ Shrunk.refl _
  | k + 1, p, fails, F, F', h => by
    unfold reduceAllLoop at h
    split at h
    · simp at h
    · rename_i G n hi
      have h1 := reduceIter_shrunk hi
      split at h
      · simp only [Option.some.injEq] at h
        exact h ▸ h1
      · split at h
        · simp at h
        · exact h1.trans (reduceAll_shrunk h)

theorem reduce_shrunk {r : Reduction} {n : Nat} {pair : Nat × Nat} {F F' : FTS} (h : F.reduce O r n pair = some F') : Shrunk F F' := by
  unfold FTS.reduce at h
  split at h
  · split at h
    · rename_i h1 h2 h3
      obtain ⟨⟨G, b⟩, h4, h5⟩ := Option.map_eq_some_iff.mp h
      simp only at h5
      exact h5 ▸ (reduceAt_shrunk h3).trans (reduceAt_shrunk h4)
    · simp at h
  · split at h
    · simp at h
    · split at h
      · simp at h
      · exact reduceAll_shrunk h
  · split at h
    · simp at h
    · split at h
      · simp at h
      · exact reduceAll_shrunk h

theorem reduceIf_shrunk {b : Reduction → Bool} {n : Nat} {pair : Nat × Nat} {F F' : FTS} (h : reduceIf O c b n pair F = some F') : Shrunk F F' := by
  unfold reduceIf at h
  split at h
  · simp only [Option.some.injEq] at h
    exact h ▸ Shrunk.refl _
  · split at h
    · exact reduce_shrunk h
    · simp only [Option.some.injEq] at h
      exact h ▸ Shrunk.refl _

theorem pruneIf_shrunk {F F' : FTS} {i : Nat} (h : pruneIf H c F i = some F') : Shrunk F F' := by
  unfold pruneIf at h
  split at h
  · unfold FTS.pruneStep at h
    split at h
    · simp at h
    · split at h
      · simp at h
      · exact (abstraction_shrunk h).1
  · simp only [Option.some.injEq] at h
    exact h ▸ Shrunk.refl _

theorem shrinkFactor_shrunk {S : TS → Distances → Nat → Option (List (List Nat))} {F F' : FTS} {i n thr : Nat} (h : F.shrinkFactor H S i n thr = some F') :
    Shrunk F F' ∧ ((∀ T d rel, S T d n = some rel → rel.length ≤ n) → ∀ f, F'.factor i = some f → f.ts.size ≤ n) := by
  unfold FTS.shrinkFactor at h
  split at h
  · simp at h
  · rename_i f hf
    split at h
    · split at h
      · simp at h
      · rename_i rel hrel
        obtain ⟨h1, h2⟩ := abstraction_shrunk h
        exact ⟨h1, fun hS f' hf' => by rw [h2 f' hf']; exact hS _ _ _ hrel⟩
    · rename_i hs
      simp only [Option.some.injEq] at h
      subst h
      refine ⟨Shrunk.refl _, fun _ f' hf' => ?_⟩
      rw [hf] at hf'
      simp only [Option.some.injEq] at hf'
      subst hf'
      omega

/-- both factors are small enough after shrinking -/
theorem shrinkStep_shrunk {S1 S2 : TS → Distances → Nat → Option (List (List Nat))} {F F' : FTS} {M B thr i j : Nat} (h : F.shrinkStep H S1 S2 M B thr i j = some F') :
    Shrunk F F' ∧ (1 ≤ B → 1 ≤ M → (∀ T d n rel, 1 ≤ n → S1 T d n = some rel → rel.length ≤ n) → (∀ T d n rel, 1 ≤ n → S2 T d n = some rel → rel.length ≤ n) →
      ∀ f g, F'.factor i = some f → F'.factor j = some g → f.ts.size * g.ts.size ≤ M) := by
  unfold FTS.shrinkStep at h
  split at h
  · rename_i f0 g0 hf0 hg0
    split at h
    · simp at h
    · rename_i n1 n2 hn
      split at h
      · simp at h
      · rename_i F1 h1
        obtain ⟨k1, k2⟩ := shrinkFactor_shrunk h1
        obtain ⟨k3, k4⟩ := shrinkFactor_shrunk h
        refine ⟨k1.trans k3, fun hB hM hS1 hS2 f g hf hg => ?_⟩
        obtain ⟨a1, a2, a3, a4, a5⟩ := shrinkSizes_spec hn hB hM
        simp only at a1 a2 a3 a4 a5
        obtain ⟨f1, hf1, l1⟩ := k3.2 i f hf
        obtain ⟨f2, hf2, l2⟩ := k1.2 i f1 hf1
        obtain ⟨g1, hg1, l3⟩ := k3.2 j g hg
        obtain ⟨g2, hg2, l4⟩ := k1.2 j g1 hg1
        rw [hf0] at hf2
        rw [hg0] at hg2
        simp only [Option.some.injEq] at hf2 hg2
        subst hf2 hg2
        have b1 : f.ts.size ≤ n1 := by
          by_cases h0 : 1 ≤ f0.ts.size
          · have := k2 (fun T d rel => hS1 T d n1 rel (a4 h0)) f1 hf1
            omega
          · omega
        have b2 : g.ts.size ≤ n2 := by
          by_cases h0 : 1 ≤ g0.ts.size
          · exact k4 (fun T d rel => hS2 T d n2 rel (a5 h0)) g hg
          · omega
        exact Nat.le_trans (Nat.mul_le_mul b1 b2) a3
  · simp at h

theorem merge_size {L : Labels} {T1 T2 T : TS} (h : T1.merge O L T2 = some T) : T.size = T1.size * T2.size := by
  unfold TS.merge at h
  split at h
  · simp at h
  · split at h
    · split at h
      · simp at h
      · split at h
        · simp at h
        · split at h
          · simp at h
          · simp only [Option.some.injEq] at h
            subst h
            simp only [TS.size, List.length_flatMap, List.length_map]
            simp
    · simp at h

theorem merge_sizes {F F' : FTS} {i j : Nat} (h : F.merge O H i j = some F') : F'.factors.length = F.factors.length + 1 ∧
    ∃ f g f', F.factor i = some f ∧ F.factor j = some g ∧ F'.factor F.factors.length = some f' ∧ f'.ts.size = f.ts.size * g.ts.size ∧
    ∀ k e, k < F.factors.length → F'.factor k = some e → F.factor k = some e := by
  unfold FTS.merge at h
  split at h
  · simp at h
  · split at h
    · rename_i f g hf hg
      split at h
      · simp at h
      · rename_i f' hm
        simp only [Option.some.injEq] at h
        subst h
        refine ⟨by simp, f, g, f', hf, hg, ?_, ?_, fun k e hk he => ?_⟩
        · unfold FTS.factor
          rw [List.getElem?_append_right (by simp)]
          simp
        · unfold mergeFactors at hm
          split at hm
          · simp at hm
          · rename_i T hT
            split at hm
            · simp at hm
            · simp only [Option.some.injEq] at hm
              subst hm
              exact merge_size hT
        · unfold FTS.factor at he ⊢
          simp only at he
          rw [List.getElem?_append_left (by simpa using hk), List.getElem?_set] at he
          split at he
          · split at he <;> simp at he
          · rw [List.getElem?_set] at he
            split at he
            · split at he <;> simp at he
            · exact he
    · simp at h

end
end Verif.Mas
