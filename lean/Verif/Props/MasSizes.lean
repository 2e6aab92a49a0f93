import Verif.Lemmas.MasSize
import Verif.Props.MasExamples

/-
C57: size limits of merge-and-shrink.
-/
namespace Verif.Mas
open Verif.AdaptiveQueue

/-- C57: for factors that are not empty and limits of at least 1, target sizes are computed; they are at least 1, at most the sizes of the factors and the limit before merging,
their product does not exceed the limit after merging, and if the sizes satisfy the limits they are the targets. -/
theorem C57_targets {size1 size2 before after : Nat} (h1 : 1 ≤ size1) (h2 : 1 ≤ size2) (hb : 1 ≤ before) (ha : 1 ≤ after) :
    ∃ n1 n2, shrinkSizes size1 size2 before after = some (n1, n2) ∧ (1 ≤ n1 ∧ n1 ≤ size1 ∧ n1 ≤ before) ∧ (1 ≤ n2 ∧ n2 ≤ size2 ∧ n2 ≤ before) ∧ n1 * n2 ≤ after ∧
      (size1 ≤ before → size2 ≤ before → size1 * size2 ≤ after → n1 = size1 ∧ n2 = size2) := by
  have hd : ∃ n, shrinkSizes size1 size2 before after = some n := by
    unfold shrinkSizes
    split
    · exact ⟨_, rfl⟩
    · split
      · rw [if_neg (by omega)]; exact ⟨_, rfl⟩
      · split
        · rw [if_neg (by omega)]; exact ⟨_, rfl⟩
        · exact ⟨_, rfl⟩
  obtain ⟨⟨n1, n2⟩, hn⟩ := hd
  obtain ⟨a1, a2, a3, a4, a5⟩ := shrinkSizes_spec hn hb ha
  simp only at a1 a2 a3 a4 a5
  refine ⟨n1, n2, hn, ⟨a4 h1, by omega, by omega⟩, ⟨a5 h2, by omega, by omega⟩, a3, fun b1 b2 b3 => ?_⟩
  unfold shrinkSizes at hn
  rw [Nat.min_eq_left b1, Nat.min_eq_left b2, if_pos b3] at hn
  simp only [Option.some.injEq, Prod.mk.injEq] at hn
  exact ⟨hn.1.symm, hn.2.symm⟩

example : shrinkSizes 1000 7 100 500 = some (71, 7) ∧ shrinkSizes 1000 700 100 500 = some (22, 22) := by decide +kernel

/-- the end of the computation of the limits -/
def limitsEnd (m b threshold : Int) : Option (Int × Int × Int) :=
  if m ≥ 1 ∧ b ≥ 1 then
    if (if threshold = -1 then m else threshold) ≥ 1 then some (m, b, if (if threshold = -1 then m else threshold) > m then m else (if threshold = -1 then m else threshold)) else none
  else none

theorem limitsEnd_spec (m b threshold : Int) : ((limitsEnd m b threshold).isSome ↔ 1 ≤ m ∧ 1 ≤ b ∧ (threshold = -1 ∨ 1 ≤ threshold)) ∧
    ∀ m' b' t', limitsEnd m b threshold = some (m', b', t') → m = m' ∧ b = b' ∧ 1 ≤ m ∧ 1 ≤ b ∧ (1 ≤ t' ∧ t' ≤ m) ∧ (threshold ≠ -1 → t' = min threshold m) ∧ (threshold = -1 → t' = m) := by
  unfold limitsEnd
  by_cases h : m ≥ 1 ∧ b ≥ 1
  · rw [if_pos h]
    by_cases ht : threshold = -1
    · simp only [ht, if_true, if_pos h.1]
      refine ⟨by simp; omega, fun m' b' t' h' => ?_⟩
      simp only [Option.some.injEq, Prod.mk.injEq] at h'
      obtain ⟨rfl, rfl, rfl⟩ := h'
      simp; omega
    · simp only [ht, if_false]
      split
      · refine ⟨by simp; omega, fun m' b' t' h' => ?_⟩
        simp only [Option.some.injEq, Prod.mk.injEq] at h'
        obtain ⟨rfl, rfl, rfl⟩ := h'
        split <;> simp <;> omega
      · refine ⟨by simp; omega, by simp⟩
  · rw [if_neg h]
    exact ⟨by simp; omega, by simp⟩

/-- C57: options are accepted if each limit is -1 or at least 1; the limits used are then at least 1, neither the limit before merging nor the threshold exceeds the limit after merging, given values which satisfy this are used, and
a limit on the size before merging alone does not limit the product as long as this is an int. -/
theorem C57_limits (maxStates before threshold : Int) :
    ((shrinkLimits maxStates before threshold).isSome ↔ (maxStates = -1 ∨ 1 ≤ maxStates) ∧ (before = -1 ∨ 1 ≤ before) ∧ (threshold = -1 ∨ 1 ≤ threshold)) ∧
    ∀ m b t, shrinkLimits maxStates before threshold = some (m, b, t) → (1 ≤ b ∧ b ≤ m) ∧ (1 ≤ t ∧ t ≤ m) ∧
      (maxStates ≠ -1 → m = maxStates) ∧ (before ≠ -1 → b = min before m) ∧ (before = -1 → b = m) ∧ (threshold ≠ -1 → t = min threshold m) ∧ (threshold = -1 → t = m) ∧
      (maxStates = -1 → before = -1 → m = 50000) ∧ (maxStates = -1 → before ≠ -1 → m = min (before * before) 2147483647 ∧ (before ≤ 2147483647 → b = before)) := by
  have hinf : (inf : Int) = 2147483647 := by decide
  have hsq : 1 ≤ before → before ≤ before * before := fun h => by
    have := Int.mul_le_mul_of_nonneg_left h (by omega : (0 : Int) ≤ before)
    omega
  have hsum : ∃ m b, shrinkLimits maxStates before threshold = limitsEnd m b threshold ∧ (1 ≤ m ∧ 1 ≤ b ↔ (maxStates = -1 ∨ 1 ≤ maxStates) ∧ (before = -1 ∨ 1 ≤ before)) ∧
      (1 ≤ m → 1 ≤ b → b ≤ m ∧ (maxStates ≠ -1 → m = maxStates) ∧ (before ≠ -1 → b = min before m) ∧ (before = -1 → b = m) ∧
      (maxStates = -1 → before = -1 → m = 50000) ∧ (maxStates = -1 → before ≠ -1 → m = min (before * before) 2147483647 ∧ (before ≤ 2147483647 → b = before))) := by
    refine ⟨_, _, rfl, ?_, ?_⟩
    · rw [hinf]
      constructor
      · rintro ⟨h1, h2⟩
        split_ifs at h1 h2 <;> omega
      · rintro ⟨h1, h2⟩
        split_ifs <;> omega
    · rw [hinf]
      intro h1 h2
      split_ifs at h1 h2 ⊢ <;> refine ⟨?_, ?_, ?_, ?_, ?_, ?_⟩ <;> omega
  obtain ⟨m, b, e, h1, h2⟩ := hsum
  rw [e]
  obtain ⟨k1, k2⟩ := limitsEnd_spec m b threshold
  refine ⟨by rw [k1, ← and_assoc, h1, and_assoc], fun m' b' t' h => ?_⟩
  obtain ⟨rfl, rfl, a1, a2, a3, a4, a5⟩ := k2 m' b' t' h
  obtain ⟨b1, b2, b3, b4, b5, b6⟩ := h2 a1 a2
  exact ⟨⟨a2, b1⟩, a3, b2, b3, b4, a4, a5, b5, b6⟩

/-- the shrink strategies return at most as many classes as they are told to -/
def Config.MeetsTargets (c : Config) : Prop :=
  ∀ k T d n rel, 1 ≤ n → (c.shrink1 k T d n = some rel → rel.length ≤ n) ∧ (c.shrink2 k T d n = some rel → rel.length ≤ n)

/-- C57: if the shrink strategies meet their targets, every factor built by an iteration of the main loop (which has a new index) has at most `max_states` states, and the other
factors do not grow. -/
theorem C57_iteration {O : HashOrder} {H : StdHeap Nat} {c : Config} (hc : c.MeetsTargets) (hb : 1 ≤ c.before) (hm : 1 ≤ c.maxStates) {n k : Nat} {F F' : FTS} {b : Bool} (h : iteration O H c n k F = some (F', b)) :
    F.factors.length ≤ F'.factors.length ∧ ∀ (i : Nat) (f' : Factor), F'.factor i = some f' →
      (F.factors.length ≤ i → f'.ts.size ≤ c.maxStates) ∧ (i < F.factors.length → ∃ f, F.factor i = some f ∧ f'.ts.size ≤ f.ts.size) := by
  have fin : ∀ G, Shrunk F G → F.factors.length ≤ G.factors.length ∧ ∀ (i : Nat) (f' : Factor), G.factor i = some f' →
      (F.factors.length ≤ i → f'.ts.size ≤ c.maxStates) ∧ (i < F.factors.length → ∃ f, F.factor i = some f ∧ f'.ts.size ≤ f.ts.size) := by
    intro G hG
    refine ⟨Nat.le_of_eq hG.1.symm, fun i f' hf' => ⟨fun hi => ?_, fun _ => hG.2 i f' hf'⟩⟩
    have := factor_lt hf'
    rw [hG.1] at this
    omega
  unfold iteration at h
  split at h
  · simp only [Option.some.injEq, Prod.mk.injEq] at h
    exact h.1 ▸ fin F (Shrunk.refl F)
  · split at h
    · simp at h
    · rename_i F1 h1
      have i1 := reduceIf_shrunk h1
      unfold shrinkMerge at h
      split at h
      · simp only [Option.some.injEq, Prod.mk.injEq] at h
        exact h.1 ▸ fin F1 i1
      · split at h
        · simp at h
        · rename_i F2 h2
          obtain ⟨i2, hsize⟩ := shrinkStep_shrunk h2
          have hsize := hsize hb hm (fun T d n rel hn => (hc k T d n rel hn).1) (fun T d n rel hn => (hc k T d n rel hn).2)
          unfold reduceMerge at h
          split at h
          · simp only [Option.some.injEq, Prod.mk.injEq] at h
            exact h.1 ▸ fin F2 (i1.trans i2)
          · split at h
            · simp at h
            · rename_i F3 h3
              have i3 := reduceIf_shrunk h3
              have i123 := (i1.trans i2).trans i3
              unfold mergeStep at h
              split at h
              · simp only [Option.some.injEq, Prod.mk.injEq] at h
                exact h.1 ▸ fin F3 i123
              · split at h
                · simp at h
                · rename_i F4 h4
                  obtain ⟨hl, f, g, f', hf, hg, hf', hsz, hold⟩ := merge_sizes h4
                  have hle : f'.ts.size ≤ c.maxStates := by
                    obtain ⟨f2, e1, e2⟩ := i3.2 _ f hf
                    obtain ⟨g2, e3, e4⟩ := i3.2 _ g hg
                    rw [hsz]
                    exact Nat.le_trans (Nat.mul_le_mul e2 e4) (hsize f2 g2 e1 e3)
                  have fin4 : ∀ G, Shrunk F4 G → F.factors.length ≤ G.factors.length ∧ ∀ (i : Nat) (f' : Factor), G.factor i = some f' →
                      (F.factors.length ≤ i → f'.ts.size ≤ c.maxStates) ∧ (i < F.factors.length → ∃ f, F.factor i = some f ∧ f'.ts.size ≤ f.ts.size) := by
                    intro G hG
                    have hlen : G.factors.length = F.factors.length + 1 := by rw [hG.1, hl, i123.1]
                    refine ⟨by omega, fun i e he => ?_⟩
                    have hlt := factor_lt he
                    obtain ⟨e', k1, k2⟩ := hG.2 i e he
                    refine ⟨fun hi => ?_, fun hi => ?_⟩
                    · have e1 : i = F3.factors.length := by rw [i123.1]; omega
                      subst e1
                      rw [hf'] at k1
                      simp only [Option.some.injEq] at k1
                      subst k1
                      omega
                    · obtain ⟨e'', k3, k4⟩ := i123.2 i e' (hold i e' (by rw [i123.1]; exact hi) k1)
                      exact ⟨e'', k3, by omega⟩
                  unfold afterMerge at h
                  split at h
                  · simp only [Option.some.injEq, Prod.mk.injEq] at h
                    exact h.1 ▸ fin4 F4 (Shrunk.refl F4)
                  · split at h
                    · simp at h
                    · rename_i F5 h5
                      have i5 := pruneIf_shrunk h5
                      split at h
                      · simp at h
                      · simp only [Option.some.injEq, Prod.mk.injEq] at h
                        exact h.1 ▸ fin4 F5 i5
                      · simp only [Option.some.injEq, Prod.mk.injEq] at h
                        exact h.1 ▸ fin4 F5 i5

theorem pruneAtomic_shrunk {H : StdHeap Nat} {c : Config} : ∀ {is : List Nat} {F F' : FTS} {b : Bool}, pruneAtomic H c is F = some (F', b) → Shrunk F F'
  | [], F, F', b, h => by
    simp only [pruneAtomic, Option.some.injEq, Prod.mk.injEq] at h
    exact h.1 ▸ Shrunk.refl _
  | i :: is, F, F', b, h => by
    simp only [pruneAtomic] at h
    split at h
    · simp at h
    · rename_i G hG
      split at h
      · simp at h
      · simp only [Option.some.injEq, Prod.mk.injEq] at h
        exact h.1 ▸ pruneIf_shrunk hG
      · exact (pruneIf_shrunk hG).trans (pruneAtomic_shrunk h)

/-- C57: if the shrink strategies meet their targets, every factor in the end is either one for a single variable (and has one of the first indices) or has at most `max_states` states. -/
theorem C57_max_states {O : HashOrder} {H : StdHeap Nat} {c : Config} (hc : c.MeetsTargets) (hb : 1 ≤ c.before) (hm : 1 ≤ c.maxStates) {t : Task} {F : FTS} (h : build O H c t = some F) {i : Nat} {f : Factor} (hf : F.factor i = some f)
    (hi : t.vars.length ≤ i) : f.ts.size ≤ c.maxStates := by
  have loop : ∀ k F F', mainLoop O H c t.vars.length k F = some F' → (∀ (i : Nat) (f : Factor), t.vars.length ≤ i → F.factor i = some f → f.ts.size ≤ c.maxStates) →
      ∀ (i : Nat) (f : Factor), t.vars.length ≤ i → F'.factor i = some f → f.ts.size ≤ c.maxStates := by
    intro k F F' hF
    refine mainLoop.partial_correctness O H c t.vars.length (motive := fun k F F' => (∀ (i : Nat) (f : Factor), t.vars.length ≤ i → F.factor i = some f → f.ts.size ≤ c.maxStates) →
      ∀ (i : Nat) (f : Factor), t.vars.length ≤ i → F'.factor i = some f → f.ts.size ≤ c.maxStates) ?_ k F F' hF
    intro ml ih k F r hr hI
    have step : ∀ F1 b, iteration O H c t.vars.length k F = some (F1, b) → ∀ (i : Nat) (f : Factor), t.vars.length ≤ i → F1.factor i = some f → f.ts.size ≤ c.maxStates := by
      intro F1 b h1 i f hi hf
      have := (C57_iteration hc hb hm h1).2 i f hf
      by_cases hlt : i < F.factors.length
      · obtain ⟨g, k1, k2⟩ := this.2 hlt
        have := hI i g hi k1
        omega
      · exact this.1 (by omega)
    split at hr
    · split at hr
      · simp at hr
      · rename_i F1 h1
        simp only [Option.some.injEq] at hr
        exact hr ▸ step F1 _ h1
      · rename_i F1 h1
        exact ih _ _ _ hr (step F1 _ h1)
    · simp only [Option.some.injEq] at hr
      exact hr ▸ hI
  unfold build at h
  split at h
  · split at h
    · simp at h
    · rename_i F0 hF0
      have hlen : F0.factors.length = t.vars.length := by
        unfold createFts at hF0
        split at hF0
        · simp at hF0
        · rename_i fs hfs
          simp only [Option.some.injEq] at hF0
          subst hF0
          simpa using mapAll_length hfs
      split at h
      · simp at h
      · rename_i F1 u h1
        have hsh := pruneAtomic_shrunk h1
        have hno : ∀ (i : Nat) (f : Factor), t.vars.length ≤ i → F1.factor i = some f → f.ts.size ≤ c.maxStates := by
          intro i f hi hf
          have := factor_lt hf
          rw [hsh.1, hlen] at this
          omega
        split at h
        · exact loop 0 F1 F h hno i f hi hf
        · simp only [Option.some.injEq] at h
          exact hno i f hi (h ▸ hf)
  · simp at h

/-- a strategy which combines the last states -/
def combineLast (size n : Nat) : List (List Nat) :=
  if size ≤ n then (List.range size).map (fun s => [s]) else (List.range (n - 1)).map (fun s => [s]) ++ [List.range' (n - 1) (size - (n - 1))]

def sizeConfig : Config := { exConfig with maxStates := 6, before := 3, threshold := 6, shrink1 := fun _ T _ n => some (combineLast T.size n), shrink2 := fun _ T _ n => some (combineLast T.size n) }

example : sizeConfig.MeetsTargets ∧ 1 ≤ sizeConfig.before ∧ 1 ≤ sizeConfig.maxStates := by
  have h : ∀ size n, 1 ≤ n → (combineLast size n).length ≤ n := by
    intro size n hn
    unfold combineLast
    split
    · simpa
    · simp; omega
  refine ⟨fun k T d n rel hn => ⟨fun e => ?_, fun e => ?_⟩, by decide, by decide⟩ <;>
  · simp only [sizeConfig, Option.some.injEq] at e
    subst e
    exact h _ _ hn

/-- the whole task has 12 states, the final factor 6 -/
example : ((mainFuel exOrder (insertHeap Nat) sizeConfig 3 10 0 ((createFts (insertHeap Nat) exTask false false).getD ⟨⟨[], 0⟩, [], false, false⟩)).bind (fun F => F.factor 4)).map (fun f => f.ts.size) = some 6 := by decide +kernel

end Verif.Mas
