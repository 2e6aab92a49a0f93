import Verif.Model.PdbCollections

/-
C53: patterns are normalised.
-/
namespace Verif.Pdb

theorem unique_spec : ∀ l : List Int, l.Pairwise (· ≤ ·) → (unique l).Pairwise (· < ·) ∧ (∀ x, x ∈ unique l ↔ x ∈ l)
  | [], _ => ⟨List.Pairwise.nil, by simp [unique]⟩
  | [a], _ => ⟨by simp [unique], by simp [unique]⟩
  | a :: b :: l, h => by
    rw [List.pairwise_cons] at h
    obtain ⟨h1, h2⟩ := unique_spec (b :: l) h.2
    unfold unique
    split
    · rename_i e
      subst e
      exact ⟨h1, fun x => by rw [h2 x]; simp⟩
    · rename_i hne
      refine ⟨List.pairwise_cons.mpr ⟨fun x hx => ?_, h1⟩, fun x => by rw [List.mem_cons, h2 x, List.mem_cons (a := x) (b := a)]⟩
      rw [h2 x] at hx
      have hb := h.1 b (List.mem_cons_self ..)
      rcases List.mem_cons.mp hx with rfl | hx
      · omega
      · have := (List.pairwise_cons.mp h.2).1 x hx
        omega

theorem getLast_max {l : List Int} (h : l.Pairwise (· < ·)) {x : Int} (hx : l.getLast? = some x) : ∀ y ∈ l, y ≤ x := by
  intro y hy
  obtain ⟨l', rfl⟩ := List.getLast?_eq_some_iff.mp hx
  rw [List.pairwise_append] at h
  rcases List.mem_append.mp hy with hy | hy
  · have := h.2.2 y hy x (List.mem_singleton.mpr rfl); omega
  · simp only [List.mem_singleton] at hy; omega

/-- C53: for every given list of variables, a pattern is accepted exactly if all variables exist; the result is sorted, has no duplicates, and contains the same variables. -/
theorem C53_normalize (numVars : Nat) (pattern : List Int) :
    match normalize numVars pattern with
    | none => ∃ v ∈ pattern, v < 0 ∨ numVars ≤ v
    | some P => (∀ v ∈ pattern, 0 ≤ v ∧ v < numVars) ∧ P.Pairwise (· < ·) ∧ ∀ v : Nat, v ∈ P ↔ (v : Int) ∈ pattern := by
  have hsort : (pattern.insertionSort (· ≤ ·)).Pairwise (· ≤ ·) := List.pairwise_insertionSort (· ≤ ·) pattern
  obtain ⟨h1, h2⟩ := unique_spec _ hsort
  have h3 : ∀ x, x ∈ unique (pattern.insertionSort (· ≤ ·)) ↔ x ∈ pattern := fun x => by rw [h2 x]; exact (List.perm_insertionSort (· ≤ ·) pattern).mem_iff
  unfold normalize
  generalize hp : unique (pattern.insertionSort (· ≤ ·)) = p at h1 h3
  simp only
  cases p with
  | nil =>
    simp only [List.head?_nil]
    have he : pattern = [] := List.eq_nil_iff_forall_not_mem.mpr (fun x hx => by have := (h3 x).mpr hx; simp at this)
    simp [he]
  | cons a l =>
    obtain ⟨b, hb⟩ : ∃ b, (a :: l).getLast? = some b := ⟨_, List.getLast?_eq_some_getLast (by simp)⟩
    simp only [List.head?_cons, hb]
    have hmax := getLast_max h1 hb
    have hmin : ∀ y ∈ a :: l, a ≤ y := fun y hy => by
      rcases List.mem_cons.mp hy with rfl | hy
      · exact Int.le_refl _
      · have := (List.pairwise_cons.mp h1).1 y hy; omega
    have hbm : b ∈ a :: l := List.mem_of_getLast? hb
    by_cases hneg : a < 0
    · simp only [if_pos hneg]
      exact ⟨a, (h3 a).mp (List.mem_cons_self ..), Or.inl hneg⟩
    · by_cases hbig : b ≥ numVars
      · simp only [if_neg hneg, if_pos hbig]
        exact ⟨b, (h3 b).mp hbm, Or.inr hbig⟩
      · simp only [if_neg hneg, if_neg hbig]
        have hall : ∀ v ∈ a :: l, 0 ≤ v ∧ v < numVars := fun v hv => by
          have := hmin v hv; have := hmax v hv; omega
        refine ⟨fun v hv => hall v ((h3 v).mpr hv), ?_, fun v => ?_⟩
        · rw [List.pairwise_map]
          refine (List.Pairwise.and_mem.mp h1).imp (fun {x y} h => ?_)
          have := hall x h.1
          have := hall y h.2.1
          omega
        · rw [← h3, List.mem_map]
          constructor
          · rintro ⟨x, hx, rfl⟩
            rw [Int.toNat_of_nonneg (hall x hx).1]
            exact hx
          · intro h
            exact ⟨v, h, by simp⟩

example : normalize 4 [3, 1, 3, 0] = some [0, 1, 3] := by decide
example : normalize 4 [3, 1, -1] = none := by decide
example : normalize 4 [4, 1] = none := by decide

end Verif.Pdb
