import Verif.Model.AxiomRules
import Verif.Spec.AxiomRules

/-
Lemmas about the simplification of the axioms of one derived atom.
-/
namespace Verif.AxiomRules
open Verif.Strips
variable {α : Type} [LinearOrder α]

/-- the axiom needs its own head -/
def SelfUse (r : Strips.Rule α) : Prop := (⟨false, r.head⟩ : Literal α) ∈ r.body

theorem mem_byLiteral {cs : List (Strips.Rule α)} {l : Literal α} {i : Nat} : i ∈ byLiteral cs l ↔ ∃ r, cs[i]? = some r ∧ ¬ SelfUse r ∧ l ∈ r.body := by
  unfold byLiteral SelfUse
  simp only [List.mem_map, List.mem_filter, Bool.and_eq_true, Bool.not_eq_true', List.contains_iff_mem, ← Bool.not_eq_true]
  constructor
  · rintro ⟨⟨r, j⟩, ⟨hr, h1, h2⟩, rfl⟩
    exact ⟨r, List.mem_zipIdx_iff_getElem?.mp hr, h1, h2⟩
  · rintro ⟨r, hr, h1, h2⟩
    exact ⟨(r, i), ⟨List.mem_zipIdx_iff_getElem?.mpr hr, h1, h2⟩, rfl⟩

theorem mem_dominated {cs : List (Strips.Rule α)} {i : Nat} : ∀ {ls : List (Literal α)} {d : List Nat}, i ∈ dominated cs ls d ↔ i ∈ d ∧ ∀ l ∈ ls, i ∈ byLiteral cs l
  | [], d => by simp [dominated]
  | l :: ls, d => by
    rw [dominated, mem_dominated]
    simp only [List.mem_filter, List.contains_iff_mem, List.mem_cons, forall_eq_or_imp, and_assoc]

theorem mem_dominated_cons {cs : List (Strips.Rule α)} {i : Nat} {l : Literal α} {ls : List (Literal α)} : i ∈ dominated cs ls (byLiteral cs l) ↔ ∃ r, cs[i]? = some r ∧ ¬ SelfUse r ∧ ∀ x ∈ l :: ls, x ∈ r.body := by
  rw [mem_dominated]
  constructor
  · rintro ⟨h1, h2⟩
    obtain ⟨r, hr, hs, hl⟩ := mem_byLiteral.mp h1
    refine ⟨r, hr, hs, fun x hx => ?_⟩
    rcases List.mem_cons.mp hx with rfl | hx
    · exact hl
    · obtain ⟨r', hr', _, hx'⟩ := mem_byLiteral.mp (h2 x hx)
      rw [hr, Option.some.injEq] at hr'
      subst hr'
      exact hx'
  · rintro ⟨r, hr, hs, h⟩
    exact ⟨mem_byLiteral.mpr ⟨r, hr, hs, h l (by simp)⟩, fun x hx => mem_byLiteral.mpr ⟨r, hr, hs, h x (by simp [hx])⟩⟩

/-- what the axioms that are kept have in common with all the axioms -/
structure Kept (cs out : List (Strips.Rule α)) : Prop where
  mem : ∀ r ∈ out, r ∈ cs ∧ ¬ SelfUse r
  covers : ∀ r ∈ cs, SelfUse r ∨ ∃ r' ∈ out, ∀ l ∈ r'.body, l ∈ r.body
  minimal : out.Pairwise (fun r r' => ¬ (∀ l ∈ r.body, l ∈ r'.body) ∧ ¬ (∀ l ∈ r'.body, l ∈ r.body))

theorem dominanceLoop_spec {cs : List (Strips.Rule α)} : ∀ (rs : List (Strips.Rule α × Nat)) (skip : List Nat) (k : Nat), rs = cs.zipIdx.drop k →
    (∀ (j : Nat) (r : Strips.Rule α), cs[j]? = some r → SelfUse r → j ∈ skip) →
    (∀ (j : Nat) (r : Strips.Rule α), cs[j]? = some r → j ∈ skip → SelfUse r ∨ ∃ (i : Nat) (r' : Strips.Rule α), cs[i]? = some r' ∧ i ∉ skip ∧ ∀ l ∈ r'.body, l ∈ r.body) →
    (∀ (i j : Nat) (r r' : Strips.Rule α), cs[i]? = some r → cs[j]? = some r' → i < k → i ∉ skip → j ≠ i → ¬ SelfUse r' → (∀ l ∈ r.body, l ∈ r'.body) → j ∈ skip) →
    Kept cs (dominanceLoop cs rs skip)
  | [], skip, k, hk, hself, hcov, hmin => by
    have hlen : cs.length ≤ k := by
      have := congrArg List.length hk
      simp at this
      omega
    rw [dominanceLoop]
    refine ⟨fun r hr => ?_, fun r hr => ?_, ?_⟩
    · obtain ⟨⟨r', i⟩, hi, rfl⟩ := List.mem_map.mp hr
      obtain ⟨h1, h2⟩ := List.mem_filter.mp hi
      have h3 := List.mem_zipIdx_iff_getElem?.mp h1
      refine ⟨List.mem_of_getElem? h3, fun hs => ?_⟩
      have := hself i r' h3 hs
      simp [this] at h2
    · obtain ⟨j, hj⟩ := List.mem_iff_getElem?.mp hr
      have hmk : ∀ (i : Nat) (r' : Strips.Rule α), cs[i]? = some r' → i ∉ skip → r' ∈ (cs.zipIdx.filter (fun r => !skip.contains r.2)).map (·.1) := fun i r' h h' =>
        List.mem_map.mpr ⟨(r', i), List.mem_filter.mpr ⟨List.mem_zipIdx_iff_getElem?.mpr h, by simpa using h'⟩, rfl⟩
      by_cases hjs : j ∈ skip
      · rcases hcov j r hj hjs with h | ⟨i, r', hi, his, hsub⟩
        · exact .inl h
        · exact .inr ⟨r', hmk i r' hi his, hsub⟩
      · exact .inr ⟨r, hmk j r hj hjs, fun _ h => h⟩
    · rw [List.pairwise_map, List.pairwise_filter]
      have hlt : cs.zipIdx.Pairwise (fun a b => a.2 ≠ b.2) := by
        rw [← List.pairwise_map (f := Prod.snd) (R := (· ≠ ·)), List.zipIdx_map_snd]
        exact List.nodup_range'
      refine List.Pairwise.imp_of_mem ?_ hlt
      rintro ⟨r, i⟩ ⟨r', j⟩ hr hr' hij h1 h2
      have hr := List.mem_zipIdx_iff_getElem?.mp hr
      have hr' := List.mem_zipIdx_iff_getElem?.mp hr'
      have h1 : i ∉ skip := by simpa using h1
      have h2 : j ∉ skip := by simpa using h2
      have hik := (List.getElem?_eq_some_iff.mp hr).1
      have hjk := (List.getElem?_eq_some_iff.mp hr').1
      simp only at hik hjk hij hr hr'
      exact ⟨fun h => h2 (hmin i j r r' hr hr' (by omega) h1 (Ne.symm hij) (fun hs => h2 (hself j r' hr' hs)) h),
        fun h => h1 (hmin j i r' r hr' hr (by omega) h2 hij (fun hs => h1 (hself i r hr hs)) h)⟩
  | (r, i) :: rs, skip, k, hk, hself, hcov, hmin => by
    have hk0 : cs.zipIdx[k]? = some (r, i) := by
      have := congrArg (fun l => l[0]?) hk
      simpa [List.getElem?_drop] using this.symm
    have hrs : rs = cs.zipIdx.drop (k + 1) := by
      have := congrArg List.tail hk
      simpa [List.tail_drop] using this
    have hik : i = k ∧ cs[k]? = some r := by
      rw [List.getElem?_zipIdx] at hk0
      obtain ⟨x, hx, he⟩ := Option.map_eq_some_iff.mp hk0
      simp only [Prod.mk.injEq, zero_add] at he
      exact ⟨he.2.symm, he.1 ▸ hx⟩
    obtain ⟨rfl, hr⟩ := hik
    rw [dominanceLoop]
    split
    · rename_i hs
      rw [List.contains_iff_mem] at hs
      refine dominanceLoop_spec rs skip (i + 1) hrs hself hcov ?_
      intro i' j r1 r2 h1 h2 hlt hns
      have : i' ≠ i := fun h => hns (h ▸ hs)
      exact hmin i' j r1 r2 h1 h2 (by omega) hns
    · rename_i hs
      have hs : i ∉ skip := by simpa using hs
      have hnself : ¬ SelfUse r := fun h => hs (hself i r hr h)
      split
      · rename_i hbody
        refine ⟨fun x hx => ?_, fun x _ => .inr ⟨r, by simp, by simp [hbody]⟩, by simp⟩
        rw [List.mem_singleton.mp hx]
        exact ⟨List.mem_of_getElem? hr, hnself⟩
      · rename_i l ls hbody
        have hmem : ∀ j, j ∈ skip ++ (dominated cs ls (byLiteral cs l)).filter (fun j => j != i) ↔ j ∈ skip ∨ (j ≠ i ∧ ∃ r', cs[j]? = some r' ∧ ¬ SelfUse r' ∧ ∀ x ∈ r.body, x ∈ r'.body) := by
          intro j
          rw [List.mem_append, List.mem_filter, mem_dominated_cons, bne_iff_ne, ← hbody, and_comm (b := j ≠ i)]
        have hi' : i ∉ skip ++ (dominated cs ls (byLiteral cs l)).filter (fun j => j != i) := by
          rw [hmem]
          simp [hs]
        refine dominanceLoop_spec rs _ (i + 1) hrs ?_ ?_ ?_
        · intro j r' hj hsu
          exact (hmem j).mpr (.inl (hself j r' hj hsu))
        · intro j r' hj hjs
          rcases (hmem j).mp hjs with h | ⟨_, r2, hr2, _, hsub⟩
          · rcases hcov j r' hj h with h | ⟨w, rw', hw, hws, hsub⟩
            · exact .inl h
            · by_cases hw' : w ∈ skip ++ (dominated cs ls (byLiteral cs l)).filter (fun j => j != i)
              · rcases (hmem w).mp hw' with h | ⟨_, r3, hr3, _, hsub'⟩
                · exact absurd h hws
                · rw [hw, Option.some.injEq] at hr3
                  subst hr3
                  exact .inr ⟨i, r, hr, hi', fun x hx => hsub x (hsub' x hx)⟩
              · exact .inr ⟨w, rw', hw, hw', hsub⟩
          · rw [hj, Option.some.injEq] at hr2
            subst hr2
            exact .inr ⟨i, r, hr, hi', hsub⟩
        · intro i' j r1 r2 h1 h2 hlt hns hji hsu hsub
          rw [hmem] at hns ⊢
          by_cases hii : i' = i
          · subst hii
            rw [hr, Option.some.injEq] at h1
            subst h1
            exact .inr ⟨hji, r2, h2, hsu, hsub⟩
          · exact .inl (hmin i' j r1 r2 h1 h2 (by omega) (fun h => hns (.inl h)) hji hsu hsub)

theorem mem_cleanBody {r : Strips.Rule α} {l : Literal α} : l ∈ (cleanBody r).body ↔ l ∈ r.body := by
  simp [cleanBody]

theorem selfUse_cleanBody {r : Strips.Rule α} : SelfUse (cleanBody r) ↔ SelfUse r := by
  unfold SelfUse
  rw [mem_cleanBody]
  rfl

theorem simplify_spec (as : List (Strips.Rule α)) : Kept (as.map cleanBody) (simplify as) := by
  unfold simplify
  have hmem : ∀ j, j ∈ (((as.map cleanBody).zipIdx.filter (fun r => r.1.body.contains ⟨false, r.1.head⟩)).map (·.2)) ↔ ∃ r, (as.map cleanBody)[j]? = some r ∧ SelfUse r := by
    intro j
    simp only [List.mem_map, List.mem_filter, List.contains_iff_mem]
    constructor
    · rintro ⟨⟨r, i⟩, ⟨h1, h2⟩, rfl⟩
      exact ⟨r, List.mem_zipIdx_iff_getElem?.mp h1, h2⟩
    · rintro ⟨r, h1, h2⟩
      exact ⟨(r, j), ⟨List.mem_zipIdx_iff_getElem?.mpr h1, h2⟩, rfl⟩
  refine dominanceLoop_spec _ _ 0 (by simp) ?_ ?_ ?_
  · intro j r hj hs
    exact (hmem j).mpr ⟨r, hj, hs⟩
  · intro j r hj hs
    obtain ⟨r', hr', hs'⟩ := (hmem j).mp hs
    rw [hj, Option.some.injEq] at hr'
    subst hr'
    exact .inl hs'
  · intro i j _ _ _ _ h
    omega

end Verif.AxiomRules
