import Verif.Model.DomainAbstraction
import Verif.Spec.DomainAbstraction
import Verif.Lemmas.StubbornEC
import Mathlib.Data.List.Perm.Subperm
import Mathlib.Data.List.Nodup
import Mathlib.Data.List.Range

/-
Domain abstraction: the maps of values, and the abstracted task.
-/
namespace Verif.DomAbs

/-! ### The maps of values -/

theorem setSingles_spec {U : List Nat} : ∀ (xs m : List Nat) (next : Nat), xs.Nodup → (∀ x ∈ xs, x < m.length) →
    (setSingles U xs m next).1.length = m.length ∧ (setSingles U xs m next).2 = next + (xs.filter (fun x => decide (x ∉ U))).length ∧
    (∀ x, (x ∉ xs ∨ x ∈ U) → (setSingles U xs m next).1[x]? = m[x]?) ∧
    (∀ x ∈ xs, x ∉ U → ∃ k, (setSingles U xs m next).1[x]? = some k ∧ next ≤ k ∧ k < (setSingles U xs m next).2) ∧
    (∀ x ∈ xs, x ∉ U → ∀ y ∈ xs, y ∉ U → (setSingles U xs m next).1[x]? = (setSingles U xs m next).1[y]? → x = y) ∧
    (∀ k, next ≤ k → k < (setSingles U xs m next).2 → ∃ x ∈ xs, x ∉ U ∧ (setSingles U xs m next).1[x]? = some k) := by
  intro xs
  induction xs with
  | nil => intro m next _ _; simp [setSingles]
  | cons x xs ih =>
    intro m next hnd hlt
    rw [List.nodup_cons] at hnd
    by_cases hx : x ∈ U
    · obtain ⟨h1, h2, h3, h4, h5, h6⟩ := ih m next hnd.2 (fun y hy => hlt y (List.mem_cons_of_mem _ hy))
      simp only [setSingles, hx, if_true]
      refine ⟨h1, by simp [h2, hx], fun y hy => h3 y ?_, fun y hy hyU => ?_, fun y hy hyU z hz hzU => ?_, fun k k1 k2 => ?_⟩
      · rcases hy with hy | hy
        · exact Or.inl (fun h => hy (List.mem_cons_of_mem _ h))
        · exact Or.inr hy
      · rcases List.mem_cons.mp hy with rfl | hy
        · exact absurd hx hyU
        · exact h4 y hy hyU
      · rcases List.mem_cons.mp hy with rfl | hy
        · exact absurd hx hyU
        rcases List.mem_cons.mp hz with rfl | hz
        · exact absurd hx hzU
        exact h5 y hy hyU z hz hzU
      · obtain ⟨y, y1, y2⟩ := h6 k k1 k2
        exact ⟨y, List.mem_cons_of_mem _ y1, y2⟩
    · obtain ⟨h1, h2, h3, h4, h5, h6⟩ := ih (m.set x next) (next + 1) hnd.2 (fun y hy => by rw [List.length_set]; exact hlt y (List.mem_cons_of_mem _ hy))
      simp only [setSingles, hx, if_false]
      have hxv : (setSingles U xs (m.set x next) (next + 1)).1[x]? = some next := by
        rw [h3 x (Or.inl hnd.1), List.getElem?_set_self (hlt x (by simp))]
      refine ⟨by rw [h1, List.length_set], by simp [h2, hx]; omega, fun y hy => ?_, fun y hy hyU => ?_, fun y hy hyU z hz hzU he => ?_, fun k k1 k2 => ?_⟩
      · have hne : x ≠ y := by
          rintro rfl
          rcases hy with hy | hy
          · exact hy (by simp)
          · exact hx hy
        rw [h3 y ?_, List.getElem?_set_ne hne]
        rcases hy with hy | hy
        · exact Or.inl (fun h => hy (List.mem_cons_of_mem _ h))
        · exact Or.inr hy
      · rcases List.mem_cons.mp hy with rfl | hy
        · exact ⟨next, hxv, Nat.le_refl _, by omega⟩
        · obtain ⟨k, k1, k2, k3⟩ := h4 y hy hyU
          exact ⟨k, k1, by omega, k3⟩
      · rcases List.mem_cons.mp hy with rfl | hy
        · rcases List.mem_cons.mp hz with rfl | hz
          · rfl
          · obtain ⟨k, k1, k2, _⟩ := h4 z hz hzU
            rw [hxv, k1] at he
            simp at he; omega
        · rcases List.mem_cons.mp hz with hzx | hz
          · obtain ⟨k, k1, k2, _⟩ := h4 y hy hyU
            rw [hzx, hxv, k1] at he
            simp at he; omega
          · exact h5 y hy hyU z hz hzU he
      · rcases Nat.eq_or_lt_of_le k1 with rfl | k1
        · exact ⟨x, by simp, hx, hxv⟩
        · obtain ⟨y, y1, y2⟩ := h6 k k1 k2
          exact ⟨y, List.mem_cons_of_mem _ y1, y2⟩

theorem setGroup_spec {next : Nat} : ∀ (g m : List Nat), (∀ x ∈ g, x < m.length) → ∃ m', setGroup next g m = some m' ∧ m'.length = m.length ∧ (∀ x ∈ g, m'[x]? = some next) ∧ ∀ x, x ∉ g → m'[x]? = m[x]? := by
  intro g
  induction g with
  | nil => intro m _; exact ⟨m, rfl, rfl, by simp, by simp⟩
  | cons x g ih =>
    intro m hlt
    have hx := hlt x (by simp)
    obtain ⟨m', h1, h2, h3, h4⟩ := ih (m.set x next) (fun y hy => by rw [List.length_set]; exact hlt y (List.mem_cons_of_mem _ hy))
    refine ⟨m', by simp only [setGroup, hx, if_true, h1], by rw [h2, List.length_set], fun y hy => ?_, fun y hy => ?_⟩
    · by_cases hyg : y ∈ g
      · exact h3 y hyg
      · rcases List.mem_cons.mp hy with rfl | hy
        · rw [h4 _ hyg, List.getElem?_set_self hx]
        · exact absurd hy hyg
    · rw [h4 y (fun h => hy (List.mem_cons_of_mem _ h)), List.getElem?_set_ne]
      rintro rfl
      exact hy (by simp)

theorem setGroups_spec {dom : Nat} : ∀ (gs : List (List Nat)) (m : List Nat) (next : Nat), gs.flatten.Nodup → (∀ g ∈ gs, ∀ x ∈ g, x < m.length) → next + gs.length ≤ dom →
    ∃ m', setGroups dom gs m next = some (m', next + gs.length) ∧ m'.length = m.length ∧ (∀ i g, gs[i]? = some g → ∀ x ∈ g, m'[x]? = some (next + i)) ∧ ∀ x, x ∉ gs.flatten → m'[x]? = m[x]? := by
  intro gs
  induction gs with
  | nil => intro m next _ _ _; exact ⟨m, rfl, rfl, by simp, by simp⟩
  | cons g gs ih =>
    intro m next hnd hlt hdom
    rw [List.flatten_cons, List.nodup_append] at hnd
    obtain ⟨n1, n2, n3⟩ := hnd
    obtain ⟨m1, h1, h2, h3, h4⟩ := setGroup_spec (next := next) g m (hlt g (by simp))
    simp only [List.length_cons] at hdom
    obtain ⟨m', k1, k2, k3, k4⟩ := ih m1 (next + 1) n2 (fun g' hg' x hx => by rw [h2]; exact hlt g' (List.mem_cons_of_mem _ hg') x hx) (by omega)
    refine ⟨m', by simp only [setGroups, h1, if_pos (show next < dom by omega), k1, List.length_cons]; simp; omega, by rw [k2, h2], fun i g' hi x hx => ?_, fun x hx => ?_⟩
    · cases i with
      | zero =>
        simp at hi; subst hi
        rw [k4 x (fun h => n3 x hx x h rfl), h3 x hx]
        rfl
      | succ i =>
        rw [k3 i g' (by simpa using hi) x hx, show next + 1 + i = next + (i + 1) by omega]
    · rw [List.flatten_cons, List.mem_append, not_or] at hx
      rw [k4 x hx.2, h4 x hx.1]

theorem length_le_flatten {gs : List (List Nat)} (h : ∀ g ∈ gs, g ≠ []) : gs.length ≤ gs.flatten.length := by
  induction gs with
  | nil => simp
  | cons g gs ih =>
    have h1 := ih (fun g' hg' => h g' (List.mem_cons_of_mem _ hg'))
    have h2 := List.length_pos_iff.mpr (h g (by simp))
    simp only [List.length_cons, List.flatten_cons, List.length_append]
    omega

theorem count_singles {dom : Nat} {U : List Nat} (hnd : U.Nodup) (hlt : ∀ x ∈ U, x < dom) : ((List.range dom).filter (fun x => decide (x ∉ U))).length + U.length = dom := by
  have h1 : ((List.range dom).filter (fun x => decide (x ∈ U))).length = U.length := by
    apply List.Perm.length_eq
    rw [List.perm_ext_iff_of_nodup (List.nodup_range.filter _) hnd]
    intro x
    simp only [List.mem_filter, List.mem_range, decide_eq_true_eq]
    exact ⟨fun h => h.2, fun h => ⟨hlt x h, h⟩⟩
  have h2 := List.length_eq_length_filter_add (l := List.range dom) (fun x => decide (x ∈ U))
  simp only [List.length_range] at h2
  have h3 : ((List.range dom).filter (fun x => decide (x ∉ U))) = (List.range dom).filter (fun x => !decide (x ∈ U)) := by
    apply List.filter_congr; intro x _; simp
  rw [h3]
  omega

/-- combine_values: exactly the values of the same group are combined -/
theorem combineValues_spec {dom : Nat} {gs : List (List Nat)} (hnd : gs.flatten.Nodup) (hne : ∀ g ∈ gs, g ≠ []) (hlt : ∀ g ∈ gs, ∀ x ∈ g, x < dom) :
    ∃ m n, combineValues dom gs = some (m, n) ∧ m.length = dom ∧ (∀ x k : Nat, m[x]? = some k → k < n) ∧ (∀ k, k < n → ∃ x : Nat, m[x]? = some k) ∧
      ∀ x y : Nat, x < dom → y < dom → (m[x]? = m[y]? ↔ x = y ∨ ∃ g ∈ gs, x ∈ g ∧ y ∈ g) := by
  have hU : ∀ x ∈ gs.flatten, x < dom := by intro x hx; obtain ⟨g, hg, hx⟩ := List.mem_flatten.mp hx; exact hlt g hg x hx
  have hc := count_singles hnd hU
  have hl := length_le_flatten hne
  obtain ⟨h1, h2, h3, h4, h5, h6⟩ := setSingles_spec (U := gs.flatten) (List.range dom) (List.range dom) 0 List.nodup_range (fun x hx => by simpa using hx)
  rw [List.length_range] at h1
  obtain ⟨m, k1, k2, k3, k4⟩ := setGroups_spec (dom := dom) gs (setSingles gs.flatten (List.range dom) (List.range dom) 0).1 (setSingles gs.flatten (List.range dom) (List.range dom) 0).2 hnd
    (fun g hg x hx => by rw [h1]; exact hlt g hg x hx) (by rw [h2]; omega)
  rw [h1] at k2
  have hval : ∀ x, x < dom → (x ∉ gs.flatten ∧ ∃ k, m[x]? = some k ∧ k < (setSingles gs.flatten (List.range dom) (List.range dom) 0).2) ∨
      ∃ i g, gs[i]? = some g ∧ x ∈ g ∧ m[x]? = some ((setSingles gs.flatten (List.range dom) (List.range dom) 0).2 + i) := by
    intro x hx
    by_cases hm : x ∈ gs.flatten
    · obtain ⟨g, hg, hxg⟩ := List.mem_flatten.mp hm
      obtain ⟨i, hi⟩ := List.mem_iff_getElem?.mp hg
      exact Or.inr ⟨i, g, hi, hxg, k3 i g hi x hxg⟩
    · obtain ⟨k, q1, _, q3⟩ := h4 x (by simpa using hx) hm
      exact Or.inl ⟨hm, k, by rw [k4 x hm]; exact q1, q3⟩
  refine ⟨m, _, k1, k2, fun x k hk => ?_, fun k hk => ?_, fun x y hx hy => ?_⟩
  · have hx : x < dom := by rw [← k2]; exact (List.getElem?_eq_some_iff.mp hk).1
    rcases hval x hx with ⟨_, k', e1, e2⟩ | ⟨i, g, e1, _, e3⟩
    · rw [hk] at e1; simp at e1; omega
    · have := (List.getElem?_eq_some_iff.mp e1).1
      rw [hk] at e3; simp at e3; omega
  · by_cases hs : k < (setSingles gs.flatten (List.range dom) (List.range dom) 0).2
    · obtain ⟨x, _, x2, x3⟩ := h6 k (Nat.zero_le _) hs
      exact ⟨x, by rw [k4 x x2]; exact x3⟩
    · obtain ⟨i, rfl⟩ := Nat.exists_eq_add_of_le (Nat.le_of_not_lt hs)
      have hi : i < gs.length := by omega
      have hg := List.getElem?_eq_getElem hi
      obtain ⟨x, hx⟩ := List.exists_mem_of_ne_nil _ (hne _ (List.mem_of_getElem? hg))
      exact ⟨x, k3 i _ hg x hx⟩
  · constructor
    · intro he
      rcases hval x hx with ⟨x0, kx, x1, x2⟩ | ⟨i, g, x1, x2, x3⟩
      · rcases hval y hy with ⟨y0, ky, y1, y2⟩ | ⟨j, g', y1, y2, y3⟩
        · left
          apply h5 x (by simpa using hx) x0 y (by simpa using hy) y0
          rw [← k4 x x0, ← k4 y y0, he]
        · rw [x1, y3] at he
          simp at he; omega
      · rcases hval y hy with ⟨y0, ky, y1, y2⟩ | ⟨j, g', y1, y2, y3⟩
        · rw [x3, y1] at he
          simp at he; omega
        · rw [x3, y3] at he
          simp at he; subst he
          rw [x1] at y1; simp at y1; subst y1
          exact Or.inr ⟨g, List.mem_of_getElem? x1, x2, y2⟩
    · rintro (rfl | ⟨g, hg, gx, gy⟩)
      · rfl
      · obtain ⟨i, hi⟩ := List.mem_iff_getElem?.mp hg
        rw [k3 i g hi x gx, k3 i g hi y gy]

end Verif.DomAbs
