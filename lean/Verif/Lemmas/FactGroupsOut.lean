import Verif.Lemmas.FactGroups

/-
Lemmas about the chosen groups, sorting, and the instances of invariants.
-/
namespace Verif.FactGroups
open scoped List
section
variable {α : Type} [DecidableEq α]

theorem mem_remaining {part : Bool} {g covered : List α} {x : α} : x ∈ remaining part g covered ↔ x ∈ g ∧ (part = true → x ∉ covered) := by
  unfold remaining
  cases part <;> simp

theorem chosen_spec (part : Bool) (groups : List (List α)) (reachable negative : List α) :
    ∃ out, chosen part groups reachable negative = some (out, reachable.filter (fun x => decide (x ∉ out.flatten))) ∧ Greedy part (removeNegative groups negative) [] [] out := by
  obtain ⟨q, h1, h2⟩ := mkQueue_spec part (removeNegative groups negative)
  have hlen : (removeNegative groups negative).length = groups.length := by
    unfold removeNegative
    split <;> simp
  obtain ⟨out, h3, h4⟩ := coverLoop_spec groups.length [] [] q reachable h2 (by simp [hlen]) (by simp) (by simp)
  refine ⟨out, ?_, h4⟩
  unfold chosen
  rw [h1]
  exact h3

theorem removeNegative_get {groups : List (List α)} {negative : List α} {i : Nat} {g : List α} (h : (removeNegative groups negative)[i]? = some g) :
    ∃ g0, groups[i]? = some g0 ∧ ∀ x, x ∈ g ↔ x ∈ g0 ∧ x ∉ negative := by
  unfold removeNegative at h
  split at h
  · rename_i hn
    have : negative = [] := by simpa using hn
    subst this
    exact ⟨g, h, by simp⟩
  · rw [List.getElem?_map] at h
    obtain ⟨g0, h1, h2⟩ := Option.map_eq_some_iff.mp h
    subst h2
    exact ⟨g0, h1, by simp⟩

theorem removeNegative_get' {groups : List (List α)} (negative : List α) {i : Nat} {g0 : List α} (h : groups[i]? = some g0) :
    ∃ g, (removeNegative groups negative)[i]? = some g ∧ ∀ x, x ∈ g ↔ x ∈ g0 ∧ x ∉ negative := by
  have hlen : (removeNegative groups negative).length = groups.length := by
    unfold removeNegative
    split <;> simp
  have hi : i < (removeNegative groups negative).length := by rw [hlen]; exact (List.getElem?_eq_some_iff.mp h).1
  have h1 : (removeNegative groups negative)[i]? = some (removeNegative groups negative)[i] := by simp [hi]
  obtain ⟨g1, h2, h3⟩ := removeNegative_get h1
  rw [h, Option.some.injEq] at h2
  subst h2
  exact ⟨_, h1, h3⟩

theorem Greedy.mem {part : Bool} {groups : List (List α)} {taken : List Nat} {covered : List α} {out : List (List α)} (h : Greedy part groups taken covered out) :
    ∀ c ∈ out, c.Nodup ∧ 2 ≤ c.length ∧ ∃ (i : Nat) (g : List α), groups[i]? = some g ∧ (∀ x ∈ c, x ∈ g) ∧ (part = true → ∀ x ∈ c, x ∉ covered) ∧ (part = false → ∀ x, x ∈ c ↔ x ∈ g) := by
  induction h with
  | stop => simp
  | take taken covered i g c out hi hg hc he h2 hmax h ih =>
    have hmem : ∀ x, x ∈ c ↔ x ∈ g ∧ (part = true → x ∉ covered) := by
      intro x
      rw [← List.mem_toFinset, he, mem_remaining]
    intro c' hc'
    rcases List.mem_cons.mp hc' with rfl | hc'
    · refine ⟨hc, h2, i, g, hg, fun x hx => ((hmem x).mp hx).1, fun hp x hx => ((hmem x).mp hx).2 hp, fun hp x => ?_⟩
      rw [hmem]
      simp [hp]
    · obtain ⟨h3, h4, j, g', h5, h6, h7, h8⟩ := ih c' hc'
      exact ⟨h3, h4, j, g', h5, h6, fun hp x hx hcov => h7 hp x hx (by simp [hcov]), h8⟩

theorem Greedy.flatten_nodup {groups : List (List α)} {taken : List Nat} {covered : List α} {out : List (List α)} (h : Greedy true groups taken covered out) : out.flatten.Nodup := by
  induction h with
  | stop => simp
  | take taken covered i g c out hi hg hc he h2 hmax h ih =>
    rw [List.flatten_cons, List.nodup_append]
    refine ⟨hc, ih, fun x hx y hy hxy => ?_⟩
    subst hxy
    obtain ⟨c', hc', hxc⟩ := List.mem_flatten.mp hy
    obtain ⟨_, _, _, _, _, _, h7, _⟩ := h.mem c' hc'
    exact h7 rfl x hxc (by simp [hx])

theorem Greedy.full {groups : List (List α)} {taken : List Nat} {covered : List α} {out : List (List α)} (h : Greedy false groups taken covered out) :
    ∀ (i : Nat) (g : List α), i ∉ taken → groups[i]? = some g → (∃ x ∈ g, ∃ y ∈ g, x ≠ y) → ∃ c ∈ out, ∀ x, x ∈ c ↔ x ∈ g := by
  induction h with
  | stop taken covered h =>
    intro i g hi hg hxy
    obtain ⟨x, hx, y, hy, hne⟩ := hxy
    exact absurd (Finset.card_le_one.mp (h i g hi hg) x (by simp [remaining, hx]) y (by simp [remaining, hy])) hne
  | take taken covered i g c out hi hg hc he h2 hmax h ih =>
    intro j g' hj hg' hxy
    by_cases hji : j = i
    · subst hji
      rw [hg, Option.some.injEq] at hg'
      subst hg'
      refine ⟨c, by simp, fun x => ?_⟩
      rw [← List.mem_toFinset, he, mem_remaining]
      simp
    · obtain ⟨c', h3, h4⟩ := ih j g' (by simp [hji, hj]) hg' hxy
      exact ⟨c', by simp [h3], h4⟩

theorem chooseGroups_spec (part : Bool) (groups : List (List α)) (reachable negative : List α) :
    ∃ out, chooseGroups part groups reachable negative = some (out ++ (reachable.filter (fun x => decide (x ∉ out.flatten))).map (fun x => [x])) ∧ Greedy part (removeNegative groups negative) [] [] out := by
  obtain ⟨out, h1, h2⟩ := chosen_spec part groups reachable negative
  refine ⟨out, ?_, h2⟩
  unfold chooseGroups
  rw [h1]

theorem mem_collect {groups : List (List α)} {atoms : List α} {g : List α} : g ∈ collectMutexGroups groups atoms ↔ g ∈ groups ∨ ∃ p ∈ atoms, (∀ g' ∈ groups, p ∉ g') ∧ g = [p] := by
  have hfold : ∀ (gs : List (List α)) (u : List α) (p : α), p ∈ gs.foldl (fun (u : List α) (g : List α) => u.filter (fun x => !g.contains x)) u ↔ p ∈ u ∧ ∀ g' ∈ gs, p ∉ g' := by
    intro gs
    induction gs with
    | nil => simp
    | cons g gs ih =>
      intro u p
      rw [List.foldl_cons, ih]
      simp [and_assoc]
  unfold collectMutexGroups
  rw [List.mem_append, List.mem_map]
  constructor
  · rintro (h | ⟨p, hp, rfl⟩)
    · exact .inl h
    · obtain ⟨h1, h2⟩ := (hfold _ _ _).mp hp
      exact .inr ⟨p, h1, h2, rfl⟩
  · rintro (h | ⟨p, h1, h2, rfl⟩)
    · exact .inl h
    · exact .inr ⟨p, (hfold _ _ _).mpr ⟨h1, h2⟩, rfl⟩

theorem unique_of_flatten_nodup {γ : Type} : ∀ (gs : List (List γ)), gs.flatten.Nodup → ∀ (v w : Nat) (g g' : List γ) (p : γ), gs[v]? = some g → gs[w]? = some g' → p ∈ g → p ∈ g' → w = v
  | [], _, v, w, g, g', p, hv, _, _, _ => by simp at hv
  | x :: gs, h, v, w, g, g', p, hv, hw, hg, hg' => by
    rw [List.flatten_cons, List.nodup_append] at h
    have hmem : ∀ (k : Nat) (l : List γ), gs[k]? = some l → p ∈ l → p ∈ gs.flatten := fun k l hk hl => List.mem_flatten.mpr ⟨l, List.mem_of_getElem? hk, hl⟩
    cases v with
    | zero =>
      cases w with
      | zero => rfl
      | succ w =>
        simp only [List.getElem?_cons_zero, Option.some.injEq] at hv
        subst hv
        exact absurd rfl (h.2.2 p hg p (hmem w g' (by simpa using hw) hg'))
    | succ v =>
      cases w with
      | zero =>
        simp only [List.getElem?_cons_zero, Option.some.injEq] at hw
        subst hw
        exact absurd rfl (h.2.2 p hg' p (hmem v g (by simpa using hv) hg))
      | succ w => rw [unique_of_flatten_nodup gs h.2.1 v w g g' p (by simpa using hv) (by simpa using hw) hg hg']

theorem removeNegative_perm {negative negative' : List α} (hn : negative ~ negative') (gs : List (List α)) : removeNegative gs negative = removeNegative gs negative' := by
  unfold removeNegative
  have h1 : negative.isEmpty = negative'.isEmpty := by
    rw [Bool.eq_iff_iff, List.isEmpty_iff, List.isEmpty_iff]
    exact ⟨fun h => by subst h; exact hn.symm.eq_nil, fun h => by subst h; exact hn.eq_nil⟩
  have h2 : ∀ x, negative.contains x = negative'.contains x := by
    intro x
    rw [Bool.eq_iff_iff]
    simp [hn.mem_iff]
  simp only [h1, h2]

theorem coverLoop_fst (part : Bool) : ∀ (n : Nat) (q : Queue α) (u u' : List α), (coverLoop part n q u).map (·.1) = (coverLoop part n q u').map (·.1) := by
  intro n
  induction n with
  | zero => intro q u u'; unfold coverLoop; split <;> rfl
  | succ n ih =>
    intro q u u'
    unfold coverLoop
    split
    · cases hp : pop part q with
      | none => rfl
      | some r =>
        obtain ⟨g, q'⟩ := r
        have := ih q' (u.filter (fun x => !g.contains x)) (u'.filter (fun x => !g.contains x))
        simp only []
        cases h1 : coverLoop part n q' (u.filter (fun x => !g.contains x)) with
        | none =>
          cases h2 : coverLoop part n q' (u'.filter (fun x => !g.contains x)) with
          | none => rfl
          | some r => rw [h1, h2] at this; simp at this
        | some r =>
          cases h2 : coverLoop part n q' (u'.filter (fun x => !g.contains x)) with
          | none => rw [h1, h2] at this; simp at this
          | some r' =>
            rw [h1, h2] at this
            simp only [Option.map_some, Option.some.injEq] at this
            simp only [Option.map_some, Option.some.injEq, List.cons.injEq, true_and]
            exact this
    · rfl

theorem chosen_fst (part : Bool) (gs : List (List α)) (u u' : List α) {negative negative' : List α} (hn : negative ~ negative') : (chosen part gs u negative).map (·.1) = (chosen part gs u' negative').map (·.1) := by
  unfold chosen
  rw [removeNegative_perm hn]
  cases mkQueue (removeNegative gs negative') with
  | none => rfl
  | some q => exact coverLoop_fst part _ q u u'

theorem collect_perm (gs : List (List α)) {atoms atoms' : List α} (h : atoms ~ atoms') : collectMutexGroups gs atoms ~ collectMutexGroups gs atoms' := by
  unfold collectMutexGroups
  refine List.Perm.append_left _ (List.Perm.map _ ?_)
  induction gs generalizing atoms atoms' with
  | nil => exact h
  | cons g gs ih => exact ih (h.filter _)

theorem index_unique {γ : Type} [BEq γ] [LawfulBEq γ] : ∀ (l : List γ) (a : γ), l.count a ≤ 1 → ∀ (v w : Nat), l[v]? = some a → l[w]? = some a → w = v
  | [], _, _, v, _, hv, _ => by simp at hv
  | x :: l, a, h, v, w, hv, hw => by
    by_cases hx : x = a
    · subst hx
      rw [List.count_cons_self] at h
      have h0 : x ∉ l := List.count_eq_zero.mp (by omega)
      cases v with
      | zero =>
        cases w with
        | zero => rfl
        | succ w => exact absurd (List.mem_of_getElem? (by simpa using hw)) h0
      | succ v => exact absurd (List.mem_of_getElem? (by simpa using hv)) h0
    · rw [List.count_cons_of_ne hx] at h
      cases v with
      | zero => simp at hv; exact absurd hv hx
      | succ v =>
        cases w with
        | zero => simp at hw; exact absurd hw hx
        | succ w => rw [index_unique l a h v w (by simpa using hv) (by simpa using hw)]
end

section
variable {α : Type} [LinearOrder α]

theorem mem_sortGroups {gs : List (List α)} {g : List α} : g ∈ sortGroups gs ↔ ∃ g0 ∈ gs, g0.insertionSort (· ≤ ·) = g := by
  unfold sortGroups
  rw [List.mem_insertionSort, List.mem_map]

theorem sortGroups_perm (gs : List (List α)) : (sortGroups gs) ~ (gs.map (fun g => g.insertionSort (· ≤ ·))) := List.perm_insertionSort _ _

theorem sortGroups_flatten (gs : List (List α)) : (sortGroups gs).flatten ~ gs.flatten := by
  refine (sortGroups_perm gs).flatten.trans ?_
  induction gs with
  | nil => simp
  | cons g gs ih =>
    simp only [List.map_cons, List.flatten_cons]
    exact (List.perm_insertionSort _ _).append ih

theorem sortGroups_congr {gs gs' : List (List α)} (h : gs ~ gs') : sortGroups gs = sortGroups gs' := by
  unfold sortGroups
  refine List.Perm.eq_of_pairwise' (r := (· ≤ ·)) (List.pairwise_insertionSort _ _) (List.pairwise_insertionSort _ _) ?_
  exact ((List.perm_insertionSort _ _).trans (h.map _)).trans (List.perm_insertionSort _ _).symm
end

end Verif.FactGroups
