import Verif.Model.OpenListLeaf
import Mathlib.Data.List.Basic
import Mathlib.Data.List.Perm.Basic

namespace Verif.OpenList

variable {K E : Type} [LinearOrder K]

/-- the container holds the entries `l`, listed in order of insertion -/
structure BF.Rep (s : BF K E) (l : List (K × E)) : Prop where
  size : s.size = l.length
  sorted : s.buckets.Pairwise (fun a b => a.1 < b.1)
  bucket : ∀ p ∈ s.buckets, p.2 ≠ [] ∧ p.2 = (l.filter (fun x => x.1 = p.1)).map (·.2)
  cover : ∀ x ∈ l, ∃ p ∈ s.buckets, p.1 = x.1

theorem BF.rep_new : (BF.new : BF K E).Rep [] := ⟨rfl, by simp [BF.new], by simp [BF.new], by simp⟩

theorem mapPush_mem (k : K) (e : E) : ∀ (m : List (K × List E)), m.Pairwise (fun a b => a.1 < b.1) →
    (mapPush k e m).Pairwise (fun a b => a.1 < b.1) ∧
    (∀ p, p ∈ mapPush k e m ↔ (p ∈ m ∧ p.1 ≠ k) ∨ (∃ b, (k, b) ∈ m ∧ p = (k, b ++ [e])) ∨ ((∀ b, (k, b) ∉ m) ∧ p = (k, [e])))
  | [], _ => by simp [mapPush]
  | (k', b) :: m, h => by
    rw [List.pairwise_cons] at h
    obtain ⟨h1, h2⟩ := h
    unfold mapPush
    split
    · rename_i hlt
      have hnot : ∀ b', (k, b') ∉ (k', b) :: m := by
        intro b' hb
        rcases List.mem_cons.mp hb with h3 | h3
        · simp only [Prod.mk.injEq] at h3; exact absurd h3.1 (ne_of_lt hlt)
        · exact absurd (h1 _ h3) (not_lt_of_gt hlt)
      have hne : ∀ p ∈ (k', b) :: m, p.1 ≠ k := by
        intro p hp hpk
        exact hnot p.2 (by rw [← hpk]; exact hp)
      constructor
      · rw [List.pairwise_cons]
        refine ⟨?_, List.pairwise_cons.mpr ⟨h1, h2⟩⟩
        intro p hp
        rcases List.mem_cons.mp hp with rfl | hp
        · exact hlt
        · exact lt_trans hlt (h1 p hp)
      · intro p
        constructor
        · intro hp
          rcases List.mem_cons.mp hp with rfl | hp
          · exact Or.inr (Or.inr ⟨hnot, rfl⟩)
          · exact Or.inl ⟨hp, hne p hp⟩
        · rintro (⟨hp, _⟩ | ⟨b', hb, _⟩ | ⟨_, rfl⟩)
          · exact List.mem_cons_of_mem _ hp
          · exact absurd hb (hnot b')
          · exact List.mem_cons_self
    · split
      · rename_i hnlt hlt
        obtain ⟨i1, i2⟩ := mapPush_mem k e m h2
        constructor
        · rw [List.pairwise_cons]
          refine ⟨?_, i1⟩
          intro p hp
          rcases (i2 p).1 hp with ⟨hp, _⟩ | ⟨b', hb, rfl⟩ | ⟨_, rfl⟩
          · exact h1 p hp
          · exact hlt
          · exact hlt
        · intro p
          have hk' : k' ≠ k := ne_of_lt hlt
          rw [List.mem_cons, i2]
          simp only [List.mem_cons, Prod.mk.injEq]
          constructor
          · rintro (rfl | ⟨hp, hpk⟩ | ⟨b', hb, rfl⟩ | ⟨hn, rfl⟩)
            · exact Or.inl ⟨Or.inl rfl, hk'⟩
            · exact Or.inl ⟨Or.inr hp, hpk⟩
            · exact Or.inr (Or.inl ⟨b', Or.inr hb, rfl⟩)
            · refine Or.inr (Or.inr ⟨?_, rfl⟩)
              rintro b' (⟨h3, _⟩ | h3)
              · exact hk' h3.symm
              · exact hn b' h3
          · rintro (⟨rfl | hp, hpk⟩ | ⟨b', ⟨h3, _⟩ | hb, rfl⟩ | ⟨hn, rfl⟩)
            · exact Or.inl rfl
            · exact Or.inr (Or.inl ⟨hp, hpk⟩)
            · exact absurd h3.symm hk'
            · exact Or.inr (Or.inr (Or.inl ⟨b', hb, rfl⟩))
            · exact Or.inr (Or.inr (Or.inr ⟨fun b' hb => hn b' (Or.inr hb), rfl⟩))
      · rename_i hn1 hn2
        have hk' : k' = k := le_antisymm (not_lt.mp hn1) (not_lt.mp hn2)
        subst hk'
        constructor
        · rw [List.pairwise_cons]; exact ⟨h1, h2⟩
        · intro p
          simp only [List.mem_cons, Prod.mk.injEq]
          constructor
          · rintro (rfl | hp)
            · exact Or.inr (Or.inl ⟨b, Or.inl (by simp), rfl⟩)
            · exact Or.inl ⟨Or.inr hp, ne_of_gt (h1 p hp)⟩
          · rintro (⟨rfl | hp, hpk⟩ | ⟨b', ⟨_, rfl⟩ | hb, rfl⟩ | ⟨hn, rfl⟩)
            · exact absurd rfl hpk
            · exact Or.inr hp
            · exact Or.inl rfl
            · exact absurd (h1 _ hb) (lt_irrefl _)
            · exact absurd (Or.inl (by simp)) (hn b)

theorem BF.insert_rep {s : BF K E} {l : List (K × E)} (h : s.Rep l) (k : K) (e : E) : (s.insert k e).Rep (l ++ [(k, e)]) := by
  obtain ⟨i1, i2⟩ := mapPush_mem k e s.buckets h.sorted
  refine ⟨by simp [BF.insert, h.size], i1, ?_, ?_⟩
  · intro p hp
    rw [BF.insert] at hp
    rcases (i2 p).1 hp with ⟨hp, hpk⟩ | ⟨b, hb, rfl⟩ | ⟨hn, rfl⟩
    · obtain ⟨h1, h2⟩ := h.bucket p hp
      refine ⟨h1, ?_⟩
      rw [List.filter_append, List.map_append, ← h2]
      simp [Ne.symm hpk]
    · obtain ⟨h1, h2⟩ := h.bucket _ hb
      refine ⟨by simp, ?_⟩
      simp only at h2 ⊢
      rw [List.filter_append, List.map_append, ← h2]
      simp
    · refine ⟨by simp, ?_⟩
      have : l.filter (fun x => x.1 = k) = [] := by
        rw [List.filter_eq_nil_iff]
        intro x hx hxk
        obtain ⟨p, hp, hpx⟩ := h.cover x hx
        have : x.1 = k := by simpa using hxk
        exact hn p.2 (by rw [← this, ← hpx]; exact hp)
      simp [List.filter_append, this]
  · intro x hx
    simp only [BF.insert]
    rcases List.mem_append.mp hx with hx | hx
    · obtain ⟨p, hp, hpx⟩ := h.cover x hx
      by_cases hk : p.1 = k
      · exact ⟨(k, p.2 ++ [e]), (i2 _).2 (Or.inr (Or.inl ⟨p.2, by rw [← hk]; exact hp, rfl⟩)), by rw [← hpx, hk]⟩
      · exact ⟨p, (i2 p).2 (Or.inl ⟨hp, hk⟩), hpx⟩
    · simp at hx
      subst hx
      by_cases hk : ∃ b, (k, b) ∈ s.buckets
      · obtain ⟨b, hb⟩ := hk
        exact ⟨(k, b ++ [e]), (i2 _).2 (Or.inr (Or.inl ⟨b, hb, rfl⟩)), rfl⟩
      · exact ⟨(k, [e]), (i2 _).2 (Or.inr (Or.inr ⟨by simpa using hk, rfl⟩)), rfl⟩

theorem BF.removeMin_rep {s : BF K E} {l : List (K × E)} (h : s.Rep l) (hne : l ≠ []) :
    ∃ k e s' l1 l2, s.removeMin = some (e, s') ∧ l = l1 ++ (k, e) :: l2 ∧ (∀ x ∈ l1, k < x.1) ∧ (∀ x ∈ l2, k ≤ x.1) ∧ s'.Rep (l1 ++ l2) := by
  obtain ⟨x, hx⟩ := List.exists_mem_of_ne_nil _ hne
  obtain ⟨p0, hp0, _⟩ := h.cover x hx
  cases hb : s.buckets with
  | nil => rw [hb] at hp0; simp at hp0
  | cons p m =>
    obtain ⟨k, b⟩ := p
    have hs := h.sorted
    rw [hb, List.pairwise_cons] at hs
    obtain ⟨hbne, hbeq⟩ := h.bucket (k, b) (by rw [hb]; simp)
    simp only at hbne hbeq
    cases b with
    | nil => simp at hbne
    | cons e b =>
      cases hf : l.filter (fun x => x.1 = k) with
      | nil => rw [hf] at hbeq; simp at hbeq
      | cons y ys =>
        rw [hf] at hbeq
        simp only [List.map_cons, List.cons.injEq] at hbeq
        obtain ⟨l1, l2, hl, hl1, hyk, hl2⟩ := List.filter_eq_cons_iff.mp hf
        have hyk : y.1 = k := by simpa using hyk
        have hy : y = (k, e) := by rw [← hyk, hbeq.1]
        subst hy
        have hmin : ∀ x ∈ l, k ≤ x.1 := by
          intro x hx
          obtain ⟨p, hp, hpx⟩ := h.cover x hx
          rw [hb] at hp
          rcases List.mem_cons.mp hp with rfl | hp
          · exact le_of_eq hpx
          · rw [← hpx]; exact le_of_lt (hs.1 p hp)
        have hfl : ∀ k', (l1 ++ l2).filter (fun x => x.1 = k') = if k' = k then ys else l.filter (fun x => x.1 = k') := by
          intro k'
          rw [List.filter_append]
          split
          · rename_i hk; subst hk
            rw [List.filter_eq_nil_iff.mpr (by intro x hx; simpa using hl1 x hx), hl2]; simp
          · rename_i hk
            rw [hl, List.filter_append, List.filter_cons]
            simp [Ne.symm hk]
        refine ⟨k, e, { buckets := if b.isEmpty then m else (k, b) :: m, size := s.size - 1 }, l1, l2, ?_, hl, ?_, ?_, ?_⟩
        · unfold BF.removeMin; rw [hb]
        · intro x hx
          have h1 := hmin x (by rw [hl]; simp [hx])
          have h2 : x.1 ≠ k := by simpa using hl1 x hx
          exact lt_of_le_of_ne h1 (Ne.symm h2)
        · intro x hx; exact hmin x (by rw [hl]; simp [hx])
        · refine ⟨?_, ?_, ?_, ?_⟩
          · simp only [h.size, hl, List.length_append, List.length_cons]; omega
          · simp only; split
            · exact hs.2
            · exact List.pairwise_cons.mpr hs
          · intro p hp
            simp only at hp
            have hpm : p ∈ m → p.2 ≠ [] ∧ p.2 = ((l1 ++ l2).filter (fun x => x.1 = p.1)).map (·.2) := by
              intro hpm
              obtain ⟨h1, h2⟩ := h.bucket p (by rw [hb]; simp [hpm])
              refine ⟨h1, ?_⟩
              rw [hfl, if_neg (ne_of_gt (hs.1 p hpm))]
              exact h2
            split at hp
            · exact hpm hp
            · rename_i hbe
              rcases List.mem_cons.mp hp with rfl | hp
              · refine ⟨by simpa using hbe, ?_⟩
                simp only
                rw [hfl, if_pos rfl]; exact hbeq.2
              · exact hpm hp
          · intro x hx
            have hxl : x ∈ l := by rw [hl]; simp only [List.mem_append, List.mem_cons] at hx ⊢; tauto
            obtain ⟨p, hp, hpx⟩ := h.cover x hxl
            rw [hb] at hp
            simp only
            rcases List.mem_cons.mp hp with rfl | hp
            · simp only at hpx
              have : x ∈ (l1 ++ l2).filter (fun x => x.1 = k) := by rw [List.mem_filter]; exact ⟨hx, by simp [hpx]⟩
              rw [hfl, if_pos rfl] at this
              have hbn : b.isEmpty = false := by
                rw [hbeq.2]
                cases ys with
                | nil => simp at this
                | cons _ _ => rfl
              rw [hbn]
              exact ⟨(k, b), by simp, hpx⟩
            · refine ⟨p, ?_, hpx⟩
              split
              · exact hp
              · simp [hp]

theorem BF.empty_rep {s : BF K E} {l : List (K × E)} (h : s.Rep l) : s.empty = true ↔ l = [] := by
  simp only [BF.empty, beq_iff_eq, h.size]
  rw [← List.length_eq_zero_iff]; omega

end Verif.OpenList
