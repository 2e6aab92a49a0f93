import Verif.Model.OpenListLeaf
import Mathlib.Data.List.Basic
import Mathlib.Data.List.Lex
import Mathlib.Data.List.Perm.Basic

namespace Verif.OpenList

variable {E : Type}

/-- specification of dominance: nowhere larger, and different -/
def Dominates (a b : List Int) : Prop := List.Forall₂ (· ≤ ·) a b ∧ a ≠ b

theorem dominatesLoop_iff : ∀ (d : Bool) (a b : List Int), a.length = b.length →
    (dominatesLoop d a b = true ↔ List.Forall₂ (· ≤ ·) a b ∧ (d = true ∨ a ≠ b))
  | d, [], [], _ => by simp [dominatesLoop]
  | d, [], _ :: _, h => by simp at h
  | d, _ :: _, [], h => by simp at h
  | d, a :: as, b :: bs, h => by
    unfold dominatesLoop
    split
    · rename_i hab
      simp only [Bool.false_eq_true, List.forall₂_cons, false_iff]
      rintro ⟨⟨h1, _⟩, _⟩; omega
    · rename_i hab
      rw [dominatesLoop_iff _ as bs (by simpa using h)]
      simp only [List.forall₂_cons, Bool.or_eq_true, decide_eq_true_eq, ne_eq, List.cons.injEq, not_and_or]
      constructor
      · rintro ⟨h1, (h2 | h2) | h2⟩
        · exact ⟨⟨by omega, h1⟩, Or.inl h2⟩
        · exact ⟨⟨by omega, h1⟩, Or.inr (Or.inl (by omega))⟩
        · exact ⟨⟨by omega, h1⟩, Or.inr (Or.inr h2)⟩
      · rintro ⟨⟨h0, h1⟩, h2 | h2 | h2⟩
        · exact ⟨h1, Or.inl (Or.inl h2)⟩
        · exact ⟨h1, Or.inl (Or.inr (by omega))⟩
        · exact ⟨h1, Or.inr h2⟩

theorem dominates_iff {a b : List Int} (h : a.length = b.length) : dominates a b = true ↔ Dominates a b := by
  unfold dominates Dominates
  rw [dominatesLoop_iff _ _ _ h]; simp

theorem Dominates.trans {a b c : List Int} (h1 : Dominates a b) (h2 : Dominates b c) : Dominates a c := by
  refine ⟨?_, ?_⟩
  · have h1 := h1.1
    have h2 := h2.1
    clear * - h1 h2
    induction h1 generalizing c with
    | nil => exact h2
    | cons hab _ ih => cases h2 with
      | cons hbc hr => exact .cons (Int.le_trans hab hbc) (ih hr)
  · rintro rfl
    apply h1.2
    have h1 := h1.1
    have h2 := h2.1
    clear * - h1 h2
    induction h1 with
    | nil => rfl
    | cons hab _ ih => cases h2 with
      | cons hba hr => rw [Int.le_antisymm hab hba, ih hr]

theorem Dominates.sum_lt {a b : List Int} (h : Dominates a b) : a.sum < b.sum := by
  obtain ⟨h1, h2⟩ := h
  have hle : ∀ {a b : List Int}, List.Forall₂ (· ≤ ·) a b → a.sum ≤ b.sum := by
    intro a b h
    induction h with
    | nil => simp
    | cons hab _ ih => simp only [List.sum_cons]; omega
  induction h1 with
  | nil => exact absurd rfl h2
  | @cons x y as bs hab hr ih =>
    simp only [List.sum_cons]
    by_cases hxy : x = y
    · subst hxy
      have := ih (fun e => h2 (by rw [e])); omega
    · have := hle hr; omega

theorem dominates_self (a : List Int) : dominates a a = false := by
  rw [← Bool.not_eq_true, dominates_iff rfl]
  exact fun h => h.2 rfl

theorem isNondominated_iff {d : Nat} {v : List Int} {c : List (List Int)} (hv : v.length = d) (hc : ∀ k ∈ c, k.length = d) :
    isNondominated v c = true ↔ ∀ k ∈ c, ¬ Dominates k v := by
  unfold isNondominated
  rw [List.all_eq_true]
  constructor
  · intro h k hk hd
    have := h k hk
    rw [(dominates_iff (by rw [hc k hk, hv])).2 hd] at this
    simp at this
  · intro h k hk
    simp only [Bool.not_eq_true']
    rw [← Bool.not_eq_true, dominates_iff (by rw [hc k hk, hv])]
    exact h k hk

theorem mem_setInsert (k x : List Int) : ∀ (m : List (List Int)), x ∈ setInsert k m ↔ x = k ∨ x ∈ m
  | [] => by simp [setInsert]
  | k' :: m => by
    unfold setInsert
    split
    · simp
    · split
      · rw [List.mem_cons, mem_setInsert k x m, List.mem_cons]; tauto
      · rename_i h1 h2
        have : k' = k := le_antisymm (not_lt.mp h1) (not_lt.mp h2)
        subst this
        simp

theorem mem_foldl_setInsert {α : Type} (f : α → List Int) (x : List Int) : ∀ (l : List α) (m : List (List Int)),
    x ∈ l.foldl (fun c p => setInsert (f p) c) m ↔ x ∈ m ∨ ∃ p ∈ l, f p = x
  | [], m => by simp
  | p :: l, m => by
    rw [List.foldl_cons, mem_foldl_setInsert f x l, mem_setInsert]
    simp only [List.mem_cons, exists_eq_or_imp]
    constructor
    · rintro ((h | h) | h)
      · exact Or.inr (Or.inl h.symm)
      · exact Or.inl h
      · exact Or.inr (Or.inr h)
    · rintro (h | h | h)
      · exact Or.inl (Or.inr h)
      · exact Or.inl (Or.inl h.symm)
      · exact Or.inr h

/-- the container holds the entries `l` (in order of insertion); `d` is the number of
evaluators -/
structure Pareto.Rep (d : Nat) (s : Pareto E) (l : List (List Int × E)) : Prop where
  len : ∀ x ∈ l, x.1.length = d
  nodup : (s.buckets.map (·.1)).Nodup
  bucket : ∀ p ∈ s.buckets, p.2 ≠ [] ∧ p.2 = (l.filter (fun x => x.1 = p.1)).map (·.2)
  cover : ∀ x ∈ l, ∃ p ∈ s.buckets, p.1 = x.1
  nd : ∀ k, k ∈ s.nondominated ↔ (∃ x ∈ l, x.1 = k) ∧ ∀ x ∈ l, ¬ Dominates x.1 k

theorem Pareto.rep_new (d : Nat) : (Pareto.new : Pareto E).Rep d [] :=
  ⟨by simp, by simp [Pareto.new], by simp [Pareto.new], by simp, by simp [Pareto.new]⟩

theorem Pareto.Rep.key_iff {d : Nat} {s : Pareto E} {l : List (List Int × E)} (h : s.Rep d l) (k : List Int) :
    (∃ p ∈ s.buckets, p.1 = k) ↔ ∃ x ∈ l, x.1 = k := by
  constructor
  · rintro ⟨p, hp, rfl⟩
    obtain ⟨h1, h2⟩ := h.bucket p hp
    rw [h2] at h1
    obtain ⟨y, hy⟩ := List.exists_mem_of_ne_nil _ h1
    obtain ⟨x, hx, _⟩ := List.mem_map.mp hy
    rw [List.mem_filter] at hx
    exact ⟨x, hx.1, by simpa using hx.2⟩
  · rintro ⟨x, hx, rfl⟩
    exact h.cover x hx

/-- below every entry there is a non-dominated one -/
theorem exists_min (l : List (List Int × E)) (x : List Int × E) (hx : x ∈ l) (_hlen : ∀ y ∈ l, y.1.length = x.1.length) :
    ∃ y ∈ l, (y.1 = x.1 ∨ Dominates y.1 x.1) ∧ ∀ z ∈ l, ¬ Dominates z.1 y.1 := by
  classical
  -- choose an entry with minimal sum among those at or below x
  have : ∀ (n : Nat) (x : List Int × E), x ∈ l → (l.filter (fun z => decide (z.1.sum < x.1.sum))).length ≤ n →
      ∃ y ∈ l, (y.1 = x.1 ∨ Dominates y.1 x.1) ∧ ∀ z ∈ l, ¬ Dominates z.1 y.1 := by
    intro n
    induction n with
    | zero =>
      intro x hx hn
      refine ⟨x, hx, Or.inl rfl, ?_⟩
      intro z hz hd
      have : z ∈ l.filter (fun z => decide (z.1.sum < x.1.sum)) := by rw [List.mem_filter]; exact ⟨hz, by simpa using hd.sum_lt⟩
      have := List.length_pos_of_mem this
      omega
    | succ n ih =>
      intro x hx hn
      by_cases hmin : ∀ z ∈ l, ¬ Dominates z.1 x.1
      · exact ⟨x, hx, Or.inl rfl, hmin⟩
      · push Not at hmin
        obtain ⟨z, hz, hd⟩ := hmin
        obtain ⟨y, hy, h1, h2⟩ := ih z hz (by
          have hlt : (l.filter (fun y => decide (y.1.sum < z.1.sum))).length < (l.filter (fun y => decide (y.1.sum < x.1.sum))).length := by
            have hs := hd.sum_lt
            have : l.filter (fun y => decide (y.1.sum < z.1.sum)) = (l.filter (fun y => decide (y.1.sum < x.1.sum))).filter (fun y => decide (y.1.sum < z.1.sum)) := by
              rw [List.filter_filter]
              apply List.filter_congr
              intro y _
              simp only [Bool.and_eq_decide, decide_eq_true_eq]
              apply decide_eq_decide.mpr
              omega
            rw [this, List.length_filter_lt_length_iff_exists]
            refine ⟨z, ?_, ?_⟩
            · rw [List.mem_filter]; exact ⟨hz, by simpa using hs⟩
            · simp
          omega)
        refine ⟨y, hy, Or.inr ?_, h2⟩
        rcases h1 with h1 | h1
        · rw [h1]; exact hd
        · exact h1.trans hd
  exact this _ x hx (Nat.le_refl _)

theorem hmPush_spec (k : List Int) (e : E) : ∀ (m : List (List Int × List E)), (m.map (·.1)).Nodup → (∀ p ∈ m, p.2 ≠ []) →
    ((hmPush k e m).1.map (·.1)).Nodup ∧ ((hmPush k e m).2 = true ↔ ∀ p ∈ m, p.1 ≠ k) ∧
    ∀ p, p ∈ (hmPush k e m).1 ↔ (p ∈ m ∧ p.1 ≠ k) ∨ (∃ b, (k, b) ∈ m ∧ p = (k, b ++ [e])) ∨ ((∀ q ∈ m, q.1 ≠ k) ∧ p = (k, [e]))
  | [], _, _ => by simp [hmPush]
  | (k', b) :: m, hn, hne => by
    rw [List.map_cons, List.nodup_cons] at hn
    unfold hmPush
    split
    · rename_i hk
      subst hk
      refine ⟨by simpa using hn, ?_, ?_⟩
      · have := hne (k', b) (by simp)
        simp only at this
        simp [this]
      · intro p
        have hnot : ∀ q ∈ m, q.1 ≠ k' := fun q hq he => hn.1 (List.mem_map.mpr ⟨q, hq, he⟩)
        simp only [List.mem_cons, Prod.mk.injEq]
        constructor
        · rintro (rfl | hp)
          · exact Or.inr (Or.inl ⟨b, Or.inl (by simp), rfl⟩)
          · exact Or.inl ⟨Or.inr hp, hnot p hp⟩
        · rintro (⟨rfl | hp, hpk⟩ | ⟨b', ⟨_, rfl⟩ | hb, rfl⟩ | ⟨hq, rfl⟩)
          · exact absurd rfl hpk
          · exact Or.inr hp
          · exact Or.inl rfl
          · exact absurd rfl (hnot _ hb)
          · exact absurd rfl (hq (k', b) (Or.inl rfl))
    · rename_i hk
      obtain ⟨i1, i2, i3⟩ := hmPush_spec k e m hn.2 (fun p hp => hne p (by simp [hp]))
      refine ⟨?_, ?_, ?_⟩
      · rw [List.map_cons, List.nodup_cons]
        refine ⟨?_, i1⟩
        intro hmem
        obtain ⟨p, hp, hpk⟩ := List.mem_map.mp hmem
        simp only at hpk
        rcases (i3 p).1 hp with ⟨hp, _⟩ | ⟨b', hb, rfl⟩ | ⟨_, rfl⟩
        · exact hn.1 (by simp only; rw [← hpk]; exact List.mem_map_of_mem hp)
        · exact hk hpk.symm
        · exact hk hpk.symm
      · simp only [i2, List.forall_mem_cons]
        exact ⟨fun h => ⟨hk, h⟩, fun h => h.2⟩
      · intro p
        simp only [List.mem_cons, i3, Prod.mk.injEq]
        constructor
        · rintro (rfl | ⟨hp, hpk⟩ | ⟨b', hb, rfl⟩ | ⟨hq, rfl⟩)
          · exact Or.inl ⟨Or.inl rfl, hk⟩
          · exact Or.inl ⟨Or.inr hp, hpk⟩
          · exact Or.inr (Or.inl ⟨b', Or.inr hb, rfl⟩)
          · refine Or.inr (Or.inr ⟨?_, rfl⟩)
            rintro q (rfl | h)
            · exact hk
            · exact hq q h
        · rintro (⟨rfl | hp, hpk⟩ | ⟨b', ⟨h3, _⟩ | hb, rfl⟩ | ⟨hq, rfl⟩)
          · exact Or.inl rfl
          · exact Or.inr (Or.inl ⟨hp, hpk⟩)
          · exact absurd h3.symm hk
          · exact Or.inr (Or.inr (Or.inl ⟨b', hb, rfl⟩))
          · exact Or.inr (Or.inr (Or.inr ⟨fun q hm => hq q (Or.inr hm), rfl⟩))

theorem Pareto.insert_rep {d : Nat} {s : Pareto E} {l : List (List Int × E)} (h : s.Rep d l) (k : List Int) (e : E) (hk : k.length = d) :
    (s.insert k e).Rep d (l ++ [(k, e)]) := by
  obtain ⟨i1, i2, i3⟩ := hmPush_spec k e s.buckets h.nodup (fun p hp => (h.bucket p hp).1)
  have hlen : ∀ x ∈ l ++ [(k, e)], x.1.length = d := by
    intro x hx
    rcases List.mem_append.mp hx with hx | hx
    · exact h.len x hx
    · simp at hx; subst hx; exact hk
  have hndlen : ∀ k' ∈ s.nondominated, k'.length = d := by
    intro k' hk'
    obtain ⟨⟨x, hx, rfl⟩, _⟩ := (h.nd k').1 hk'
    exact h.len x hx
  have hnew : (hmPush k e s.buckets).2 = true ↔ ∀ x ∈ l, x.1 ≠ k := by
    rw [i2]
    constructor
    · intro hh x hx hxk
      obtain ⟨p, hp, hpx⟩ := h.cover x hx
      exact hh p hp (by rw [hpx, hxk])
    · intro hh p hp hpk
      obtain ⟨x, hx, hxk⟩ := (h.key_iff k).1 ⟨p, hp, hpk⟩
      exact hh x hx hxk
  refine ⟨hlen, ?_, ?_, ?_, ?_⟩
  · exact i1
  · intro p hp
    rcases (i3 p).1 hp with ⟨hp, hpk⟩ | ⟨b, hb, rfl⟩ | ⟨hq, rfl⟩
    · obtain ⟨h1, h2⟩ := h.bucket p hp
      refine ⟨h1, ?_⟩
      rw [List.filter_append, List.map_append, ← h2]
      simp [Ne.symm hpk]
    · obtain ⟨h1, h2⟩ := h.bucket _ hb
      refine ⟨by simp, ?_⟩
      simp only at h2 ⊢
      rw [List.filter_append, List.map_append, ← h2]
      simp
    · refine ⟨by simp, ?_⟩
      have : l.filter (fun x => x.1 = k) = [] := by
        rw [List.filter_eq_nil_iff]
        intro x hx hxk
        obtain ⟨p, hp, hpx⟩ := h.cover x hx
        have : x.1 = k := by simpa using hxk
        exact hq p hp (by rw [hpx, this])
      simp [List.filter_append, this]
  · intro x hx
    show ∃ p ∈ (hmPush k e s.buckets).1, _
    rcases List.mem_append.mp hx with hx | hx
    · obtain ⟨p, hp, hpx⟩ := h.cover x hx
      by_cases hpk : p.1 = k
      · exact ⟨(k, p.2 ++ [e]), (i3 _).2 (Or.inr (Or.inl ⟨p.2, by rw [← hpk]; exact hp, rfl⟩)), by rw [← hpx, hpk]⟩
      · exact ⟨p, (i3 p).2 (Or.inl ⟨hp, hpk⟩), hpx⟩
    · simp at hx
      subst hx
      by_cases hq : ∃ b, (k, b) ∈ s.buckets
      · obtain ⟨b, hb⟩ := hq
        exact ⟨(k, b ++ [e]), (i3 _).2 (Or.inr (Or.inl ⟨b, hb, rfl⟩)), rfl⟩
      · refine ⟨(k, [e]), (i3 _).2 (Or.inr (Or.inr ⟨?_, rfl⟩)), rfl⟩
        intro q hq' hqk
        exact hq ⟨q.2, by rw [← hqk]; exact hq'⟩
  · intro k'
    show k' ∈ (if (hmPush k e s.buckets).2 && isNondominated k s.nondominated then
      setInsert k (s.nondominated.filter (fun k' => !dominates k k')) else s.nondominated) ↔ _
    have hdom : ∀ x ∈ l, ¬ (Dominates x.1 k) ↔ True ∧ ¬ Dominates x.1 k := by simp
    -- not dominated by the front iff not dominated by anything stored
    have hfront : isNondominated k s.nondominated = true ↔ ∀ x ∈ l, ¬ Dominates x.1 k := by
      rw [isNondominated_iff hk hndlen]
      constructor
      · intro hh x hx hd
        obtain ⟨y, hy, h1, h2⟩ := exists_min l x hx (fun y hy => by rw [h.len y hy, h.len x hx])
        refine hh y.1 ((h.nd _).2 ⟨⟨y, hy, rfl⟩, h2⟩) ?_
        rcases h1 with h1 | h1
        · rw [h1]; exact hd
        · exact h1.trans hd
      · intro hh k' hk'
        obtain ⟨⟨x, hx, rfl⟩, _⟩ := (h.nd k').1 hk'
        exact hh x hx
    have hex : (∃ x ∈ l ++ [(k, e)], x.1 = k') ↔ (∃ x ∈ l, x.1 = k') ∨ k = k' := by
      constructor
      · rintro ⟨x, hx, hxk⟩
        rcases List.mem_append.mp hx with hx | hx
        · exact Or.inl ⟨x, hx, hxk⟩
        · simp at hx; subst hx; exact Or.inr hxk
      · rintro (⟨x, hx, hxk⟩ | rfl)
        · exact ⟨x, by simp [hx], hxk⟩
        · exact ⟨(k, e), by simp, rfl⟩
    have hall : (∀ x ∈ l ++ [(k, e)], ¬ Dominates x.1 k') ↔ (∀ x ∈ l, ¬ Dominates x.1 k') ∧ ¬ Dominates k k' := by
      constructor
      · intro hh; exact ⟨fun x hx => hh x (by simp [hx]), hh (k, e) (by simp)⟩
      · rintro ⟨h1, h2⟩ x hx
        rcases List.mem_append.mp hx with hx | hx
        · exact h1 x hx
        · simp at hx; subst hx; exact h2
    rw [hex, hall]
    have hirr : ¬ Dominates k k := fun hd => hd.2 rfl
    split
    · rename_i hc
      rw [Bool.and_eq_true, hnew, hfront] at hc
      rw [mem_setInsert, List.mem_filter]
      constructor
      · rintro (rfl | ⟨h1, h2⟩)
        · exact ⟨Or.inr rfl, hc.2, hirr⟩
        · obtain ⟨h3, h4⟩ := (h.nd k').1 h1
          refine ⟨Or.inl h3, h4, ?_⟩
          rw [Bool.not_eq_true', ← Bool.not_eq_true, dominates_iff (by rw [hk, hndlen k' h1])] at h2
          exact h2
      · rintro ⟨h1 | rfl, h2, h3⟩
        · right
          have hmem := (h.nd k').2 ⟨h1, h2⟩
          refine ⟨hmem, ?_⟩
          rw [Bool.not_eq_true', ← Bool.not_eq_true, dominates_iff (by rw [hk, hndlen k' hmem])]
          exact h3
        · exact Or.inl rfl
    · rename_i hc
      rw [Bool.and_eq_true, hnew, hfront, not_and_or] at hc
      constructor
      · intro hk'
        obtain ⟨h3, h4⟩ := (h.nd k').1 hk'
        refine ⟨Or.inl h3, h4, ?_⟩
        intro hd
        rcases hc with hc | hc
        · push Not at hc
          obtain ⟨x, hx, hxk⟩ := hc
          exact h4 x hx (by rw [hxk]; exact hd)
        · push Not at hc
          obtain ⟨x, hx, hxd⟩ := hc
          exact h4 x hx (hxd.trans hd)
      · rintro ⟨h1 | rfl, h2, h3⟩
        · exact (h.nd k').2 ⟨h1, h2⟩
        · rcases hc with hc | hc
          · push Not at hc
            obtain ⟨x, hx, hxk⟩ := hc
            exact (h.nd k).2 ⟨⟨x, hx, hxk⟩, h2⟩
          · exact absurd h2 hc

theorem selectLoop_mem (u : Bool) : ∀ (keys : List (List Int)) (seen : Nat) (sel : List Int) (g : Rng) (S : List (List Int)),
    (∀ k ∈ keys, k ∈ S ∧ k ≠ []) → sel ∈ S → ∃ k g', selectLoop u keys seen sel g = some (k, g') ∧ k ∈ S
  | [], _, sel, g, S, _, h => ⟨sel, g, rfl, h⟩
  | key :: keys, seen, sel, g, S, hS, h => by
    obtain ⟨h1, h2⟩ := hS key (by simp)
    have hpos : 0 < (if u then key.length else 1) := by
      split
      · exact List.length_pos_iff.mpr h2
      · omega
    unfold selectLoop
    simp only [Rng.random]
    have hne : seen + (if u then key.length else 1) ≠ 0 := by omega
    simp only [hne, if_false, Option.bind_eq_bind, Option.bind_some]
    apply selectLoop_mem u keys _ _ _ S (fun k hk => hS k (by simp [hk]))
    generalize (if u = true then key.length else 1) = w
    split
    · exact h1
    · exact h

theorem Pareto.removeMin_rep {d : Nat} (hd : 0 < d) (u : Bool) {s : Pareto E} {l : List (List Int × E)} (h : s.Rep d l) (hne : l ≠ []) (g : Rng) :
    ∃ k e s' g' l1 l2, s.removeMin u g = some (e, s', g') ∧ l = l1 ++ (k, e) :: l2 ∧ (∀ x ∈ l1, x.1 ≠ k) ∧
      (∀ x ∈ l, ¬ Dominates x.1 k) ∧ s'.Rep d (l1 ++ l2) := by
  obtain ⟨x0, hx0⟩ := List.exists_mem_of_ne_nil _ hne
  obtain ⟨y0, hy0, _, hy02⟩ := exists_min l x0 hx0 (fun y hy => by rw [h.len y hy, h.len x0 hx0])
  have hndmem := (h.nd y0.1).2 ⟨⟨y0, hy0, rfl⟩, hy02⟩
  have hndlen : ∀ k' ∈ s.nondominated, k'.length = d := by
    intro k' hk'
    obtain ⟨⟨x, hx, rfl⟩, _⟩ := (h.nd k').1 hk'
    exact h.len x hx
  cases hnd : s.nondominated with
  | nil => rw [hnd] at hndmem; simp at hndmem
  | cons first rest =>
    obtain ⟨k, g', hsel, hkmem⟩ := selectLoop_mem u s.nondominated 0 first g s.nondominated (by
      intro k hk
      refine ⟨hk, ?_⟩
      rintro rfl
      have := hndlen [] hk
      simp at this
      omega) (by rw [hnd]; simp)
    obtain ⟨hkl, hkd⟩ := (h.nd k).1 hkmem
    have hklen := hndlen k hkmem
    obtain ⟨p, hp, hpk⟩ := (h.key_iff k).2 hkl
    -- the bucket found
    have hfind : s.buckets.find? (fun p => p.1 = k) = some p := by
      rw [List.find?_eq_some_iff_append]
      obtain ⟨as, bs, hs⟩ := List.append_of_mem hp
      refine ⟨by simpa using hpk, as, bs, hs, ?_⟩
      intro a ha
      have hn := h.nodup
      rw [hs, List.map_append, List.map_cons, List.nodup_append] at hn
      have := hn.2.2 a.1 (List.mem_map_of_mem ha) p.1 (by simp)
      rw [hpk] at this
      simpa using this
    obtain ⟨h1, h2⟩ := h.bucket p hp
    obtain ⟨k0, b0⟩ := p
    simp only at hpk h1 h2
    subst hpk
    cases b0 with
    | nil => simp at h1
    | cons e b =>
      cases hf : l.filter (fun x => x.1 = k0) with
      | nil => rw [hf] at h2; simp at h2
      | cons y ys =>
        rw [hf] at h2
        simp only [List.map_cons, List.cons.injEq] at h2
        obtain ⟨l1, l2, hl, hl1, hyk, hl2⟩ := List.filter_eq_cons_iff.mp hf
        have hyk : y.1 = k0 := by simpa using hyk
        have hy : y = (k0, e) := by rw [← hyk, h2.1]
        subst hy
        have hl1' : ∀ x ∈ l1, x.1 ≠ k0 := fun x hx => by simpa using hl1 x hx
        have hfl : ∀ k', (l1 ++ l2).filter (fun x => x.1 = k') = if k' = k0 then ys else l.filter (fun x => x.1 = k') := by
          intro k'
          rw [List.filter_append]
          split
          · rename_i hk; subst hk
            rw [List.filter_eq_nil_iff.mpr (by intro x hx; simpa using hl1 x hx), hl2]; simp
          · rename_i hk
            rw [hl, List.filter_append, List.filter_cons]
            simp [Ne.symm hk]
        have hsubl : ∀ x, x ∈ l1 ++ l2 → x ∈ l := by
          intro x hx; rw [hl]; simp only [List.mem_append, List.mem_cons] at hx ⊢; tauto
        have hlsub : ∀ x ∈ l, x.1 ≠ k0 → x ∈ l1 ++ l2 := by
          intro x hx hxk
          rw [hl] at hx
          simp only [List.mem_append, List.mem_cons] at hx ⊢
          rcases hx with hx | rfl | hx
          · exact Or.inl hx
          · exact absurd rfl hxk
          · exact Or.inr hx
        have hset : ∀ p, p ∈ hmSet k0 b s.buckets ↔ (p ∈ s.buckets ∧ p.1 ≠ k0) ∨ p = (k0, b) := by
          intro q
          unfold hmSet
          rw [List.mem_map]
          constructor
          · rintro ⟨r, hr, rfl⟩
            split
            · exact Or.inr rfl
            · rename_i hrk; exact Or.inl ⟨hr, hrk⟩
          · rintro (⟨hq, hqk⟩ | rfl)
            · exact ⟨q, hq, by rw [if_neg hqk]⟩
            · exact ⟨_, hp, by simp⟩
        have hsetkeys : (hmSet k0 b s.buckets).map (·.1) = s.buckets.map (·.1) := by
          unfold hmSet
          rw [List.map_map]
          apply List.map_congr_left
          intro q _
          simp only [Function.comp]
          split
          · rename_i hq; exact hq.symm
          · rfl
        refine ⟨k0, e, if b.isEmpty then ({ s with buckets := hmSet k0 b s.buckets } : Pareto E).removeKey k0 else { s with buckets := hmSet k0 b s.buckets },
          g', l1, l2, ?_, hl, hl1', hkd, ?_⟩
        · unfold Pareto.removeMin
          rw [hnd]
          simp only [List.head?_cons, Option.bind_eq_bind, Option.bind_some]
          rw [← hnd, hsel]
          simp only [Option.bind_some]
          rw [hfind]
        · by_cases hb : b = []
          · subst hb
            have hysnil : ys = [] := by
              have := h2.2
              simpa using this.symm
            subst hysnil
            have hnok : ∀ x ∈ l1 ++ l2, x.1 ≠ k0 := by
              intro x hx hxk
              have : x ∈ (l1 ++ l2).filter (fun x => x.1 = k0) := by rw [List.mem_filter]; exact ⟨hx, by simpa using hxk⟩
              rw [hfl, if_pos rfl] at this
              simp at this
            simp only [List.isEmpty_nil, if_true, Pareto.removeKey]
            have hbk : ∀ q, q ∈ (hmSet k0 [] s.buckets).filter (fun p => p.1 ≠ k0) ↔ q ∈ s.buckets ∧ q.1 ≠ k0 := by
              intro q
              rw [List.mem_filter, hset]
              simp only [ne_eq, decide_eq_true_eq]
              constructor
              · rintro ⟨h3 | rfl, h4⟩
                · exact h3
                · exact absurd rfl h4
              · rintro ⟨h3, h4⟩; exact ⟨Or.inl ⟨h3, h4⟩, h4⟩
            have hkeys : ∀ k', (∃ q ∈ (hmSet k0 [] s.buckets).filter (fun p => p.1 ≠ k0), q.1 = k') ↔ ∃ x ∈ l1 ++ l2, x.1 = k' := by
              intro k'
              constructor
              · rintro ⟨q, hq, rfl⟩
                rw [hbk] at hq
                obtain ⟨x, hx, hxq⟩ := (h.key_iff q.1).1 ⟨q, hq.1, rfl⟩
                exact ⟨x, hlsub x hx (by rw [hxq]; exact hq.2), hxq⟩
              · rintro ⟨x, hx, rfl⟩
                obtain ⟨q, hq, hqx⟩ := h.cover x (hsubl x hx)
                exact ⟨q, (hbk q).2 ⟨hq, by rw [hqx]; exact hnok x hx⟩, hqx⟩
            refine ⟨fun x hx => h.len x (hsubl x hx), ?_, ?_, ?_, ?_⟩
            · refine List.Nodup.sublist ?_ h.nodup
              rw [← hsetkeys]
              exact (List.filter_sublist).map _
            · intro q hq
              rw [hbk] at hq
              obtain ⟨h3, h4⟩ := h.bucket q hq.1
              refine ⟨h3, ?_⟩
              rw [hfl, if_neg hq.2]; exact h4
            · intro x hx; exact (hkeys x.1).2 ⟨x, hx, rfl⟩
            · intro k'
              -- the front without the removed key
              have hND : ∀ j, j ∈ s.nondominated.filter (· ≠ k0) ↔ (∃ x ∈ l1 ++ l2, x.1 = j) ∧ (∀ x ∈ l, ¬ Dominates x.1 j) := by
                intro j
                rw [List.mem_filter, h.nd]
                simp only [ne_eq, decide_eq_true_eq]
                constructor
                · rintro ⟨⟨⟨x, hx, rfl⟩, h4⟩, h5⟩
                  exact ⟨⟨x, hlsub x hx h5, rfl⟩, h4⟩
                · rintro ⟨⟨x, hx, rfl⟩, h4⟩
                  exact ⟨⟨⟨x, hsubl x hx, rfl⟩, h4⟩, hnok x hx⟩
              have hNDlen : ∀ j ∈ s.nondominated.filter (· ≠ k0), j.length = d := fun j hj => hndlen j (List.mem_of_mem_filter hj)
              have hcand : ∀ c, c ∈ (((hmSet k0 [] s.buckets).filter (fun p => p.1 ≠ k0)).filter (fun p =>
                  !decide (p.1 ∈ s.nondominated.filter (· ≠ k0)) && dominates k0 p.1 && isNondominated p.1 (s.nondominated.filter (· ≠ k0)))).foldl
                    (fun c p => setInsert p.1 c) [] ↔
                  (∃ x ∈ l1 ++ l2, x.1 = c) ∧ c ∉ s.nondominated.filter (· ≠ k0) ∧ Dominates k0 c ∧
                    ∀ j ∈ s.nondominated.filter (· ≠ k0), ¬ Dominates j c := by
                intro c
                rw [mem_foldl_setInsert]
                simp only [List.not_mem_nil, false_or]
                constructor
                · rintro ⟨q, hq, rfl⟩
                  rw [List.mem_filter] at hq
                  obtain ⟨hq1, hq2⟩ := hq
                  have hx := (hkeys q.1).1 ⟨q, hq1, rfl⟩
                  have hqlen : q.1.length = d := by
                    obtain ⟨x, hx, hxq⟩ := hx
                    rw [← hxq]; exact h.len x (hsubl x hx)
                  simp only [Bool.and_eq_true, Bool.not_eq_true', decide_eq_false_iff_not] at hq2
                  refine ⟨hx, hq2.1.1, ?_, ?_⟩
                  · rw [← dominates_iff (by rw [hklen, hqlen])]; exact hq2.1.2
                  · exact (isNondominated_iff hqlen hNDlen).1 hq2.2
                · rintro ⟨hx, h3, h4, h5⟩
                  obtain ⟨q, hq, rfl⟩ := (hkeys c).2 hx
                  have hqlen : q.1.length = d := by
                    obtain ⟨x, hx, hxq⟩ := hx
                    rw [← hxq]; exact h.len x (hsubl x hx)
                  refine ⟨q, ?_, rfl⟩
                  rw [List.mem_filter]
                  refine ⟨hq, ?_⟩
                  simp only [Bool.and_eq_true, Bool.not_eq_true', decide_eq_false_iff_not]
                  exact ⟨⟨h3, (dominates_iff (by rw [hklen, hqlen])).2 h4⟩, (isNondominated_iff hqlen hNDlen).2 h5⟩
              generalize hC : (((hmSet k0 [] s.buckets).filter (fun p => p.1 ≠ k0)).filter (fun p =>
                  !decide (p.1 ∈ s.nondominated.filter (· ≠ k0)) && dominates k0 p.1 && isNondominated p.1 (s.nondominated.filter (· ≠ k0)))).foldl
                    (fun c p => setInsert p.1 c) [] = C at hcand ⊢
              have hClen : ∀ c ∈ C, c.length = d := by
                intro c hc
                obtain ⟨⟨x, hx, rfl⟩, _⟩ := (hcand c).1 hc
                exact h.len x (hsubl x hx)
              rw [mem_foldl_setInsert (fun c : List Int => c)]
              simp only [exists_eq_right, List.mem_filter (as := C)]
              -- a key not dominated by what remains is in the old front or a candidate
              have hfwd : ∀ j, (∃ x ∈ l1 ++ l2, x.1 = j) → (∀ x ∈ l1 ++ l2, ¬ Dominates x.1 j) → j ∈ s.nondominated.filter (· ≠ k0) ∨ j ∈ C := by
                intro j hj hjd
                by_cases hin : j ∈ s.nondominated.filter (· ≠ k0)
                · exact Or.inl hin
                · right
                  rw [hcand]
                  refine ⟨hj, hin, ?_, ?_⟩
                  · by_contra hnd'
                    apply hin
                    rw [hND]
                    refine ⟨hj, ?_⟩
                    intro x hx hxd
                    by_cases hxk : x.1 = k0
                    · rw [hxk] at hxd; exact hnd' hxd
                    · exact hjd x (hlsub x hx hxk) hxd
                  · intro j' hj' hd'
                    obtain ⟨⟨x, hx, rfl⟩, _⟩ := (hND j').1 hj'
                    exact hjd x hx hd'
              constructor
              · rintro (hk' | ⟨hc, hcn⟩)
                · obtain ⟨h3, h4⟩ := (hND k').1 hk'
                  exact ⟨h3, fun x hx => h4 x (hsubl x hx)⟩
                · obtain ⟨h3, h4, h5, h6⟩ := (hcand k').1 hc
                  refine ⟨h3, ?_⟩
                  intro x hx hxd
                  obtain ⟨y, hy, hy1, hy2⟩ := exists_min (l1 ++ l2) x hx (fun y hy => by rw [h.len y (hsubl y hy), h.len x (hsubl x hx)])
                  have hyd : Dominates y.1 k' := by
                    rcases hy1 with hy1 | hy1
                    · rw [hy1]; exact hxd
                    · exact hy1.trans hxd
                  rcases hfwd y.1 ⟨y, hy, rfl⟩ hy2 with h7 | h7
                  · exact h6 y.1 h7 hyd
                  · exact (isNondominated_iff (hClen k' hc) hClen).1 hcn y.1 h7 hyd
              · rintro ⟨h3, h4⟩
                rcases hfwd k' h3 h4 with h5 | h5
                · exact Or.inl h5
                · right
                  refine ⟨h5, (isNondominated_iff (hClen k' h5) hClen).2 ?_⟩
                  intro c hc hcd
                  obtain ⟨⟨x, hx, rfl⟩, _⟩ := (hcand c).1 hc
                  exact h4 x hx hcd
          · have hbe : b.isEmpty = false := by simpa using hb
            rw [hbe]
            simp only [Bool.false_eq_true, if_false]
            have hyin : ∃ x ∈ l1 ++ l2, x.1 = k0 := by
              have hys : ys ≠ [] := by
                rintro rfl
                have := h2.2
                simp at this
                exact hb this
              obtain ⟨y, hy⟩ := List.exists_mem_of_ne_nil _ hys
              have : y ∈ (l1 ++ l2).filter (fun x => x.1 = k0) := by rw [hfl, if_pos rfl]; exact hy
              rw [List.mem_filter] at this
              exact ⟨y, this.1, by simpa using this.2⟩
            have hexk : ∀ j, (∃ x ∈ l1 ++ l2, x.1 = j) ↔ ∃ x ∈ l, x.1 = j := by
              intro j
              constructor
              · rintro ⟨x, hx, rfl⟩; exact ⟨x, hsubl x hx, rfl⟩
              · rintro ⟨x, hx, rfl⟩
                by_cases hxk : x.1 = k0
                · rw [hxk]; exact hyin
                · exact ⟨x, hlsub x hx hxk, rfl⟩
            refine ⟨fun x hx => h.len x (hsubl x hx), by simp only [hsetkeys]; exact h.nodup, ?_, ?_, ?_⟩
            · intro q hq
              rcases (hset q).1 hq with ⟨hq, hqk⟩ | rfl
              · obtain ⟨h3, h4⟩ := h.bucket q hq
                refine ⟨h3, ?_⟩
                rw [hfl, if_neg hqk]; exact h4
              · refine ⟨hb, ?_⟩
                simp only
                rw [hfl, if_pos rfl]; exact h2.2
            · intro x hx
              obtain ⟨q, hq, hqx⟩ := h.cover x (hsubl x hx)
              by_cases hqk : q.1 = k0
              · exact ⟨(k0, b), (hset _).2 (Or.inr rfl), by rw [← hqx, hqk]⟩
              · exact ⟨q, (hset _).2 (Or.inl ⟨hq, hqk⟩), hqx⟩
            · intro j
              show j ∈ s.nondominated ↔ _
              rw [h.nd, hexk]
              refine and_congr_right fun _ => ?_
              constructor
              · intro hh x hx; exact hh x (hsubl x hx)
              · intro hh x hx hd'
                obtain ⟨x', hx', he⟩ := (hexk x.1).2 ⟨x, hx, rfl⟩
                exact hh x' hx' (by rw [he]; exact hd')

theorem Pareto.empty_rep {d : Nat} {s : Pareto E} {l : List (List Int × E)} (h : s.Rep d l) : s.empty = true ↔ l = [] := by
  unfold Pareto.empty
  rw [List.isEmpty_iff]
  constructor
  · intro hn
    by_contra hne
    obtain ⟨x, hx⟩ := List.exists_mem_of_ne_nil _ hne
    obtain ⟨y, hy, _, h2⟩ := exists_min l x hx (fun y hy => by rw [h.len y hy, h.len x hx])
    have := (h.nd y.1).2 ⟨⟨y, hy, rfl⟩, h2⟩
    rw [hn] at this; simp at this
  · rintro rfl
    cases hs : s.nondominated with
    | nil => rfl
    | cons k ks =>
      obtain ⟨⟨x, hx, _⟩, _⟩ := (h.nd k).1 (by rw [hs]; simp)
      simp at hx

end Verif.OpenList
