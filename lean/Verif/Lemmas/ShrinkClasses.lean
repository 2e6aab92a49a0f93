import Verif.Lemmas.ShrinkBisimulation
import Mathlib.Data.List.Dedup

/- The initial groups, and the classes of the result. -/
namespace Verif.Mas

variable {greedy : Bool} {T : TS} {ds : List Nat}

structure InitInv (T : TS) (ds : List Nat) (map : List (Int × Nat)) (num : Nat) (g : List Nat) : Prop where
  pos : 1 ≤ num
  code : ∀ s k : Nat, g[s]? = some k → ∃ h, sigH T ds s = some h ∧ ((h = -1 ∧ k = 0) ∨ (h ≠ -1 ∧ map.lookup h = some k))
  lt : ∀ h k, map.lookup h = some k → 1 ≤ k ∧ k < num
  inj : ∀ h h' k, map.lookup h = some k → map.lookup h' = some k → h = h'
  used : ∀ k, 1 ≤ k → k < num → ∃ s : Nat, g[s]? = some k

theorem getElem?_concat {α : Type} {l : List α} {x y : α} {s : Nat} (h : (l ++ [x])[s]? = some y) : l[s]? = some y ∨ (s = l.length ∧ y = x) := by
  rcases Nat.lt_trichotomy s l.length with hs | hs | hs
  · rw [List.getElem?_append_left hs] at h; exact Or.inl h
  · subst hs
    rw [List.getElem?_append_right (Nat.le_refl _)] at h
    simp only [Nat.sub_self, List.getElem?_cons_zero, Option.some.injEq] at h
    exact Or.inr ⟨rfl, h.symm⟩
  · rw [List.getElem?_eq_none (by simp; omega)] at h
    simp at h

theorem getElem?_concat_old {α : Type} {l : List α} {x y : α} {s : Nat} (h : l[s]? = some y) : (l ++ [x])[s]? = some y := by
  rw [List.getElem?_append_left (List.getElem?_eq_some_iff.mp h).1]
  exact h

theorem getElem?_concat_new {α : Type} {l : List α} {x : α} : (l ++ [x])[l.length]? = some x := by simp

theorem init_spec : ∀ {m i : Nat} {map : List (Int × Nat)} {num : Nat} {g : List Nat}, (∀ s, i ≤ s → s < i + m → ∃ h, sigH T ds s = some h) → g.length = i → InitInv T ds map num g →
    ∃ g' num' map', initGroups T ds (List.range' i m) map num g = some (g', num') ∧ g'.length = i + m ∧ InitInv T ds map' num' g'
  | 0, i, map, num, g, _, hl, h => ⟨g, num, map, rfl, hl, h⟩
  | m + 1, i, map, num, g, hd, hl, h => by
    obtain ⟨v, hv⟩ := hd i (Nat.le_refl _) (by omega)
    have hd' : ∀ s, i + 1 ≤ s → s < i + 1 + m → ∃ h, sigH T ds s = some h := fun s h1 h2 => hd s (by omega) (by omega)
    rw [List.range'_succ]
    unfold initGroups
    rw [hv]
    simp only
    split
    · rename_i hv1
      have hinv : InitInv T ds map num (g ++ [0]) := by
        refine ⟨h.pos, fun s k hs => ?_, h.lt, h.inj, fun k h1 h2 => ?_⟩
        · rcases getElem?_concat hs with hs | ⟨rfl, rfl⟩
          · exact h.code s k hs
          · rw [hl]
            exact ⟨v, hv, Or.inl ⟨hv1, rfl⟩⟩
        · obtain ⟨s, hs⟩ := h.used k h1 h2
          exact ⟨s, getElem?_concat_old hs⟩
      obtain ⟨g', num', map', e1, e2, e3⟩ := init_spec (m := m) (i := i + 1) hd' (by simp [hl]) hinv
      exact ⟨g', num', map', e1, by omega, e3⟩
    · rename_i hv1
      split
      · rename_i k hk
        have hinv : InitInv T ds map num (g ++ [k]) := by
          refine ⟨h.pos, fun s k' hs => ?_, h.lt, h.inj, fun k' h1 h2 => ?_⟩
          · rcases getElem?_concat hs with hs | ⟨rfl, rfl⟩
            · exact h.code s k' hs
            · rw [hl]
              exact ⟨v, hv, Or.inr ⟨hv1, hk⟩⟩
          · obtain ⟨s, hs⟩ := h.used k' h1 h2
            exact ⟨s, getElem?_concat_old hs⟩
        obtain ⟨g', num', map', e1, e2, e3⟩ := init_spec (m := m) (i := i + 1) hd' (by simp [hl]) hinv
        exact ⟨g', num', map', e1, by omega, e3⟩
      · rename_i hk
        have hlook : ∀ x, ((v, num) :: map).lookup x = if x = v then some num else map.lookup x := by
          intro x
          rw [List.lookup_cons]
          by_cases e : x = v
          · simp [e]
          · have : (x == v) = false := by simpa using e
            rw [this, if_neg e]
        have hinv : InitInv T ds ((v, num) :: map) (num + 1) (g ++ [num]) := by
          refine ⟨by omega, fun s k' hs => ?_, fun x k' hx => ?_, fun x x' k' hx hx' => ?_, fun k' h1 h2 => ?_⟩
          · rcases getElem?_concat hs with hs | ⟨rfl, rfl⟩
            · obtain ⟨x, hx, hx'⟩ := h.code s k' hs
              refine ⟨x, hx, ?_⟩
              rcases hx' with hx' | ⟨h1, h2⟩
              · exact Or.inl hx'
              · refine Or.inr ⟨h1, ?_⟩
                rw [hlook]
                rw [if_neg]
                · exact h2
                · rintro rfl
                  rw [hk] at h2
                  simp at h2
            · rw [hl]
              exact ⟨v, hv, Or.inr ⟨hv1, by rw [hlook, if_pos rfl]⟩⟩
          · rw [hlook] at hx
            split at hx
            · simp only [Option.some.injEq] at hx
              have := h.pos
              omega
            · have := h.lt x k' hx
              omega
          · rw [hlook] at hx hx'
            split at hx <;> split at hx'
            · rename_i e1 e2; rw [e1, e2]
            · simp only [Option.some.injEq] at hx
              have := h.lt x' k' hx'
              omega
            · simp only [Option.some.injEq] at hx'
              have := h.lt x k' hx
              omega
            · exact h.inj x x' k' hx hx'
          · by_cases e : k' = num
            · exact ⟨g.length, by rw [e]; exact getElem?_concat_new⟩
            · obtain ⟨s, hs⟩ := h.used k' h1 (by omega)
              exact ⟨s, getElem?_concat_old hs⟩
        obtain ⟨g', num', map', e1, e2, e3⟩ := init_spec (m := m) (i := i + 1) hd' (by simp [hl]) hinv
        exact ⟨g', num', map', e1, by omega, e3⟩

/-- the initial groups are the states with the same h value -/
theorem ShrinkOk.init_ok (ok : ShrinkOk greedy T ds) : ∃ g num, initGroups T ds (List.range T.size) [] 1 [] = some (g, num) ∧ GInv T ds g num ∧
    num ≤ ((List.range T.size).map (fun s => (T.goals[s]?, ds[s]?))).dedup.length := by
  obtain ⟨g, num, map, e1, e2, e3⟩ := init_spec (T := T) (ds := ds) (m := T.size) (i := 0) (map := []) (num := 1) (g := []) (fun s _ hs => ok.sigH_some (by omega)) rfl
    ⟨Nat.le_refl _, by simp, by simp, by simp, by intro k h1 h2; omega⟩
  rw [← List.range_eq_range'] at e1
  have hG : GInv T ds g num := by
    refine ⟨by omega, ⟨fun s k hs => ?_, fun k hk => ?_, fun _ _ _ _ _ => rfl⟩, fun a b k ha hb => ?_⟩
    · obtain ⟨h, _, h2⟩ := e3.code s k hs
      rcases h2 with ⟨_, rfl⟩ | ⟨_, h2⟩
      · exact e3.pos
      · exact (e3.lt h k h2).2
    · by_cases h0 : k = 0
      · obtain ⟨s, hs⟩ := ok.goal
        have hlt : s < g.length := by
          have := (List.getElem?_eq_some_iff.mp hs).1
          rw [ok.goals] at this
          omega
        have hgs : g[s]? = some g[s] := List.getElem?_eq_getElem hlt
        obtain ⟨h, h1, h2⟩ := e3.code s _ hgs
        rcases h2 with ⟨_, h2⟩ | ⟨h2, _⟩
        · exact ⟨s, by rw [hgs, h2, h0]⟩
        · exact absurd ((sigH_goal h1).mpr hs) h2
      · exact e3.used k (by omega) hk
    · obtain ⟨h, h1, h2⟩ := e3.code a k ha
      obtain ⟨h', h1', h2'⟩ := e3.code b k hb
      rw [h1, h1']
      rcases h2 with ⟨h2, h3⟩ | ⟨h2, h3⟩ <;> rcases h2' with ⟨h2', h3'⟩ | ⟨h2', h3'⟩
      · rw [h2, h2']
      · have := e3.lt _ _ h3'; omega
      · have := e3.lt _ _ h3; omega
      · rw [e3.inj h h' k h3 h3']
  refine ⟨g, num, e1, hG, ?_⟩
  have hch : ∀ k, ∃ s : Nat, k < num → g[s]? = some k := by
    intro k
    by_cases hk : k < num
    · obtain ⟨s, hs⟩ := hG.groups.used k hk
      exact ⟨s, fun _ => hs⟩
    · exact ⟨0, fun h => absurd h hk⟩
  choose f hf using hch
  have := Finset.card_le_card_of_injOn (s := Finset.range num) (t := ((List.range T.size).map (fun s => (T.goals[s]?, ds[s]?))).toFinset) (fun k => (T.goals[f k]?, ds[f k]?)) ?_ ?_
  · rwa [Finset.card_range, List.card_toFinset] at this
  · intro k hk
    have hk' := hf k (by simpa using hk)
    have hlt : f k < T.size := by
      have := (List.getElem?_eq_some_iff.mp hk').1
      omega
    simp only [List.coe_toFinset, List.mem_map, List.mem_range, Set.mem_setOf_eq]
    exact ⟨f k, hlt, rfl⟩
  · intro k hk k' hk' he
    have h1 := hf k (by simpa using hk)
    have h2 := hf k' (by simpa using hk')
    simp only [Prod.mk.injEq] at he
    have hH : sigH T ds (f k) = sigH T ds (f k') := by unfold sigH; rw [he.1, he.2]
    obtain ⟨h, c1, c2⟩ := e3.code _ _ h1
    obtain ⟨h', c1', c2'⟩ := e3.code _ _ h2
    rw [c1, c1'] at hH
    simp only [Option.some.injEq] at hH
    subst hH
    rcases c2 with ⟨c2, c3⟩ | ⟨c2, c3⟩ <;> rcases c2' with ⟨c2', c3'⟩ | ⟨c2', c3'⟩
    · rw [c3, c3']
    · exact absurd c2 c2'
    · exact absurd c2' c2
    · rw [c3] at c3'; simpa using c3'

theorem mem_class {n : Nat} {g : List Nat} {k s : Nat} : s ∈ ((List.range n).filter (fun s => g[s]? == some k)).reverse ↔ s < n ∧ g[s]? = some k := by
  simp [List.mem_filter]

/-- everything about the result -/
theorem ShrinkOk.result (ok : ShrinkOk greedy T ds) {d : Distances} (hd : d.goal = some ds) (atLimit : AtLimit) (target : Nat) : ∃ rel g num, shrinkBisimulation greedy atLimit T d target = some rel ∧
    GInv T ds g num ∧ rel.length = num ∧ num ≤ max target ((List.range T.size).map (fun s => (T.goals[s]?, ds[s]?))).dedup.length ∧ IsPartition T.size rel ∧
    (∀ a b, SameClass rel a b ↔ ∃ k, g[a]? = some k ∧ g[b]? = some k) ∧
    (T.size ≤ target → ∀ a b k : Nat, g[a]? = some k → g[b]? = some k → succSig greedy ds g T a = succSig greedy ds g T b) := by
  obtain ⟨g0, num0, e1, e2, e3⟩ := ok.init_ok
  obtain ⟨g, num, f1, f2, f3, f4⟩ := ok.loop_ok (target := target) (atLimit := atLimit) (fuel := T.size + 2) e2 (by omega) (by omega)
  have hcl : groupClasses T.size num g = some ((List.range num).map (fun k => ((List.range T.size).filter (fun s => g[s]? == some k)).reverse)) := by
    unfold groupClasses
    rw [if_pos]
    rw [List.all_eq_true]
    intro k hk
    obtain ⟨s, hs⟩ := List.getElem?_of_mem hk
    simpa using f2.groups.lt s k hs
  have hlt : ∀ s k : Nat, g[s]? = some k → s < T.size := by
    intro s k hs
    rw [← f2.length]
    exact (List.getElem?_eq_some_iff.mp hs).1
  refine ⟨(List.range num).map (fun k => ((List.range T.size).filter (fun s => g[s]? == some k)).reverse), g, num, ?_, f2, ?_, by omega, ⟨?_, ?_, ?_, ?_⟩, ?_, f4⟩
  · unfold shrinkBisimulation
    rw [hd]
    simp only
    rw [e1]
    simp only
    rw [f1]
    exact hcl
  · simp
  · intro c hc
    obtain ⟨k, hk, rfl⟩ := List.mem_map.mp hc
    obtain ⟨s, hs⟩ := f2.groups.used k (List.mem_range.mp hk)
    exact List.ne_nil_of_mem (mem_class.mpr ⟨hlt s k hs, hs⟩)
  · intro c hc s hs
    obtain ⟨k, hk, rfl⟩ := List.mem_map.mp hc
    exact (mem_class.mp hs).1
  · intro s hs
    have h1 : g[s]? = some (g[s]'(by rw [f2.length]; exact hs)) := List.getElem?_eq_getElem _
    exact ⟨_, List.mem_map.mpr ⟨_, List.mem_range.mpr (f2.groups.lt s _ h1), rfl⟩, mem_class.mpr ⟨hs, h1⟩⟩
  · rw [List.nodup_flatten]
    constructor
    · intro c hc
      obtain ⟨k, hk, rfl⟩ := List.mem_map.mp hc
      exact List.nodup_reverse.mpr (List.nodup_range.filter _)
    · rw [List.pairwise_map]
      refine List.Pairwise.imp ?_ List.nodup_range
      intro k k' hne s hs hs'
      have h1 := (mem_class.mp hs).2
      have h2 := (mem_class.mp hs').2
      rw [h1] at h2
      simp only [Option.some.injEq] at h2
      exact hne h2
  · intro a b
    constructor
    · rintro ⟨c, hc, ha, hb⟩
      obtain ⟨k, hk, rfl⟩ := List.mem_map.mp hc
      exact ⟨k, (mem_class.mp ha).2, (mem_class.mp hb).2⟩
    · rintro ⟨k, ha, hb⟩
      exact ⟨_, List.mem_map.mpr ⟨k, List.mem_range.mpr (f2.groups.lt a k ha), rfl⟩, mem_class.mpr ⟨hlt a k ha, ha⟩, mem_class.mpr ⟨hlt b k hb, hb⟩⟩

/-- does the transition count? -/
def Counts (greedy : Bool) (ds : List Nat) (c a b : Nat) : Prop := greedy = true → ∃ x y, ds[a]? = some x ∧ ds[b]? = some y ∧ x ≠ inf ∧ y ≠ inf ∧ y + c = x

theorem sigEntry_some {g : List Nat} {k c k' x : Nat} {t : Nat × Nat} : sigEntry greedy ds g k c t = some (some (k', x)) → k' = k ∧ g[t.2]? = some x ∧ Counts greedy ds c t.1 t.2 := by
  intro hr
  unfold sigEntry at hr
  split at hr
  · rename_i h1 h2 h3
    split at hr
    · rename_i hg
      split at hr
      · simp at hr
      · rename_i hinf
        split at hr
        · split at hr
          · simp at hr
          · rename_i hne
            simp only [Option.some.injEq, Prod.mk.injEq] at hr
            exact ⟨hr.1.symm, by rw [h3, hr.2], fun _ => ⟨_, _, h1, h2, fun e => hinf (Or.inl e), fun e => hinf (Or.inr e), by simpa using hne⟩⟩
        · simp at hr
    · rename_i hg
      simp only [Option.some.injEq, Prod.mk.injEq] at hr
      exact ⟨hr.1.symm, by rw [h3, hr.2], fun e => absurd e hg⟩
  · simp at hr

theorem sigEntry_counts {g : List Nat} {k c x : Nat} {t : Nat × Nat} {r : Option (Nat × Nat)} (h : sigEntry greedy ds g k c t = some r) (hx : g[t.2]? = some x) (hc : Counts greedy ds c t.1 t.2) : r = some (k, x) := by
  unfold sigEntry at h
  split at h
  · rename_i h1 h2 h3
    rw [h3] at hx
    simp only [Option.some.injEq] at hx
    subst hx
    split at h
    · rename_i hg
      obtain ⟨p, q, e1, e2, e3, e4, e5⟩ := hc hg
      rw [h1] at e1
      rw [h2] at e2
      simp only [Option.some.injEq] at e1 e2
      subst e1 e2
      split at h
      · rename_i ho
        rcases ho with ho | ho
        · exact absurd ho e3
        · exact absurd ho e4
      · split at h
        · rw [if_neg (by simpa using e5)] at h
          simpa using h.symm
        · simp at h
    · simpa using h.symm
  · simp at h

/-- the successors in a signature -/
theorem mem_succSig {g : List Nat} {s : Nat} {l : List (Nat × Nat)} (h : succSig greedy ds g T s = some l) (k x : Nat) :
    (k, x) ∈ l ↔ ∃ i : LocalLabel, (T.infos.filter (·.active))[k]? = some i ∧ ∃ b, (s, b) ∈ i.transitions ∧ g[b]? = some x ∧ Counts greedy ds i.cost s b := by
  unfold succSig at h
  split at h
  · simp at h
  · rename_i ls hls
    simp only [Option.some.injEq] at h
    subst h
    rw [show ((k, x) ∈ sortUniqueTrans (ls.flatten.filterMap id)) ↔ (k, x) ∈ ls.flatten.filterMap id by unfold sortUniqueTrans; rw [mem_uniqueTrans, mem_sortTrans]]
    constructor
    · intro hm
      obtain ⟨o, ho, he⟩ := List.mem_filterMap.mp hm
      simp only [id] at he
      subst he
      obtain ⟨l1, h1, h2⟩ := List.mem_flatten.mp ho
      obtain ⟨⟨i, k'⟩, h3, h4⟩ := mapAll_mem hls h1
      unfold groupEntries at h4
      obtain ⟨t, h5, h6⟩ := mapAll_mem h4 h2
      have h7 := List.mem_filter.mp h5
      obtain ⟨h8, h9, h10⟩ := sigEntry_some h6
      simp only at h8
      subst h8
      have : t.1 = s := by simpa using h7.2
      refine ⟨i, List.mem_zipIdx_iff_getElem?.mp h3, t.2, ?_, h9, this ▸ h10⟩
      rw [← this]
      exact h7.1
    · rintro ⟨i, hi, b, hb, hx, hc⟩
      obtain ⟨l1, h1, h2⟩ := mapAll_mem' hls (List.mem_zipIdx_iff_getElem?.mpr hi : (i, k) ∈ _)
      unfold groupEntries at h2
      obtain ⟨o, h3, h4⟩ := mapAll_mem' h2 (List.mem_filter.mpr ⟨hb, by simp⟩ : (s, b) ∈ _)
      have h5 := sigEntry_counts h4 hx hc
      simp only at h5
      subst h5
      exact List.mem_filterMap.mpr ⟨_, List.mem_flatten.mpr ⟨l1, h1, h3⟩, rfl⟩

end Verif.Mas
