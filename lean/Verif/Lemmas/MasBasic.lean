import Verif.Model.MasFts
import Verif.Spec.Mas

/-
Basic facts about the functions used for merge-and-shrink.
-/
namespace Verif.Mas

theorem mapAll_iff {α β : Type} {f : α → Option β} : ∀ {l : List α} {l' : List β}, mapAll f l = some l' ↔ List.Forall₂ (fun a b => f a = some b) l l'
  | [], l' => by
    simp only [mapAll, Option.some.injEq]
    exact ⟨fun h => h ▸ .nil, fun h => by cases h; rfl⟩
  | a :: l, l' => by
    simp only [mapAll]
    cases ha : f a with
    | none =>
      simp only [reduceCtorEq, false_iff]
      intro h
      cases h with
      | cons h1 h2 => rw [ha] at h1; simp at h1
    | some b =>
      simp only
      cases hl : mapAll f l with
      | none =>
        simp only [reduceCtorEq, false_iff]
        intro h
        cases h with
        | cons h1 h2 => rw [mapAll_iff.mpr h2] at hl; simp at hl
      | some bs =>
        simp only [Option.some.injEq]
        constructor
        · rintro rfl
          exact .cons ha (mapAll_iff.mp hl)
        · intro h
          cases h with
          | cons h1 h2 =>
            rw [ha] at h1
            rw [mapAll_iff.mpr h2] at hl
            simp only [Option.some.injEq] at h1 hl
            rw [h1, hl]

theorem mapAll_length {α β : Type} {f : α → Option β} {l : List α} {l' : List β} (h : mapAll f l = some l') : l'.length = l.length := (mapAll_iff.mp h).length_eq.symm

theorem mapAll_getElem? {α β : Type} {f : α → Option β} {l : List α} {l' : List β} (h : mapAll f l = some l') {i : Nat} {a : α} (ha : l[i]? = some a) : ∃ b, l'[i]? = some b ∧ f a = some b := by
  obtain ⟨h1, h2⟩ := List.forall₂_iff_get.mp (mapAll_iff.mp h)
  obtain ⟨hi, rfl⟩ := List.getElem?_eq_some_iff.mp ha
  have hi' : i < l'.length := by rw [← h1]; exact hi
  exact ⟨l'[i], List.getElem?_eq_getElem hi', h2 i hi hi'⟩

theorem mapAll_getElem?' {α β : Type} {f : α → Option β} {l : List α} {l' : List β} (h : mapAll f l = some l') {i : Nat} {b : β} (hb : l'[i]? = some b) : ∃ a, l[i]? = some a ∧ f a = some b := by
  obtain ⟨h1, h2⟩ := List.forall₂_iff_get.mp (mapAll_iff.mp h)
  obtain ⟨hi, rfl⟩ := List.getElem?_eq_some_iff.mp hb
  have hi' : i < l.length := by rw [h1]; exact hi
  exact ⟨l[i], List.getElem?_eq_getElem hi', h2 i hi' hi⟩

theorem mapAll_mem {α β : Type} {f : α → Option β} {l : List α} {l' : List β} (h : mapAll f l = some l') {b : β} (hb : b ∈ l') : ∃ a ∈ l, f a = some b := by
  obtain ⟨i, hi⟩ := List.getElem?_of_mem hb
  obtain ⟨a, h1, h2⟩ := mapAll_getElem?' h hi
  exact ⟨a, List.mem_of_getElem? h1, h2⟩

theorem mapAll_mem' {α β : Type} {f : α → Option β} {l : List α} {l' : List β} (h : mapAll f l = some l') {a : α} (ha : a ∈ l) : ∃ b ∈ l', f a = some b := by
  obtain ⟨i, hi⟩ := List.getElem?_of_mem ha
  obtain ⟨b, h1, h2⟩ := mapAll_getElem? h hi
  exact ⟨b, List.mem_of_getElem? h1, h2⟩

theorem mapAll_defined {α β : Type} {f : α → Option β} : ∀ {l : List α}, (∀ a ∈ l, ∃ b, f a = some b) → ∃ l', mapAll f l = some l'
  | [], _ => ⟨[], rfl⟩
  | a :: l, h => by
    obtain ⟨b, hb⟩ := h a (by simp)
    obtain ⟨l', hl⟩ := mapAll_defined (l := l) (fun x hx => h x (by simp [hx]))
    exact ⟨b :: l', by simp [mapAll, hb, hl]⟩

theorem nodup_eraseDups : ∀ (n : Nat) (l : List Nat), l.length ≤ n → l.eraseDups.Nodup
  | _, [], _ => by simp
  | 0, a :: l, h => by simp at h
  | n + 1, a :: l, h => by
    rw [List.eraseDups_cons, List.nodup_cons]
    refine ⟨fun hc => ?_, nodup_eraseDups n _ ?_⟩
    · have := (List.mem_filter.mp (List.mem_eraseDups.mp hc)).2
      simp at this
    · have := List.length_filter_le (fun b => !b == a) l
      simp only [List.length_cons] at h
      omega

/-- what a map of buckets contains -/
theorem buckets_spec {O : HashOrder} {key : Nat → Option Nat} {l : List Nat} {bs : List (Nat × List Nat)} (h : buckets O key l = some bs) :
    (∀ b ∈ bs, b.2 = l.filter (fun x => key x = some b.1)) ∧ (∀ x ∈ l, ∃ b ∈ bs, key x = some b.1) ∧ (bs.map (·.1)).Nodup := by
  unfold buckets at h
  cases hk : mapAll key l with
  | none => rw [hk] at h; simp at h
  | some ks =>
    rw [hk] at h
    simp only [Option.some.injEq] at h
    subst h
    refine ⟨?_, ?_, ?_⟩
    · intro b hb
      obtain ⟨k, _, rfl⟩ := List.mem_map.mp hb
      rfl
    · intro x hx
      obtain ⟨k, h1, h2⟩ := mapAll_mem' hk hx
      exact ⟨_, List.mem_map.mpr ⟨k, (O.perm _).mem_iff.mpr (List.mem_eraseDups.mpr h1), rfl⟩, h2⟩
    · rw [List.map_map]
      show (List.map (fun k => k) _).Nodup
      rw [List.map_id']
      exact (O.perm _).nodup_iff.mpr (nodup_eraseDups _ _ (Nat.le_refl _))

theorem mem_sortLabels {l : List Nat} {x : Nat} : x ∈ sortLabels l ↔ x ∈ l := List.mem_insertionSort _
theorem mem_sortTrans {l : List (Nat × Nat)} {x : Nat × Nat} : x ∈ sortTrans l ↔ x ∈ l := List.mem_insertionSort _

theorem mem_uniqueTrans : ∀ {l : List (Nat × Nat)} {x : Nat × Nat}, x ∈ uniqueTrans l ↔ x ∈ l
  | [], x => by simp [uniqueTrans]
  | a :: l, x => by
    have ih := mem_uniqueTrans (l := l) (x := x)
    unfold uniqueTrans
    split
    · rename_i h; rw [h] at ih; simp only [List.mem_singleton, List.mem_cons]; simp only [List.not_mem_nil, false_iff] at ih; tauto
    · rename_i b r h
      rw [h] at ih
      split
      · rename_i e; subst e; simp only [List.mem_cons] at ih ⊢; tauto
      · simp only [List.mem_cons] at ih ⊢; tauto

theorem mem_sortUniqueTrans {l : List (Nat × Nat)} {x : Nat × Nat} : x ∈ sortUniqueTrans l ↔ x ∈ l := by
  unfold sortUniqueTrans
  rw [mem_uniqueTrans, mem_sortTrans]

theorem setAll_spec {v : Option Nat} : ∀ {ls : List Nat} {m m' : List (Option Nat)}, setAll v ls m = some m' → m'.length = m.length ∧ (∀ l ∈ ls, m'[l]? = some v) ∧ ∀ l, l ∉ ls → m'[l]? = m[l]?
  | [], m, m', h => by simp only [setAll, Option.some.injEq] at h; subst h; simp
  | l :: ls, m, m', h => by
    simp only [setAll] at h
    split at h
    · rename_i hl
      obtain ⟨h1, h2, h3⟩ := setAll_spec h
      refine ⟨by rw [h1, List.length_set], ?_, ?_⟩
      · intro x hx
        by_cases hxl : x ∈ ls
        · exact h2 x hxl
        · have : x = l := by simpa [hxl] using hx
          subst this
          rw [h3 x hxl, List.getElem?_set, if_pos rfl, if_pos hl]
      · intro x hx
        simp only [List.mem_cons, not_or] at hx
        rw [h3 x hx.2, List.getElem?_set, if_neg (fun e => hx.1 e.symm)]
    · simp at h

theorem setAll_defined {v : Option Nat} : ∀ {ls : List Nat} {m : List (Option Nat)}, (∀ l ∈ ls, l < m.length) → ∃ m', setAll v ls m = some m'
  | [], m, _ => ⟨m, rfl⟩
  | l :: ls, m, h => by
    simp only [setAll]
    rw [if_pos (h l (by simp))]
    exact setAll_defined (fun x hx => by rw [List.length_set]; exact h x (by simp [hx]))

/-- label costs are ints -/
def Labels.Ok (L : Labels) : Prop := ∀ l c, L.cost l = some c → c ≤ inf

theorem minCost_spec {L : Labels} : ∀ {ls : List Nat} {c0 c : Nat}, minCost L ls c0 = some c → c ≤ c0 ∧ (∀ l ∈ ls, ∃ d, L.cost l = some d ∧ c ≤ d) ∧ (c = c0 ∨ ∃ l ∈ ls, L.cost l = some c)
  | [], c0, c, h => by simp only [minCost, Option.some.injEq] at h; subst h; simp
  | l :: ls, c0, c, h => by
    simp only [minCost] at h
    cases hl : L.cost l with
    | none => rw [hl] at h; simp at h
    | some d =>
      rw [hl] at h
      simp only at h
      obtain ⟨h1, h2, h3⟩ := minCost_spec h
      refine ⟨by omega, ?_, ?_⟩
      · intro x hx
        rcases List.mem_cons.mp hx with e | e
        · subst e; exact ⟨d, hl, by omega⟩
        · exact h2 x e
      · rcases h3 with e | ⟨x, hx, hxc⟩
        · by_cases hcd : c0 ≤ d
          · left; omega
          · right; exact ⟨l, by simp, by rw [hl, e]; congr 1; omega⟩
        · exact Or.inr ⟨x, by simp [hx], hxc⟩

theorem minCost_inf {L : Labels} (hL : L.Ok) {ls : List Nat} {c : Nat} (h : minCost L ls inf = some c) (hne : ls ≠ []) : ∃ l ∈ ls, L.cost l = some c := by
  obtain ⟨h1, h2, h3⟩ := minCost_spec h
  rcases h3 with e | e
  · obtain ⟨l, hl⟩ := List.exists_mem_of_ne_nil ls hne
    obtain ⟨d, h4, h5⟩ := h2 l hl
    have := hL l d h4
    exact ⟨l, hl, by rw [h4]; congr 1; omega⟩
  · exact e

theorem minCost_defined {L : Labels} : ∀ {ls : List Nat} {c0 : Nat}, (∀ l ∈ ls, ∃ d, L.cost l = some d) → ∃ c, minCost L ls c0 = some c
  | [], c0, _ => ⟨c0, rfl⟩
  | l :: ls, c0, h => by
    obtain ⟨d, hd⟩ := h l (by simp)
    simp only [minCost, hd]
    exact minCost_defined (fun x hx => h x (by simp [hx]))

/-- there is a transition from `a` to `b` with label `l` -/
def Tr (infos : List LocalLabel) (l a b : Nat) : Prop := ∃ i ∈ infos, l ∈ i.labels ∧ (a, b) ∈ i.transitions

/-- the label is in one of the groups -/
def Has (infos : List LocalLabel) (l : Nat) : Prop := ∃ i ∈ infos, l ∈ i.labels

/-- the two mappings between labels and local labels are inverse; labels are active; the cost of a local label is the least cost of its labels -/
structure PCons (L : Labels) (m : List (Option Nat)) (infos : List LocalLabel) : Prop where
  mapped : ∀ (k : Nat) (i : LocalLabel) (l : Nat), infos[k]? = some i → l ∈ i.labels → m[l]? = some (some k)
  live : ∀ i ∈ infos, ∀ l ∈ i.labels, ∃ c, L.cost l = some c ∧ i.cost ≤ c
  least : ∀ i ∈ infos, i.labels ≠ [] → ∃ l ∈ i.labels, L.cost l = some i.cost

/-- additionally all active labels are mapped -/
structure Cons (L : Labels) (m : List (Option Nat)) (infos : List LocalLabel) : Prop extends PCons L m infos where
  complete : ∀ l c, L.cost l = some c → Has infos l

/-- a well-formed transition system -/
structure TSOk (L : Labels) (T : TS) : Prop where
  cons : Cons L T.labelTo T.infos
  range : T.InRange

theorem PCons.unique {L : Labels} {m : List (Option Nat)} {infos : List LocalLabel} (h : PCons L m infos) {k k' : Nat} {i i' : LocalLabel} {l : Nat} (h1 : infos[k]? = some i) (h2 : infos[k']? = some i') (h3 : l ∈ i.labels) (h4 : l ∈ i'.labels) : k = k' := by
  have := h.mapped k i l h1 h3
  rw [h.mapped k' i' l h2 h4] at this
  simp only [Option.some.injEq] at this
  exact this.symm

end Verif.Mas
