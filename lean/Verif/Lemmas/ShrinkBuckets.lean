import Verif.Lemmas.ShrinkCombine
import Verif.Lemmas.MasBasic
import Verif.Spec.Shrinking

/-
The buckets of f-preserving shrinking.
-/
namespace Verif.Mas

/-! ### maps -/

def Sorted {β : Type} (m : List (Nat × β)) : Prop := m.Pairwise (fun p q => p.1 < q.1)

theorem mapAt_mem_key {β : Type} {upd : Option β → β} {k : Nat} : ∀ {m : List (Nat × β)} {p : Nat × β}, p ∈ mapAt upd k m → p.1 = k ∨ ∃ q ∈ m, q.1 = p.1
  | [], p, h => by simp only [mapAt, List.mem_cons, List.not_mem_nil, or_false] at h; subst h; exact Or.inl rfl
  | (k', v) :: m, p, h => by
    simp only [mapAt] at h
    split at h
    · rcases List.mem_cons.mp h with rfl | h
      · exact Or.inl rfl
      · exact Or.inr ⟨p, h, rfl⟩
    · split at h
      · rcases List.mem_cons.mp h with rfl | h
        · exact Or.inl rfl
        · exact Or.inr ⟨p, by simp [h], rfl⟩
      · rcases List.mem_cons.mp h with rfl | h
        · exact Or.inr ⟨(k', v), by simp, rfl⟩
        · rcases mapAt_mem_key h with e | ⟨q, hq, e⟩
          · exact Or.inl e
          · exact Or.inr ⟨q, by simp [hq], e⟩

theorem mapAt_sorted {β : Type} {upd : Option β → β} {k : Nat} : ∀ {m : List (Nat × β)}, Sorted m → Sorted (mapAt upd k m)
  | [], _ => by simp [mapAt, Sorted]
  | (k', v) :: m, h => by
    have h1 := List.pairwise_cons.mp h
    simp only [mapAt]
    split
    · rename_i hlt
      refine List.pairwise_cons.mpr ⟨fun p hp => ?_, h⟩
      rcases List.mem_cons.mp hp with rfl | hp
      · exact hlt
      · have := h1.1 p hp
        simp only at this ⊢
        omega
    · split
      · rename_i he
        refine List.pairwise_cons.mpr ⟨fun p hp => ?_, h1.2⟩
        have := h1.1 p hp
        simp only at this ⊢
        omega
      · refine List.pairwise_cons.mpr ⟨fun p hp => ?_, mapAt_sorted h1.2⟩
        rcases mapAt_mem_key hp with e | ⟨q, hq, e⟩
        · simp only
          omega
        · have := h1.1 q hq
          simp only at this ⊢
          omega

theorem mem_mapAt {β : Type} {upd : Option β → β} {k : Nat} : ∀ {m : List (Nat × β)}, Sorted m → ∀ {p : Nat × β}, p ∈ mapAt upd k m ↔
    (p.1 ≠ k ∧ p ∈ m) ∨ (p.1 = k ∧ ((∃ v, (k, v) ∈ m ∧ p.2 = upd (some v)) ∨ ((∀ v, (k, v) ∉ m) ∧ p.2 = upd none)))
  | [], _, p => by
    obtain ⟨a, b⟩ := p
    simp [mapAt]
  | (k', v) :: m, h, p => by
    have h1 := List.pairwise_cons.mp h
    have hnot : ∀ q, q ∈ m → k' < q.1 := fun q hq => h1.1 q hq
    obtain ⟨a, b⟩ := p
    simp only [mapAt]
    split
    · rename_i hlt
      have hno : ∀ w, (k, w) ∉ (k', v) :: m := by
        intro w hw
        rcases List.mem_cons.mp hw with e | hw
        · simp only [Prod.mk.injEq] at e
          omega
        · have := hnot _ hw
          simp only at this
          omega
      constructor
      · intro hp
        rcases List.mem_cons.mp hp with e | hp2
        · simp only [Prod.mk.injEq] at e
          exact Or.inr ⟨e.1, Or.inr ⟨hno, e.2⟩⟩
        · refine Or.inl ⟨fun e => ?_, hp2⟩
          have e : a = k := e
          subst e
          exact hno b hp2
      · rintro (⟨_, hp⟩ | ⟨e, ⟨w, hw, _⟩ | ⟨_, e2⟩⟩)
        · exact List.mem_cons_of_mem _ hp
        · exact absurd hw (hno w)
        · have e : a = k := e
          have e2 : b = upd none := e2
          rw [e, e2]
          simp
    · rename_i hge
      split
      · rename_i e
        subst e
        constructor
        · intro hp
          rcases List.mem_cons.mp hp with e | hp
          · simp only [Prod.mk.injEq] at e
            exact Or.inr ⟨e.1, Or.inl ⟨v, by simp, e.2⟩⟩
          · have := hnot _ hp
            exact Or.inl ⟨by omega, by simp [hp]⟩
        · rintro (⟨hne, hp⟩ | ⟨e, ⟨w, hw, e2⟩ | ⟨hno, _⟩⟩)
          · rcases List.mem_cons.mp hp with e | hp
            · simp only [Prod.mk.injEq] at e
              exact absurd e.1 hne
            · exact List.mem_cons_of_mem _ hp
          · rcases List.mem_cons.mp hw with e3 | hw
            · simp only [Prod.mk.injEq] at e3
              rw [e, e2, e3.2]
              simp
            · have := hnot _ hw
              simp only at this
              omega
          · exact absurd (List.mem_cons_self ..) (hno v)
      · rename_i hne
        have ih := mem_mapAt (upd := upd) (k := k) h1.2 (p := (a, b))
        constructor
        · intro hp
          rcases List.mem_cons.mp hp with e | hp
          · simp only [Prod.mk.injEq] at e
            refine Or.inl ⟨by omega, by simp [e.1, e.2]⟩
          · rcases ih.mp hp with ⟨i1, i2⟩ | ⟨i1, ⟨w, hw, i2⟩ | ⟨i2, i3⟩⟩
            · exact Or.inl ⟨i1, by simp [i2]⟩
            · exact Or.inr ⟨i1, Or.inl ⟨w, by simp [hw], i2⟩⟩
            · refine Or.inr ⟨i1, Or.inr ⟨fun w hw => ?_, i3⟩⟩
              rcases List.mem_cons.mp hw with e | hw
              · simp only [Prod.mk.injEq] at e
                omega
              · exact i2 w hw
        · rintro (⟨i1, hp⟩ | ⟨i1, ⟨w, hw, e2⟩ | ⟨hno, i3⟩⟩)
          · rcases List.mem_cons.mp hp with e | hp
            · rw [e]; simp
            · exact List.mem_cons_of_mem _ (ih.mpr (Or.inl ⟨i1, hp⟩))
          · rcases List.mem_cons.mp hw with e3 | hw
            · simp only [Prod.mk.injEq] at e3
              omega
            · exact List.mem_cons_of_mem _ (ih.mpr (Or.inr ⟨i1, Or.inl ⟨w, hw, e2⟩⟩))
          · exact List.mem_cons_of_mem _ (ih.mpr (Or.inr ⟨i1, Or.inr ⟨fun w hw => hno w (by simp [hw]), i3⟩⟩))

/-! ### the specification of buckets -/

/-- There is one bucket for every value that occurs, with all states that have it, and the buckets are in the order in which they are shrunk. -/
structure IsBuckets (df dh : HighLow) (key : Nat → Nat × Nat) (n : Nat) (bs : List (List Nat)) : Prop where
  nonempty : ∀ b ∈ bs, b ≠ []
  nodup : ∀ b ∈ bs, b.Nodup
  whole : ∀ b ∈ bs, ∃ k, ∀ s, s ∈ b ↔ s < n ∧ key s = k
  covers : ∀ s, s < n → ∃ b ∈ bs, s ∈ b
  sorted : bs.Pairwise (fun b b' => ∀ s ∈ b, ∀ s' ∈ b', ShrunkEarlier df dh (key s) (key s'))

theorem earlier_irrefl {d : HighLow} {a : Nat} : ¬ d.Earlier a a := by cases d <;> simp [HighLow.Earlier]

theorem shrunkEarlier_irrefl {df dh : HighLow} {k : Nat × Nat} : ¬ ShrunkEarlier df dh k k := by
  rintro (h | ⟨_, h⟩) <;> exact earlier_irrefl h

theorem shrunkEarlier_asymm {df dh : HighLow} {k k' : Nat × Nat} (h : ShrunkEarlier df dh k k') : ¬ ShrunkEarlier df dh k' k := by
  cases df <;> cases dh <;> simp only [ShrunkEarlier, HighLow.Earlier] at h ⊢ <;> omega

theorem pairwise_order {α : Type} {R : α → α → Prop} {S : α → α → Prop} {d : HighLow} {l : List α} (h : l.Pairwise R) (hlow : d = .low → ∀ a b, R a b → S a b) (hhigh : d = .high → ∀ a b, R a b → S b a) : (d.order l).Pairwise S := by
  cases d with
  | low => exact h.imp (fun {a b} => hlow rfl a b)
  | high => exact (List.pairwise_reverse.mpr (h.imp (fun {a b} => hhigh rfl a b)))

theorem mem_order {α : Type} {d : HighLow} {l : List α} {a : α} : a ∈ d.order l ↔ a ∈ l := by
  cases d <;> simp [HighLow.order]

/-! ### the map -/

structure MapInv (key : Nat → Nat × Nat) (done : List Nat) (M : List (Nat × List (Nat × List Nat))) : Prop where
  outer : Sorted M
  inner : ∀ p ∈ M, Sorted p.2
  bucket : ∀ p ∈ M, ∀ q ∈ p.2, q.2 = done.filter (fun s => decide (key s = (p.1, q.1))) ∧ q.2 ≠ []
  covers : ∀ s ∈ done, ∃ p ∈ M, ∃ q ∈ p.2, key s = (p.1, q.1)

theorem filter_ne_nil {α : Type} {p : α → Bool} {l : List α} {a : α} (h : a ∈ l) (hp : p a = true) : l.filter p ≠ [] := by
  intro e
  have : a ∈ l.filter p := List.mem_filter.mpr ⟨h, hp⟩
  rw [e] at this
  simp at this

/-- the row of a value of f after a state with this value has been added -/
theorem row_spec {key : Nat → Nat × Nat} {done : List Nat} {s f h : Nat} (hk : key s = (f, h)) {row : List (Nat × List Nat)} (hs : Sorted row) (hb : ∀ q ∈ row, q.2 = done.filter (fun s => decide (key s = (f, q.1))) ∧ q.2 ≠ [])
    (hc : ∀ x ∈ done, (key x).1 = f → ∃ q ∈ row, key x = (f, q.1)) :
    Sorted (mapAt (fun b => b.getD [] ++ [s]) h row) ∧ (∀ q ∈ mapAt (fun b => b.getD [] ++ [s]) h row, q.2 = (done ++ [s]).filter (fun s => decide (key s = (f, q.1))) ∧ q.2 ≠ []) ∧
      ∀ x ∈ done ++ [s], (key x).1 = f → ∃ q ∈ mapAt (fun b => b.getD [] ++ [s]) h row, key x = (f, q.1) := by
  refine ⟨mapAt_sorted hs, fun q hq => ?_, fun x hx hxf => ?_⟩
  · rcases (mem_mapAt hs).mp hq with ⟨h1, h2⟩ | ⟨h1, ⟨v, h2, h3⟩ | ⟨h2, h3⟩⟩
    · refine ⟨?_, (hb q h2).2⟩
      rw [List.filter_append, (hb q h2).1]
      have : decide (key s = (f, q.1)) = false := by
        rw [hk]
        simp only [decide_eq_false_iff_not, Prod.mk.injEq, true_and]
        exact fun e => h1 e.symm
      simp [this]
    · rw [h3, h1]
      refine ⟨?_, by simp⟩
      have := (hb _ h2).1
      simp only at this
      simp [List.filter_append, hk, this]
    · rw [h3, h1]
      refine ⟨?_, by simp⟩
      have : done.filter (fun s => decide (key s = (f, h))) = [] := by
        rw [List.filter_eq_nil_iff]
        intro x hx e
        simp only [decide_eq_true_eq] at e
        obtain ⟨q', hq', e'⟩ := hc x hx (by rw [e])
        rw [e] at e'
        simp only [Prod.mk.injEq, true_and] at e'
        refine h2 q'.2 ?_
        rw [e']
        exact hq'
      simp [List.filter_append, hk, this]
  · by_cases e : key x = (f, h)
    · by_cases hv : ∃ v, (h, v) ∈ row
      · obtain ⟨v, hv⟩ := hv
        exact ⟨(h, v ++ [s]), (mem_mapAt hs).mpr (Or.inr ⟨rfl, Or.inl ⟨v, hv, rfl⟩⟩), e⟩
      · exact ⟨(h, [] ++ [s]), (mem_mapAt hs).mpr (Or.inr ⟨rfl, Or.inr ⟨fun v hv' => hv ⟨v, hv'⟩, rfl⟩⟩), e⟩
    · rcases List.mem_append.mp hx with hx | hx
      · obtain ⟨q, hq, e'⟩ := hc x hx hxf
        refine ⟨q, (mem_mapAt hs).mpr (Or.inl ⟨fun e2 => e ?_, hq⟩), e'⟩
        rw [e', e2]
      · simp only [List.mem_cons, List.not_mem_nil, or_false] at hx
        subst hx
        exact absurd hk e

theorem MapInv.push {key : Nat → Nat × Nat} {done : List Nat} {M : List (Nat × List (Nat × List Nat))} (hI : MapInv key done M) (s : Nat) : MapInv key (done ++ [s]) (pushMap (key s).1 (key s).2 s M) := by
  have hrow : ∀ row : List (Nat × List Nat), (((key s).1, row) ∈ M ∨ ((∀ v, ((key s).1, v) ∉ M) ∧ row = [])) → Sorted row ∧ (∀ q ∈ row, q.2 = done.filter (fun x => decide (key x = ((key s).1, q.1))) ∧ q.2 ≠ []) ∧
      ∀ x ∈ done, (key x).1 = (key s).1 → ∃ q ∈ row, key x = ((key s).1, q.1) := by
    rintro row (h | ⟨h, rfl⟩)
    · refine ⟨hI.inner _ h, fun q hq => hI.bucket _ h q hq, fun x hx e => ?_⟩
      obtain ⟨p, hp, q, hq, e2⟩ := hI.covers x hx
      have e3 : p.1 = (key s).1 := by rw [← e, e2]
      have e4 : p = ((key s).1, row) := by
        by_contra hne
        have hpw := hI.outer
        have := List.pairwise_iff_getElem.mp hpw
        obtain ⟨i, hi, rfl⟩ := List.mem_iff_getElem.mp hp
        obtain ⟨j, hj, e5⟩ := List.mem_iff_getElem.mp h
        rcases Nat.lt_trichotomy i j with hij | hij | hij
        · have := this i j hi hj hij
          rw [e5] at this
          simp only at this
          omega
        · subst hij
          exact hne e5
        · have := this j i hj hi hij
          rw [e5] at this
          simp only at this
          omega
      subst e4
      exact ⟨q, hq, e2⟩
    · refine ⟨List.Pairwise.nil, by simp, fun x hx e => ?_⟩
      obtain ⟨p, hp, q, hq, e2⟩ := hI.covers x hx
      refine absurd hp (fun hp => h p.2 ?_)
      have e3 : p.1 = (key s).1 := by rw [← e, e2]
      rw [← e3]
      exact hp
  have hmem : ∀ p, p ∈ pushMap (key s).1 (key s).2 s M ↔ (p.1 ≠ (key s).1 ∧ p ∈ M) ∨ (p.1 = (key s).1 ∧ ∃ row, (((key s).1, row) ∈ M ∨ ((∀ v, ((key s).1, v) ∉ M) ∧ row = [])) ∧ p.2 = mapAt (fun b => b.getD [] ++ [s]) (key s).2 row) := by
    intro p
    unfold pushMap
    rw [mem_mapAt hI.outer]
    constructor
    · rintro (h | ⟨h1, ⟨v, h2, h3⟩ | ⟨h2, h3⟩⟩)
      · exact Or.inl h
      · exact Or.inr ⟨h1, v, Or.inl h2, h3⟩
      · exact Or.inr ⟨h1, [], Or.inr ⟨h2, rfl⟩, h3⟩
    · rintro (h | ⟨h1, row, h2 | ⟨h2, rfl⟩, h3⟩)
      · exact Or.inl h
      · exact Or.inr ⟨h1, Or.inl ⟨row, h2, h3⟩⟩
      · exact Or.inr ⟨h1, Or.inr ⟨h2, h3⟩⟩
  refine ⟨mapAt_sorted hI.outer, fun p hp => ?_, fun p hp q hq => ?_, fun x hx => ?_⟩
  · rcases (hmem p).mp hp with ⟨_, h2⟩ | ⟨h1, row, h2, h3⟩
    · exact hI.inner p h2
    · rw [h3]
      obtain ⟨r1, r2, r3⟩ := hrow row h2
      exact mapAt_sorted r1
  · rcases (hmem p).mp hp with ⟨h1, h2⟩ | ⟨h1, row, h2, h3⟩
    · obtain ⟨b1, b2⟩ := hI.bucket p h2 q hq
      refine ⟨?_, b2⟩
      rw [List.filter_append, b1]
      have : decide (key s = (p.1, q.1)) = false := by
        rw [decide_eq_false_iff_not]
        intro e
        exact h1 (by rw [e])
      simp [this]
    · obtain ⟨r1, r2, r3⟩ := hrow row h2
      rw [h3] at hq
      have := (row_spec (key := key) (s := s) (f := (key s).1) (h := (key s).2) rfl r1 r2 r3).2.1 q hq
      rw [h1]
      exact this
  · by_cases e : (key x).1 = (key s).1
    · have hex : ∃ row, (((key s).1, row) ∈ M ∨ ((∀ v, ((key s).1, v) ∉ M) ∧ row = [])) := by
        by_cases hv : ∃ v, ((key s).1, v) ∈ M
        · obtain ⟨v, hv⟩ := hv
          exact ⟨v, Or.inl hv⟩
        · exact ⟨[], Or.inr ⟨fun v hv' => hv ⟨v, hv'⟩, rfl⟩⟩
      obtain ⟨row, h2⟩ := hex
      obtain ⟨r1, r2, r3⟩ := hrow row h2
      obtain ⟨q, hq, e2⟩ := (row_spec (key := key) (s := s) (f := (key s).1) (h := (key s).2) rfl r1 r2 r3).2.2 x hx e
      exact ⟨((key s).1, _), (hmem _).mpr (Or.inr ⟨rfl, row, h2, rfl⟩), q, hq, e2⟩
    · rcases List.mem_append.mp hx with hx | hx
      · obtain ⟨p, hp, q, hq, e2⟩ := hI.covers x hx
        refine ⟨p, (hmem p).mpr (Or.inl ⟨fun e3 => e ?_, hp⟩), q, hq, e2⟩
        rw [e2, ← e3]
      · simp only [List.mem_cons, List.not_mem_nil, or_false] at hx
        subst hx
        exact absurd rfl e

theorem fillMap_spec {d : Distances} {key : Nat → Nat × Nat} : ∀ {ss done : List Nat} {M : List (Nat × List (Nat × List Nat))}, (∀ s ∈ ss, fhAt d s = some (key s)) → MapInv key done M → ∃ M', fillMap d ss M = some M' ∧ MapInv key (done ++ ss) M'
  | [], done, M, _, hI => ⟨M, rfl, by simpa using hI⟩
  | s :: ss, done, M, h, hI => by
    simp only [fillMap]
    rw [h s (by simp)]
    obtain ⟨M', h1, h2⟩ := fillMap_spec (ss := ss) (fun x hx => h x (by simp [hx])) (hI.push s)
    exact ⟨M', h1, by simpa [List.append_assoc] using h2⟩

theorem bucketsMap_spec {df dh : HighLow} {d : Distances} {key : Nat → Nat × Nat} {n : Nat} (h : ∀ s, s < n → fhAt d s = some (key s)) : ∃ bs, bucketsMap df dh d n = some bs ∧ IsBuckets df dh key n bs := by
  obtain ⟨M, h1, hI⟩ := fillMap_spec (d := d) (key := key) (ss := List.range n) (done := []) (M := []) (fun s hs => h s (List.mem_range.mp hs)) ⟨List.Pairwise.nil, by simp, by simp, by simp⟩
  simp only [List.nil_append] at hI
  unfold bucketsMap
  rw [h1]
  have hmem : ∀ b, b ∈ (df.order M).flatMap (fun p => (dh.order p.2).map (·.2)) ↔ ∃ p ∈ M, ∃ q ∈ p.2, q.2 = b := by
    intro b
    simp only [List.mem_flatMap, List.mem_map, mem_order]
  have hin : ∀ p ∈ M, ∀ q ∈ p.2, ∀ s, s ∈ q.2 ↔ s < n ∧ key s = (p.1, q.1) := by
    intro p hp q hq s
    rw [(hI.bucket p hp q hq).1]
    simp
  refine ⟨_, rfl, fun b hb => ?_, fun b hb => ?_, fun b hb => ?_, fun s hs => ?_, ?_⟩
  · obtain ⟨p, hp, q, hq, rfl⟩ := (hmem b).mp hb
    exact (hI.bucket p hp q hq).2
  · obtain ⟨p, hp, q, hq, rfl⟩ := (hmem b).mp hb
    rw [(hI.bucket p hp q hq).1]
    exact List.nodup_range.filter _
  · obtain ⟨p, hp, q, hq, rfl⟩ := (hmem b).mp hb
    exact ⟨(p.1, q.1), hin p hp q hq⟩
  · obtain ⟨p, hp, q, hq, e⟩ := hI.covers s (List.mem_range.mpr hs)
    exact ⟨q.2, (hmem q.2).mpr ⟨p, hp, q, hq, rfl⟩, (hin p hp q hq s).mpr ⟨hs, e⟩⟩
  · rw [List.pairwise_flatMap]
    constructor
    · intro p hp
      rw [mem_order] at hp
      have hpw := (hI.inner p hp)
      have hpw2 : p.2.Pairwise (fun q q' => q ∈ p.2 ∧ q' ∈ p.2 ∧ q.1 < q'.1) := List.Pairwise.imp_of_mem (fun ha hb hab => ⟨ha, hb, hab⟩) hpw
      rw [List.pairwise_map]
      refine pairwise_order hpw2 (fun hd q q' ⟨m1, m2, hlt⟩ s hs s' hs' => Or.inr ?_) (fun hd q q' ⟨m1, m2, hlt⟩ s' hs' s hs => Or.inr ?_)
      · rw [((hin p hp q m1 s).mp hs).2, ((hin p hp q' m2 s').mp hs').2, hd]
        exact ⟨rfl, hlt⟩
      · rw [((hin p hp q m1 s).mp hs).2, ((hin p hp q' m2 s').mp hs').2, hd]
        exact ⟨rfl, hlt⟩
    · have hpw2 : M.Pairwise (fun p p' => p ∈ M ∧ p' ∈ M ∧ p.1 < p'.1) := List.Pairwise.imp_of_mem (fun ha hb hab => ⟨ha, hb, hab⟩) hI.outer
      refine pairwise_order hpw2 (fun hd p p' ⟨m1, m2, hlt⟩ b hb b' hb' s hs s' hs' => Or.inl ?_) (fun hd p p' ⟨m1, m2, hlt⟩ b' hb' b hb s' hs' s hs => Or.inl ?_)
      · obtain ⟨q, hq, rfl⟩ := List.mem_map.mp hb
        obtain ⟨q', hq', rfl⟩ := List.mem_map.mp hb'
        rw [mem_order] at hq hq'
        rw [((hin p m1 q hq s).mp hs).2, ((hin p' m2 q' hq' s').mp hs').2, hd]
        exact hlt
      · obtain ⟨q, hq, rfl⟩ := List.mem_map.mp hb
        obtain ⟨q', hq', rfl⟩ := List.mem_map.mp hb'
        rw [mem_order] at hq hq'
        rw [((hin p m1 q hq s).mp hs).2, ((hin p' m2 q' hq' s').mp hs').2, hd]
        exact hlt

/-! ### the vector -/

/-- cell `f`, `h` of the vector contains the states with these values -/
structure VecInv (key : Nat → Nat × Nat) (maxF maxH : Nat) (done : List Nat) (M : List (List (List Nat))) : Prop where
  outer : M.length = maxF + 1
  inner : ∀ (f : Nat) (row : List (List Nat)), M[f]? = some row → row.length = min f maxH + 1
  cell : ∀ (f : Nat) (row : List (List Nat)), M[f]? = some row → ∀ (h : Nat) (b : List Nat), row[h]? = some b → b = done.filter (fun s => decide (key s = (f, h)))

theorem VecInv.push {key : Nat → Nat × Nat} {maxF maxH : Nat} {done : List Nat} {M : List (List (List Nat))} (hI : VecInv key maxF maxH done M) {s : Nat} (h1 : (key s).1 ≤ maxF) (h2 : (key s).2 ≤ maxH) (h3 : (key s).2 ≤ (key s).1) :
    ∃ M', pushVector (key s).1 (key s).2 s M = some M' ∧ VecInv key maxF maxH (done ++ [s]) M' := by
  have hlt : (key s).1 < M.length := by rw [hI.outer]; omega
  have hrow := List.getElem?_eq_getElem hlt
  have hlen := hI.inner _ _ hrow
  have hlt2 : (key s).2 < (M[(key s).1]).length := by rw [hlen]; omega
  have hb := List.getElem?_eq_getElem hlt2
  unfold pushVector
  rw [hrow]
  simp only
  rw [hb]
  simp only
  refine ⟨_, rfl, by simpa using hI.outer, fun f row hf => ?_, fun f row hf h b hh => ?_⟩
  · by_cases e : (key s).1 = f
    · subst e
      rw [List.getElem?_set_self hlt] at hf
      simp only [Option.some.injEq] at hf
      subst hf
      simpa using hlen
    · rw [List.getElem?_set_ne e] at hf
      exact hI.inner f row hf
  · rw [List.filter_append]
    by_cases e : (key s).1 = f
    · subst e
      rw [List.getElem?_set_self hlt] at hf
      simp only [Option.some.injEq] at hf
      subst hf
      by_cases e2 : (key s).2 = h
      · subst e2
        rw [List.getElem?_set_self hlt2] at hh
        simp only [Option.some.injEq] at hh
        subst hh
        have := hI.cell _ _ hrow _ _ hb
        simp only [Prod.mk.eta] at this ⊢
        rw [← this]
        simp
      · rw [List.getElem?_set_ne e2] at hh
        rw [← hI.cell _ _ hrow _ _ hh]
        have : decide (key s = ((key s).1, h)) = false := by
          rw [decide_eq_false_iff_not]
          intro e3
          exact e2 (by rw [e3])
        simp [this]
    · rw [List.getElem?_set_ne e] at hf
      rw [← hI.cell _ _ hf _ _ hh]
      have : decide (key s = (f, h)) = false := by
        rw [decide_eq_false_iff_not]
        intro e3
        exact e (by rw [e3])
      simp [this]

theorem fillVector_spec {d : Distances} {key : Nat → Nat × Nat} {maxF maxH : Nat} : ∀ {ss done : List Nat} {M : List (List (List Nat))}, (∀ s ∈ ss, fhAlive d s = some (key s) ∧ (key s).1 ≤ maxF ∧ (key s).2 ≤ maxH ∧ (key s).2 ≤ (key s).1) →
    VecInv key maxF maxH done M → ∃ M', fillVector d ss M = some M' ∧ VecInv key maxF maxH (done ++ ss) M'
  | [], done, M, _, hI => ⟨M, rfl, by simpa using hI⟩
  | s :: ss, done, M, h, hI => by
    simp only [fillVector]
    obtain ⟨k1, k2, k3, k4⟩ := h s (by simp)
    rw [k1]
    obtain ⟨M1, h1, h2⟩ := hI.push k2 k3 k4
    simp only
    rw [h1]
    obtain ⟨M', h3, h4⟩ := fillVector_spec (ss := ss) (fun x hx => h x (by simp [hx])) h2
    exact ⟨M', h3, by simpa [List.append_assoc] using h4⟩

theorem bucketsVector_spec {df dh : HighLow} {d : Distances} {key : Nat → Nat × Nat} {n maxF maxH : Nat} (h : ∀ s, s < n → fhAlive d s = some (key s) ∧ (key s).1 ≤ maxF ∧ (key s).2 ≤ maxH ∧ (key s).2 ≤ (key s).1) :
    ∃ bs, bucketsVector df dh d n maxF maxH = some bs ∧ IsBuckets df dh key n bs := by
  have hI0 : VecInv key maxF maxH [] ((List.range (maxF + 1)).map (fun f => List.replicate (min f maxH + 1) [])) := by
    refine ⟨by simp, fun f row hf => ?_, fun f row hf h b hb => ?_⟩
    · rw [List.getElem?_map] at hf
      obtain ⟨x, hx, rfl⟩ := Option.map_eq_some_iff.mp hf
      have := (List.getElem?_eq_some_iff.mp hx)
      obtain ⟨h1, h2⟩ := this
      simp only [List.getElem_range] at h2
      subst h2
      simp
    · rw [List.getElem?_map] at hf
      obtain ⟨x, hx, rfl⟩ := Option.map_eq_some_iff.mp hf
      exact (List.mem_replicate.mp (List.mem_of_getElem? hb)).2
  obtain ⟨M, h1, hI⟩ := fillVector_spec (d := d) (ss := List.range n) (done := []) (fun s hs => h s (List.mem_range.mp hs)) hI0
  simp only [List.nil_append] at hI
  unfold bucketsVector
  rw [h1]
  have hmem : ∀ b, b ∈ (df.order M).flatMap (fun row => (dh.order row).filter (fun b => !b.isEmpty)) ↔ ∃ row ∈ M, b ∈ row ∧ b ≠ [] := by
    intro b
    simp [List.mem_flatMap, mem_order]
  have hin : ∀ (f : Nat) (row : List (List Nat)), M[f]? = some row → ∀ (h : Nat) (b : List Nat), row[h]? = some b → ∀ s, s ∈ b ↔ s < n ∧ key s = (f, h) := by
    intro f row hf h b hb s
    rw [hI.cell f row hf h b hb]
    simp
  have idx : ∀ {α : Type} (l : List α), l.Pairwise (fun a b => ∃ i j : Nat, l[i]? = some a ∧ l[j]? = some b ∧ i < j) := by
    intro α l
    rw [List.pairwise_iff_getElem]
    intro i j hi hj hij
    exact ⟨i, j, List.getElem?_eq_getElem hi, List.getElem?_eq_getElem hj, hij⟩
  refine ⟨_, rfl, fun b hb => ?_, fun b hb => ?_, fun b hb => ?_, fun s hs => ?_, ?_⟩
  · obtain ⟨row, _, _, hne⟩ := (hmem b).mp hb
    exact hne
  · obtain ⟨row, hr, hb, _⟩ := (hmem b).mp hb
    obtain ⟨f, hf⟩ := List.mem_iff_getElem?.mp hr
    obtain ⟨h, hh⟩ := List.mem_iff_getElem?.mp hb
    rw [hI.cell f row hf h b hh]
    exact List.nodup_range.filter _
  · obtain ⟨row, hr, hb, _⟩ := (hmem b).mp hb
    obtain ⟨f, hf⟩ := List.mem_iff_getElem?.mp hr
    obtain ⟨h, hh⟩ := List.mem_iff_getElem?.mp hb
    exact ⟨(f, h), hin f row hf h b hh⟩
  · obtain ⟨_, k2, k3, k4⟩ := h s hs
    have hlt : (key s).1 < M.length := by rw [hI.outer]; omega
    have hrow := List.getElem?_eq_getElem hlt
    have hlt2 : (key s).2 < (M[(key s).1]).length := by rw [hI.inner _ _ hrow]; omega
    have hb := List.getElem?_eq_getElem hlt2
    have hs' := (hin _ _ hrow _ _ hb s).mpr ⟨hs, rfl⟩
    refine ⟨_, (hmem _).mpr ⟨_, List.mem_of_getElem? hrow, List.mem_of_getElem? hb, List.ne_nil_of_mem hs'⟩, hs'⟩
  · rw [List.pairwise_flatMap]
    constructor
    · intro row hr
      rw [mem_order] at hr
      obtain ⟨f, hf⟩ := List.mem_iff_getElem?.mp hr
      refine List.Pairwise.filter _ ?_
      refine pairwise_order (idx row) (fun hd b b' ⟨i, j, hi, hj, hij⟩ s hs s' hs' => Or.inr ?_) (fun hd b b' ⟨i, j, hi, hj, hij⟩ s' hs' s hs => Or.inr ?_)
      · rw [((hin f row hf i b hi s).mp hs).2, ((hin f row hf j b' hj s').mp hs').2, hd]
        exact ⟨rfl, hij⟩
      · rw [((hin f row hf i b hi s).mp hs).2, ((hin f row hf j b' hj s').mp hs').2, hd]
        exact ⟨rfl, hij⟩
    · refine pairwise_order (idx M) (fun hd r r' ⟨i, j, hi, hj, hij⟩ b hb b' hb' s hs s' hs' => Or.inl ?_) (fun hd r r' ⟨i, j, hi, hj, hij⟩ b' hb' b hb s' hs' s hs => Or.inl ?_)
      · simp only [List.mem_filter, mem_order] at hb hb'
        obtain ⟨x, hx⟩ := List.mem_iff_getElem?.mp hb.1
        obtain ⟨y, hy⟩ := List.mem_iff_getElem?.mp hb'.1
        rw [((hin i r hi x b hx s).mp hs).2, ((hin j r' hj y b' hy s').mp hs').2, hd]
        exact hij
      · simp only [List.mem_filter, mem_order] at hb hb'
        obtain ⟨x, hx⟩ := List.mem_iff_getElem?.mp hb.1
        obtain ⟨y, hy⟩ := List.mem_iff_getElem?.mp hb'.1
        rw [((hin i r hi x b hx s).mp hs).2, ((hin j r' hj y b' hy s').mp hs').2, hd]
        exact hij

end Verif.Mas
