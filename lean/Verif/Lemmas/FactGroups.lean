import Verif.Model.FactGroups
import Verif.Spec.FactGroups

/-
Lemmas about the queue of groups.
-/
namespace Verif.FactGroups
open scoped List
variable {α : Type} [DecidableEq α]

/-- every set is in a list for its size or for a greater size, and none in the lists for sizes above `m` -/
structure Inv (sets : Nat → List α) (m : Nat) (b : List (List Nat)) : Prop where
  len : m < b.length
  small : ∀ (k : Nat) (l : List Nat), b[k]? = some l → ∀ c ∈ l, k ≤ m ∧ (sets c).length ≤ k

theorem perm_set {γ : Type} : ∀ (b : List (List γ)) (k : Nat) (l l' : List γ), b[k]? = some l → (l' ++ b.flatten).Perm (l ++ (b.set k l').flatten)
  | [], k, l, l', h => by simp at h
  | x :: b, 0, l, l', h => by
    simp only [List.getElem?_cons_zero, Option.some.injEq] at h
    subst h
    simp only [List.flatten_cons, List.set_cons_zero]
    rw [← List.append_assoc, ← List.append_assoc]
    exact (List.perm_append_comm).append_right _
  | x :: b, k + 1, l, l', h => by
    simp only [List.getElem?_cons_succ] at h
    have ih := perm_set b k l l' h
    simp only [List.flatten_cons, List.set_cons_succ]
    calc l' ++ (x ++ b.flatten) = (l' ++ x) ++ b.flatten := by simp
      _ ~ (x ++ l') ++ b.flatten := List.perm_append_comm.append_right _
      _ = x ++ (l' ++ b.flatten) := by simp
      _ ~ x ++ (l ++ (b.set k l').flatten) := ih.append_left _
      _ = (x ++ l) ++ (b.set k l').flatten := by simp
      _ ~ (l ++ x) ++ (b.set k l').flatten := List.perm_append_comm.append_right _
      _ = l ++ (x ++ (b.set k l').flatten) := by simp

theorem push_spec {b : List (List Nat)} {k c : Nat} (h : k < b.length) : ∃ l, b[k]? = some l ∧ push b k c = some (b.set k (c :: l)) ∧ (c :: b.flatten).Perm (b.set k (c :: l)).flatten := by
  refine ⟨b[k], by simp [h], by simp [push, h], ?_⟩
  have h1 : b[k]? = some b[k] := by simp [h]
  have h2 := perm_set b k b[k] (c :: b[k]) h1
  have h3 : (b[k] ++ (c :: b.flatten)).Perm (b[k] ++ (b.set k (c :: b[k])).flatten) := by
    refine List.Perm.trans ?_ h2
    simpa using (List.perm_middle (a := c) (l₁ := b[k]) (l₂ := b.flatten))
  exact (List.perm_append_left_iff _).mp h3

theorem Inv.set {sets : Nat → List α} {m k : Nat} {b : List (List Nat)} {l : List Nat} (h : Inv sets m b) (hl : ∀ c ∈ l, k ≤ m ∧ (sets c).length ≤ k) : Inv sets m (b.set k l) := by
  refine ⟨by simpa using h.len, fun k' l' h' c hc => ?_⟩
  rw [List.getElem?_set] at h'
  split at h'
  · rename_i he
    subst he
    split at h'
    · simp only [Option.some.injEq] at h'
      subst h'
      exact hl c hc
    · cases h'
  · exact h.small k' l' h' c hc

theorem scan_spec {sets : Nat → List α} {m : Nat} : ∀ (l : List Nat) (b : List (List Nat)), Inv sets (m + 1) b → b[m + 1]? = some [] → (∀ c ∈ l, (sets c).length ≤ m + 1) →
    ∃ r b', scan sets (m + 1) l b = some (r, b') ∧ Inv sets (m + 1) b' ∧ b'[m + 1]? = some [] ∧
      match r with
      | none => (l ++ b.flatten).Perm b'.flatten
      | some (c, cs) => (sets c).length = m + 1 ∧ (∀ x ∈ cs, (sets x).length ≤ m + 1) ∧ (l ++ b.flatten).Perm (c :: cs ++ b'.flatten)
  | [], b, hb, hm, _ => ⟨none, b, rfl, hb, hm, by simp⟩
  | c :: cs, b, hb, hm, hl => by
    by_cases hc : (sets c).length = m + 1
    · refine ⟨some (c, cs), b, by simp [scan, hc], hb, hm, ?_⟩
      exact ⟨hc, fun x hx => hl x (by simp [hx]), by simp⟩
    · have hle := hl c (by simp)
      have hlt : (sets c).length < m + 1 := by omega
      have hlen := hb.len
      obtain ⟨l', hl', hpush, hperm⟩ := push_spec (b := b) (k := (sets c).length) (c := c) (by omega)
      have hb' : Inv sets (m + 1) (b.set (sets c).length (c :: l')) := by
        refine hb.set fun x hx => ⟨by omega, ?_⟩
        rcases List.mem_cons.mp hx with rfl | hx
        · exact le_refl _
        · exact (hb.small _ _ hl' x hx).2
      have hm' : (b.set (sets c).length (c :: l'))[m + 1]? = some [] := by
        rw [List.getElem?_set_ne (by omega)]; exact hm
      obtain ⟨r, b', h1, h2, h3, h4⟩ := scan_spec cs _ hb' hm' (fun x hx => hl x (by simp [hx]))
      refine ⟨r, b', ?_, h2, h3, ?_⟩
      · rw [scan, if_neg hc, hpush]; exact h1
      · have hp : (c :: cs ++ b.flatten).Perm (cs ++ (b.set (sets c).length (c :: l')).flatten) := by
          refine List.Perm.trans ?_ (hperm.append_left cs)
          simpa using (List.perm_middle (a := c) (l₁ := cs) (l₂ := b.flatten)).symm
        cases r with
        | none => exact hp.trans h4
        | some r => exact ⟨h4.1, h4.2.1, hp.trans h4.2.2⟩

/-- the result of `_update_top` -/
theorem updateTop_spec {sets : Nat → List α} : ∀ (m : Nat) (b : List (List Nat)), Inv sets m b →
    ∃ m' r b', updateTop sets m b = some (m', r, b') ∧ Inv sets m' b' ∧
      match r with
      | none => m' ≤ 1 ∧ b.flatten.Perm b'.flatten
      | some c => 2 ≤ m' ∧ (sets c).length = m' ∧ b.flatten.Perm (c :: b'.flatten)
  | 0, b, hb => ⟨0, none, b, rfl, hb, by simp⟩
  | m + 1, b, hb => by
    by_cases hm : m = 0
    · subst hm
      exact ⟨1, none, b, by simp [updateTop], hb, by simp⟩
    · have hlen := hb.len
      have hget : b[m + 1]? = some b[m + 1] := by simp [hlen]
      have hsmall := hb.small _ _ hget
      have hb0 : Inv sets (m + 1) (b.set (m + 1) []) := hb.set (by simp)
      obtain ⟨r, b', h1, h2, h3, h4⟩ := scan_spec (m := m) b[m + 1] _ hb0 (by simp [hlen]) (fun c hc => (hsmall c hc).2)
      have hperm : b.flatten.Perm (b[m + 1] ++ (b.set (m + 1) []).flatten) := by
        simpa using perm_set b (m + 1) b[m + 1] [] hget
      cases r with
      | some r =>
        obtain ⟨c, cs⟩ := r
        obtain ⟨h5, h6, h7⟩ := h4
        refine ⟨m + 1, some c, b'.set (m + 1) cs, ?_, h2.set (fun x hx => ⟨le_refl _, h6 x hx⟩), by omega, h5, ?_⟩
        · rw [updateTop, if_neg hm, hget]; simp only []; rw [h1]
        · have hp : (cs ++ b'.flatten).Perm (b'.set (m + 1) cs).flatten := by simpa using perm_set b' (m + 1) [] cs h3
          exact (hperm.trans h7).trans (by simpa using hp)
      | none =>
        have hb2 : Inv sets m b' := by
          refine ⟨by have := h2.len; omega, fun k l hk c hc => ?_⟩
          have := h2.small k l hk c hc
          refine ⟨?_, this.2⟩
          rcases Nat.lt_or_ge k (m + 1) with h | h
          · omega
          · have : k = m + 1 := by omega
            subst this
            rw [h3, Option.some.injEq] at hk
            subst hk
            cases hc
        obtain ⟨m', r', b'', h5, h6, h7⟩ := updateTop_spec m b' hb2
        refine ⟨m', r', b'', ?_, h6, ?_⟩
        · rw [updateTop, if_neg hm, hget]; simp only []; rw [h1]; exact h5
        · have hp := hperm.trans h4
          cases r' with
          | none => exact ⟨h7.1, hp.trans h7.2⟩
          | some c => exact ⟨h7.1, h7.2.1, hp.trans h7.2.2⟩

theorem Inv.pending {sets : Nat → List α} {m : Nat} {b : List (List Nat)} (h : Inv sets m b) : ∀ c ∈ b.flatten, (sets c).length ≤ m := by
  intro c hc
  obtain ⟨l, hl, hcl⟩ := List.mem_flatten.mp hc
  obtain ⟨k, hk, rfl⟩ := List.getElem_of_mem hl
  have := h.small k _ (by simp [hk]) c hcl
  omega

theorem Inv.mono {sets sets' : Nat → List α} {m : Nat} {b : List (List Nat)} (h : Inv sets m b) (hs : ∀ c, (sets' c).length ≤ (sets c).length) : Inv sets' m b :=
  ⟨h.len, fun k l hk c hc => ⟨(h.small k l hk c hc).1, (hs c).trans (h.small k l hk c hc).2⟩⟩

theorem setOf_cons_succ (g : List α) (gs : List (List α)) (i : Nat) : setOf (g :: gs) (i + 1) = setOf gs i := rfl

theorem pushAll_spec {sets : Nat → List α} {m : Nat} : ∀ (gs : List (List α)) (i : Nat) (b : List (List Nat)), Inv sets m b → (∀ (j : Nat) (g : List α), gs[j]? = some g → sets (i + j) = g.dedup ∧ g.length ≤ m) →
    ∃ b', pushAll gs i b = some b' ∧ Inv sets m b' ∧ b'.flatten.Perm (List.range' i gs.length ++ b.flatten)
  | [], i, b, hb, _ => ⟨b, rfl, hb, by simp⟩
  | g :: gs, i, b, hb, hs => by
    obtain ⟨h1, h2⟩ := hs 0 g rfl
    have hle : g.dedup.length ≤ g.length := (List.dedup_sublist g).length_le
    have hlen := hb.len
    obtain ⟨l, hl, hpush, hperm⟩ := push_spec (b := b) (k := g.dedup.length) (c := i) (by omega)
    have hb' : Inv sets m (b.set g.dedup.length (i :: l)) := by
      refine hb.set fun x hx => ⟨by omega, ?_⟩
      rcases List.mem_cons.mp hx with rfl | hx
      · simp only [Nat.add_zero] at h1; rw [h1]
      · exact (hb.small _ _ hl x hx).2
    obtain ⟨b', h3, h4, h5⟩ := pushAll_spec gs (i + 1) _ hb' (fun j g' hj => by
      have := hs (j + 1) g' (by simpa using hj)
      rwa [show i + (j + 1) = i + 1 + j by omega] at this)
    refine ⟨b', ?_, h4, ?_⟩
    · rw [pushAll, hpush]; exact h3
    · refine h5.trans ?_
      rw [List.length_cons, List.range'_succ]
      refine (List.Perm.append_left _ hperm.symm).trans ?_
      simpa using List.perm_middle

theorem foldl_max_le : ∀ (l : List Nat) (a : Nat), a ≤ l.foldl max a ∧ ∀ x ∈ l, x ≤ l.foldl max a
  | [], a => by simp
  | y :: l, a => by
    obtain ⟨h1, h2⟩ := foldl_max_le l (max a y)
    refine ⟨by simp only [List.foldl_cons]; omega, fun x hx => ?_⟩
    simp only [List.foldl_cons]
    rcases List.mem_cons.mp hx with rfl | hx
    · omega
    · exact h2 x hx

theorem Inv.replicate {sets : Nat → List α} {m : Nat} : Inv sets m (List.replicate (m + 1) []) := by
  refine ⟨by simp, fun k l hk c hc => ?_⟩
  rw [List.getElem?_replicate] at hk
  split at hk
  · simp only [Option.some.injEq] at hk
    subst hk
    cases hc
  · cases hk

/-- the state of the queue when the given facts are covered: `order` are the numbers of the groups that were taken -/
structure Queue.Ok (part : Bool) (groups : List (List α)) (order : List Nat) (covered : List α) (q : Queue α) : Prop where
  byFact : ∀ x i, i ∈ q.byFact x ↔ x ∈ setOf groups i
  byFactNodup : ∀ x, (q.byFact x).Nodup
  sets : ∀ i, q.sets i = if part then (setOf groups i).filter (fun x => decide (x ∉ covered)) else setOf groups i
  inv : q.maxSize ≤ 1 ∨ Inv q.sets q.maxSize q.bySize
  none : q.top = none → q.maxSize ≤ 1 ∧ ∀ i < groups.length, i ∉ order → (q.sets i).length ≤ 1
  some : ∀ c, q.top = some c → 2 ≤ q.maxSize ∧ (q.sets c).length = q.maxSize ∧ (List.range groups.length).Perm (order ++ c :: q.bySize.flatten)

theorem setOf_nodup (groups : List (List α)) (i : Nat) : (setOf groups i).Nodup := List.nodup_dedup _

theorem mem_setOf {groups : List (List α)} {i : Nat} {x : α} : x ∈ setOf groups i ↔ ∃ g, groups[i]? = some g ∧ x ∈ g := by
  unfold setOf
  rw [List.mem_dedup]
  cases groups[i]? <;> simp

theorem setOf_lt {groups : List (List α)} {i : Nat} {x : α} (h : x ∈ setOf groups i) : i < groups.length := by
  obtain ⟨g, hg, _⟩ := mem_setOf.mp h
  exact (List.getElem?_eq_some_iff.mp hg).1

/-- after `_update_top`, the queue is in order again -/
theorem Ok_of_updateTop {part : Bool} {groups : List (List α)} {order : List Nat} {covered : List α} {sets : Nat → List α} {byFact : α → List Nat} {m : Nat} {b : List (List Nat)}
    (h1 : ∀ x i, i ∈ byFact x ↔ x ∈ setOf groups i) (h2 : ∀ x, (byFact x).Nodup) (h3 : ∀ i, sets i = if part then (setOf groups i).filter (fun x => decide (x ∉ covered)) else setOf groups i)
    (h4 : Inv sets m b) (h5 : (List.range groups.length).Perm (order ++ b.flatten)) :
    ∃ m' r b', updateTop sets m b = some (m', r, b') ∧ Queue.Ok part groups order covered ⟨m', sets, b', byFact, r⟩ := by
  obtain ⟨m', r, b', h6, h7, h8⟩ := updateTop_spec m b h4
  refine ⟨m', r, b', h6, h1, h2, h3, Or.inr h7, ?_, ?_⟩
  · rintro hr
    simp only at hr
    subst hr
    refine ⟨h8.1, fun i hi hio => ?_⟩
    have : i ∈ order ++ b.flatten := h5.subset (by simpa using hi)
    have hb : i ∈ b'.flatten := h8.2.subset ((List.mem_append.mp this).resolve_left hio)
    exact (h7.pending i hb).trans h8.1
  · intro c hr
    simp only at hr
    subst hr
    exact ⟨h8.1, h8.2.1, h5.trans (h8.2.2.append_left _)⟩

theorem mkQueue_spec (part : Bool) (groups : List (List α)) : ∃ q, mkQueue groups = some q ∧ q.Ok part groups [] [] := by
  unfold mkQueue
  by_cases hg : groups = []
  · subst hg
    refine ⟨_, rfl, ⟨fun x i => by simp [setOf], by simp, fun i => by simp [setOf], Or.inl (by simp), by simp, by simp⟩⟩
  · rw [if_neg (by simpa using hg)]
    obtain ⟨b, h1, h2, h3⟩ := pushAll_spec (sets := setOf groups) (m := (groups.map List.length).foldl max 0) groups 0 (List.replicate ((groups.map List.length).foldl max 0 + 1) []) Inv.replicate
      (fun j g hj => ⟨by simp [setOf, hj], (foldl_max_le _ _).2 _ (List.mem_map.mpr ⟨g, List.mem_of_getElem? hj, rfl⟩)⟩)
    obtain ⟨m', r, b', h4, h5⟩ := Ok_of_updateTop (part := part) (groups := groups) (order := []) (covered := []) (sets := setOf groups)
      (byFact := fun x => (List.range groups.length).filter (fun i => decide (x ∈ setOf groups i)))
      (fun x i => by
        simp only [List.mem_filter, List.mem_range, decide_eq_true_eq, and_iff_right_iff_imp]
        exact setOf_lt)
      (fun x => List.nodup_range.filter _) (fun i => by simp) h2 (by
        refine List.Perm.symm (h3.trans ?_)
        rw [List.range_eq_range']
        simp)
    refine ⟨_, ?_, h5⟩
    rw [h1]
    simp only []
    rw [h4]

theorem removeFact_spec (x : α) : ∀ (is : List Nat) (sets : Nat → List α), is.Nodup → (∀ i ∈ is, x ∈ sets i) →
    removeFact x is sets = some (fun j => if j ∈ is then (sets j).erase x else sets j)
  | [], sets, _, _ => by simp [removeFact]
  | i :: is, sets, hn, h => by
    rw [removeFact, if_pos (h i (by simp))]
    have hn' := List.nodup_cons.mp hn
    rw [removeFact_spec x is _ hn'.2 (fun j hj => by
      rw [if_neg (by rintro rfl; exact hn'.1 hj)]
      exact h j (by simp [hj]))]
    congr 1
    funext j
    by_cases hj : j = i
    · subst hj; simp [hn'.1]
    · simp [hj]

theorem removeFacts_spec (byFact : α → List Nat) (hb : ∀ x, (byFact x).Nodup) : ∀ (xs : List α) (sets : Nat → List α), xs.Nodup → (∀ i, (sets i).Nodup) → (∀ x ∈ xs, byFact x ≠ []) → (∀ x ∈ xs, ∀ i, i ∈ byFact x ↔ x ∈ sets i) →
    removeFacts byFact xs sets = some (fun j => (sets j).filter (fun y => decide (y ∉ xs)))
  | [], sets, _, _, _, _ => by simp [removeFacts]
  | x :: xs, sets, hn, hs, hne, h => by
    have hn' := List.nodup_cons.mp hn
    have he : (fun j => if j ∈ byFact x then (sets j).erase x else sets j) = fun j => (sets j).filter (fun y => y != x) := by
      funext j
      split
      · rw [(hs j).erase_eq_filter]
      · rename_i hj
        rw [h x (by simp)] at hj
        symm
        rw [List.filter_eq_self]
        intro y hy
        simp only [bne_iff_ne, ne_eq]
        rintro rfl
        exact hj hy
    rw [removeFacts, if_neg (by simpa using hne x (by simp)), removeFact_spec x _ _ (hb x) (fun i hi => (h x (by simp) i).mp hi)]
    simp only [he]
    rw [removeFacts_spec byFact hb xs _ hn'.2 (fun i => (hs i).filter _) (fun y hy => hne y (by simp [hy])) (fun y hy i => by
      rw [h y (by simp [hy]) i]
      simp only [List.mem_filter, bne_iff_ne, ne_eq, iff_self_and]
      rintro _ rfl
      exact hn'.1 hy)]
    congr 1
    funext j
    rw [List.filter_filter]
    congr 1
    funext y
    by_cases h1 : y = x <;> by_cases h2 : y ∈ xs <;> simp [h1, h2]

theorem remaining_card {part : Bool} {groups : List (List α)} {covered g : List α} {i : Nat} (hg : groups[i]? = Option.some g) :
    (if part then (setOf groups i).filter (fun x => decide (x ∉ covered)) else setOf groups i).toFinset = remaining part g covered := by
  unfold remaining
  cases part
  · ext x
    simp [setOf, hg]
  · ext x
    simp [setOf, hg]

theorem Queue.Ok.remaining {part : Bool} {groups : List (List α)} {order : List Nat} {covered g : List α} {q : Queue α} (h : q.Ok part groups order covered) {i : Nat} (hg : groups[i]? = Option.some g) :
    (q.sets i).Nodup ∧ (q.sets i).toFinset = remaining part g covered := by
  constructor
  · rw [h.sets]
    split
    · exact (setOf_nodup _ _).filter _
    · exact setOf_nodup _ _
  · rw [h.sets, remaining_card hg]

theorem Queue.Ok.card {part : Bool} {groups : List (List α)} {order : List Nat} {covered g : List α} {q : Queue α} (h : q.Ok part groups order covered) {i : Nat} (hg : groups[i]? = Option.some g) :
    (FactGroups.remaining part g covered).card = (q.sets i).length := by
  obtain ⟨h1, h2⟩ := h.remaining hg
  rw [← h2, List.toFinset_card_of_nodup h1]

theorem pop_spec {part : Bool} {groups : List (List α)} {order : List Nat} {covered : List α} {q : Queue α} {c : Nat} (h : q.Ok part groups order covered) (hc : q.top = some c) :
    ∃ q', pop part q = some (q.sets c, q') ∧ q'.Ok part groups (c :: order) (q.sets c ++ covered) := by
  obtain ⟨h2, hlen, hperm⟩ := h.some c hc
  have hinv : Inv q.sets q.maxSize q.bySize := h.inv.resolve_left (by omega)
  have hcl : c < groups.length := by
    have : c ∈ List.range groups.length := hperm.symm.subset (by simp)
    simpa using this
  obtain ⟨g, hg⟩ : ∃ g, groups[c]? = some g := ⟨groups[c], by simp [hcl]⟩
  obtain ⟨hnd, _⟩ := h.remaining hg
  have hperm' : (List.range groups.length).Perm (c :: order ++ q.bySize.flatten) := hperm.trans (by simpa using List.perm_middle)
  cases part with
  | false =>
    obtain ⟨m', r, b', h3, h4⟩ := Ok_of_updateTop (part := false) (covered := q.sets c ++ covered) (order := c :: order) h.byFact h.byFactNodup (by simpa using h.sets) hinv hperm'
    refine ⟨_, ?_, h4⟩
    unfold pop
    rw [hc]
    simp [h3]
  | true =>
    have hsets := h.sets
    simp only [if_true] at hsets
    have hr : removeFacts q.byFact (q.sets c) q.sets = some (fun j => (q.sets j).filter (fun y => decide (y ∉ q.sets c))) := by
      refine removeFacts_spec _ h.byFactNodup _ _ hnd (fun i => by rw [hsets]; exact (setOf_nodup _ _).filter _) (fun x hx => ?_) (fun x hx i => ?_)
      · rw [hsets, List.mem_filter] at hx
        exact List.ne_nil_of_mem ((h.byFact x c).mpr hx.1)
      · rw [h.byFact]
        rw [hsets, List.mem_filter] at hx
        rw [hsets, List.mem_filter]
        exact ⟨fun h' => ⟨h', hx.2⟩, fun h' => h'.1⟩
    obtain ⟨m', r, b', h3, h4⟩ := Ok_of_updateTop (part := true) (covered := q.sets c ++ covered) (order := c :: order) (sets := fun j => (q.sets j).filter (fun y => decide (y ∉ q.sets c))) h.byFact h.byFactNodup (fun i => by
      simp only [if_true]
      rw [hsets i, List.filter_filter]
      congr 1
      funext y
      by_cases h1 : y ∈ q.sets c <;> by_cases h2 : y ∈ covered <;> simp [h1, h2]) (hinv.mono (fun j => (List.length_filter_le _ _))) hperm'
    refine ⟨_, ?_, h4⟩
    unfold pop
    rw [hc]
    simp only [if_true]
    rw [hr]
    simp only []
    rw [h3]

theorem coverLoop_spec {part : Bool} {groups : List (List α)} : ∀ (n : Nat) (order : List Nat) (covered : List α) (q : Queue α) (uncovered : List α), q.Ok part groups order covered → groups.length ≤ n + order.length → order.Nodup → (∀ i ∈ order, i < groups.length) →
    ∃ out, coverLoop part n q uncovered = some (out, uncovered.filter (fun x => decide (x ∉ out.flatten))) ∧ Greedy part groups order covered out := by
  intro n
  induction n with
  | zero =>
    intro order covered q uncovered h hn hd hlt
    have htop : q.top = Option.none := by
      cases hc : q.top with
      | none => rfl
      | some c =>
        obtain ⟨_, _, hperm⟩ := h.some c hc
        have := hperm.length_eq
        simp at this
        omega
    obtain ⟨h1, h2⟩ := h.none htop
    refine ⟨[], by simp [coverLoop, h1], .stop _ _ fun i g hi hg => ?_⟩
    rw [h.card hg]
    exact h2 i (List.getElem?_eq_some_iff.mp hg).1 hi
  | succ n ih =>
    intro order covered q uncovered h hn hd hlt
    cases hc : q.top with
    | none =>
      obtain ⟨h1, h2⟩ := h.none hc
      refine ⟨[], by simp [coverLoop, h1], .stop _ _ fun i g hi hg => ?_⟩
      rw [h.card hg]
      exact h2 i (List.getElem?_eq_some_iff.mp hg).1 hi
    | some c =>
      obtain ⟨h2, hlen, hperm⟩ := h.some c hc
      have hinv : Inv q.sets q.maxSize q.bySize := h.inv.resolve_left (by omega)
      have hcl : c < groups.length := by
        have : c ∈ List.range groups.length := hperm.symm.subset (by simp)
        simpa using this
      have hco : c ∉ order := by
        intro hmem
        have hnd : (order ++ c :: q.bySize.flatten).Nodup := hperm.nodup_iff.mp List.nodup_range
        exact (List.nodup_append.mp hnd).2.2 c hmem c (by simp) rfl
      obtain ⟨g, hg⟩ : ∃ g, groups[c]? = some g := ⟨groups[c], by simp [hcl]⟩
      obtain ⟨hnd, hset⟩ := h.remaining hg
      obtain ⟨q', h3, h4⟩ := pop_spec h hc
      obtain ⟨out, h5, h6⟩ := ih (c :: order) (q.sets c ++ covered) q' (uncovered.filter (fun x => !(q.sets c).contains x)) h4 (by simp; omega) (List.nodup_cons.mpr ⟨hco, hd⟩) (by
        intro i hi
        rcases List.mem_cons.mp hi with rfl | hi
        · exact hcl
        · exact hlt i hi)
      refine ⟨q.sets c :: out, ?_, .take _ _ c g _ _ hco hg hnd hset (by omega) (fun j g' hj hg' => ?_) h6⟩
      · rw [coverLoop, if_pos (by omega), h3]
        simp only []
        rw [h5]
        simp only [Option.some.injEq, Prod.mk.injEq, true_and]
        rw [List.filter_filter]
        congr 1
        funext x
        by_cases h1 : x ∈ q.sets c <;> simp [h1]
      · rw [h.card hg', hlen]
        have hjl := (List.getElem?_eq_some_iff.mp hg').1
        have hjm : j ∈ order ++ c :: q.bySize.flatten := hperm.subset (by simpa using hjl)
        rcases List.mem_append.mp hjm with hj' | hj'
        · exact absurd hj' hj
        · rcases List.mem_cons.mp hj' with rfl | hj'
          · omega
          · exact hinv.pending j hj'

end Verif.FactGroups
