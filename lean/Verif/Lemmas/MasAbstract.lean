import Verif.Lemmas.MasMerge

/-
Locally equivalent labels and abstraction of a transition system.
-/
namespace Verif.Mas

theorem tr_iff {infos : List LocalLabel} {l a b : Nat} : Tr infos l a b ↔ ∃ (k : Nat) (i : LocalLabel), infos[k]? = some i ∧ l ∈ i.labels ∧ (a, b) ∈ i.transitions := by
  constructor
  · rintro ⟨i, hi, h⟩
    obtain ⟨k, hk⟩ := List.getElem?_of_mem hi
    exact ⟨k, i, hk, h⟩
  · rintro ⟨k, i, hk, h⟩
    exact ⟨i, List.mem_of_getElem? hk, h⟩

theorem has_iff {infos : List LocalLabel} {l : Nat} : Has infos l ↔ ∃ (k : Nat) (i : LocalLabel), infos[k]? = some i ∧ l ∈ i.labels := by
  constructor
  · rintro ⟨i, hi, h⟩
    obtain ⟨k, hk⟩ := List.getElem?_of_mem hi
    exact ⟨k, i, hk, h⟩
  · rintro ⟨k, i, hk, h⟩
    exact ⟨i, List.mem_of_getElem? hk, h⟩

theorem mem_set_iff {α : Type} {l : List α} {n : Nat} {v x : α} (hn : n < l.length) : x ∈ l.set n v ↔ x = v ∨ ∃ k, k ≠ n ∧ l[k]? = some x := by
  rw [List.mem_iff_getElem?]
  constructor
  · rintro ⟨k, hk⟩
    rw [List.getElem?_set] at hk
    by_cases e : n = k
    · rw [if_pos e, if_pos (by omega)] at hk
      simp only [Option.some.injEq] at hk
      exact Or.inl hk.symm
    · rw [if_neg e] at hk
      exact Or.inr ⟨k, fun h => e h.symm, hk⟩
  · rintro (rfl | ⟨k, h1, h2⟩)
    · exact ⟨n, by rw [List.getElem?_set, if_pos rfl, if_pos hn]⟩
    · exact ⟨k, by rw [List.getElem?_set, if_neg (fun h => h1 h.symm), h2]⟩

/-- what combining local labels preserves -/
structure SameTr (L : Labels) (st st' : List (Option Nat) × List LocalLabel) : Prop where
  pcons : PCons L st.1 st.2 → PCons L st'.1 st'.2
  tr : ∀ l a b, Tr st'.2 l a b ↔ Tr st.2 l a b
  has : ∀ l, Has st'.2 l ↔ Has st.2 l
  len : st'.1.length = st.1.length
  infos : st'.2.length = st.2.length
  trans : ∀ i ∈ st'.2, ∀ t ∈ i.transitions, ∃ j ∈ st.2, t ∈ j.transitions

theorem SameTr.refl (L : Labels) (st : List (Option Nat) × List LocalLabel) : SameTr L st st := ⟨id, by simp, by simp, rfl, rfl, fun i hi t ht => ⟨i, hi, ht⟩⟩

theorem SameTr.trans' {L : Labels} {a b c : List (Option Nat) × List LocalLabel} (h1 : SameTr L a b) (h2 : SameTr L b c) : SameTr L a c := by
  refine ⟨fun h => h2.pcons (h1.pcons h), fun l x y => by rw [h2.tr, h1.tr], fun l => by rw [h2.has, h1.has], by rw [h2.len, h1.len], by rw [h2.infos, h1.infos], ?_⟩
  intro i hi t ht
  obtain ⟨j, hj, hjt⟩ := h2.trans i hi t ht
  exact h1.trans j hj t hjt

theorem equivStep_spec {L : Labels} {i j : Nat} (hij : i ≠ j) {st st' : List (Option Nat) × List LocalLabel} (h : equivStep i j st = some st') {a : LocalLabel} (hi : st.2[i]? = some a) (ha : a.labels ≠ []) :
    SameTr L st st' ∧ ∃ a' : LocalLabel, st'.2[i]? = some a' ∧ a'.labels ≠ [] := by
  unfold equivStep at h
  · 
    cases hj : st.2[j]? with
    | none => rw [hi, hj] at h; simp at h
    | some b =>
      rw [hi, hj] at h
      simp only at h
      by_cases hc : b.active ∧ a.transitions = b.transitions
      · rw [if_pos hc] at h
        cases hs : setAll (some i) b.labels st.1 with
        | none => rw [hs] at h; simp at h
        | some m =>
          rw [hs] at h
          simp only [Option.some.injEq] at h
          subst h
          obtain ⟨s1, s2, s3⟩ := setAll_spec hs
          have hil : i < st.2.length := (List.getElem?_eq_some_iff.mp hi).1
          have hjl : j < st.2.length := (List.getElem?_eq_some_iff.mp hj).1
          have hget : ∀ k : Nat, ((st.2.set i ⟨sortLabels (a.labels ++ b.labels), a.transitions, min a.cost b.cost⟩).set j inactive)[k]? =
              if j = k then some inactive else if i = k then some ⟨sortLabels (a.labels ++ b.labels), a.transitions, min a.cost b.cost⟩ else st.2[k]? := by
            intro k
            rw [List.getElem?_set]
            by_cases e1 : j = k
            · rw [if_pos e1, if_pos e1, if_pos (by rw [List.length_set]; omega)]
            · rw [if_neg e1, if_neg e1, List.getElem?_set]
              by_cases e2 : i = k
              · rw [if_pos e2, if_pos e2, if_pos (by omega)]
              · rw [if_neg e2, if_neg e2]
          refine ⟨⟨?_, ?_, ?_, s1, by simp, ?_⟩, ⟨_, by rw [hget, if_neg (fun e => hij e.symm), if_pos rfl], ?_⟩⟩
          · intro hp
            have halive : ∀ l ∈ a.labels ++ b.labels, ∃ c, L.cost l = some c ∧ min a.cost b.cost ≤ c := by
              intro l hl
              rcases List.mem_append.mp hl with e | e
              · obtain ⟨c, h1, h2⟩ := hp.live a (List.mem_of_getElem? hi) l e
                exact ⟨c, h1, by omega⟩
              · obtain ⟨c, h1, h2⟩ := hp.live b (List.mem_of_getElem? hj) l e
                exact ⟨c, h1, by omega⟩
            have hact : b.labels ≠ [] := by
              have := hc.1
              simpa [LocalLabel.active] using this
            refine ⟨?_, ?_, ?_⟩
            · intro k x l hk hl
              simp only at hk
              rw [hget] at hk
              split at hk
              · simp only [Option.some.injEq] at hk; subst hk; simp [inactive] at hl
              · split at hk
                · rename_i e1 e2
                  simp only [Option.some.injEq] at hk
                  subst hk e2
                  simp only [mem_sortLabels, List.mem_append] at hl
                  by_cases hb : l ∈ b.labels
                  · exact s2 l hb
                  · show m[l]? = _
                    rw [s3 l hb]
                    exact hp.mapped i a l hi (by tauto)
                · rename_i e1 e2
                  show m[l]? = _
                  rw [s3 l (fun hb => e1 (hp.unique hj hk hb hl))]
                  exact hp.mapped k x l hk hl
            · intro x hx l hl
              obtain ⟨k, hk⟩ := List.getElem?_of_mem hx
              simp only at hk
              rw [hget] at hk
              split at hk
              · simp only [Option.some.injEq] at hk; subst hk; simp [inactive] at hl
              · split at hk
                · simp only [Option.some.injEq] at hk
                  subst hk
                  exact halive l (mem_sortLabels.mp hl)
                · exact hp.live x (List.mem_of_getElem? hk) l hl
            · intro x hx hne
              obtain ⟨k, hk⟩ := List.getElem?_of_mem hx
              simp only at hk
              rw [hget] at hk
              split at hk
              · simp only [Option.some.injEq] at hk; subst hk; simp [inactive] at hne
              · split at hk
                · simp only [Option.some.injEq] at hk
                  subst hk
                  simp only [mem_sortLabels, List.mem_append]
                  obtain ⟨l2, h3, h4⟩ := hp.least b (List.mem_of_getElem? hj) hact
                  · obtain ⟨l1, h1, h2⟩ := hp.least a (List.mem_of_getElem? hi) ha
                    by_cases hcost : a.cost ≤ b.cost
                    · exact ⟨l1, Or.inl h1, by rw [h2]; congr 1; omega⟩
                    · exact ⟨l2, Or.inr h3, by rw [h4]; congr 1; omega⟩
                · exact hp.least x (List.mem_of_getElem? hk) hne
          · intro l x y
            rw [tr_iff, tr_iff]
            simp only [hget]
            constructor
            · rintro ⟨k, w, hk, hl, hx⟩
              split at hk
              · simp only [Option.some.injEq] at hk; subst hk; simp [inactive] at hl
              · split at hk
                · simp only [Option.some.injEq] at hk
                  subst hk
                  simp only [mem_sortLabels, List.mem_append] at hl hx
                  rcases hl with e | e
                  · exact ⟨i, a, hi, e, hx⟩
                  · exact ⟨j, b, hj, e, hc.2 ▸ hx⟩
                · exact ⟨k, w, hk, hl, hx⟩
            · rintro ⟨k, w, hk, hl, hx⟩
              by_cases e1 : j = k
              · subst e1
                rw [hj] at hk
                simp only [Option.some.injEq] at hk
                subst hk
                refine ⟨i, _, by rw [if_neg (fun e => hij e.symm), if_pos rfl], ?_, ?_⟩
                · simp only [mem_sortLabels, List.mem_append]; exact Or.inr hl
                · exact hc.2 ▸ hx
              · by_cases e2 : i = k
                · subst e2
                  rw [hi] at hk
                  simp only [Option.some.injEq] at hk
                  subst hk
                  refine ⟨i, ⟨sortLabels (a.labels ++ b.labels), a.transitions, min a.cost b.cost⟩, by rw [if_neg (fun e => hij e.symm), if_pos rfl], ?_, hx⟩
                  simp only [mem_sortLabels, List.mem_append]; exact Or.inl hl
                · exact ⟨k, w, by rw [if_neg e1, if_neg e2]; exact hk, hl, hx⟩
          · intro l
            rw [has_iff, has_iff]
            simp only [hget]
            constructor
            · rintro ⟨k, w, hk, hl⟩
              split at hk
              · simp only [Option.some.injEq] at hk; subst hk; simp [inactive] at hl
              · split at hk
                · simp only [Option.some.injEq] at hk
                  subst hk
                  simp only [mem_sortLabels, List.mem_append] at hl
                  rcases hl with e | e
                  · exact ⟨i, a, hi, e⟩
                  · exact ⟨j, b, hj, e⟩
                · exact ⟨k, w, hk, hl⟩
            · rintro ⟨k, w, hk, hl⟩
              by_cases e1 : j = k
              · subst e1
                rw [hj] at hk
                simp only [Option.some.injEq] at hk
                subst hk
                refine ⟨i, _, by rw [if_neg (fun e => hij e.symm), if_pos rfl], ?_⟩
                simp only [mem_sortLabels, List.mem_append]; exact Or.inr hl
              · by_cases e2 : i = k
                · subst e2
                  rw [hi] at hk
                  simp only [Option.some.injEq] at hk
                  subst hk
                  refine ⟨i, _, by rw [if_neg (fun e => hij e.symm), if_pos rfl], ?_⟩
                  simp only [mem_sortLabels, List.mem_append]; exact Or.inl hl
                · exact ⟨k, w, by rw [if_neg e1, if_neg e2]; exact hk, hl⟩
          · intro w hw t ht
            obtain ⟨k, hk⟩ := List.getElem?_of_mem hw
            simp only at hk
            rw [hget] at hk
            split at hk
            · simp only [Option.some.injEq] at hk; subst hk; simp [inactive] at ht
            · split at hk
              · simp only [Option.some.injEq] at hk
                subst hk
                exact ⟨a, List.mem_of_getElem? hi, ht⟩
              · exact ⟨w, List.mem_of_getElem? hk, ht⟩
          · obtain ⟨l, hl⟩ := List.exists_mem_of_ne_nil _ ha
            exact List.ne_nil_of_mem (mem_sortLabels.mpr (List.mem_append.mpr (Or.inl hl)))
      · rw [if_neg hc] at h
        simp only [Option.some.injEq] at h
        subst h
        exact ⟨SameTr.refl L st, a, hi, ha⟩

theorem equivInner_spec {L : Labels} {i : Nat} : ∀ {js : List Nat} {st st' : List (Option Nat) × List LocalLabel}, (∀ j ∈ js, i ≠ j) → equivInner i js st = some st' → (∃ a : LocalLabel, st.2[i]? = some a ∧ a.labels ≠ []) → SameTr L st st'
  | [], st, st', _, h, _ => by
    simp only [equivInner, Option.some.injEq] at h
    subst h
    exact SameTr.refl L st
  | j :: js, st, st', hj, h, ⟨a, h1, h2⟩ => by
    simp only [equivInner] at h
    cases hs : equivStep i j st with
    | none => rw [hs] at h; simp at h
    | some st1 =>
      rw [hs] at h
      simp only at h
      obtain ⟨e1, e2⟩ := equivStep_spec (hj j (by simp)) hs h1 h2 (L := L)
      exact e1.trans' (equivInner_spec (fun x hx => hj x (by simp [hx])) h e2)

theorem equivOuter_spec {L : Labels} {n : Nat} : ∀ {is : List Nat} {st st' : List (Option Nat) × List LocalLabel}, equivOuter n is st = some st' → SameTr L st st'
  | [], st, st', h => by
    simp only [equivOuter, Option.some.injEq] at h
    subst h
    exact SameTr.refl L st
  | i :: is, st, st', h => by
    simp only [equivOuter] at h
    cases hi : st.2[i]? with
    | none => rw [hi] at h; simp at h
    | some a =>
      rw [hi] at h
      simp only at h
      by_cases ha : a.active
      · rw [if_pos ha] at h
        cases hs : equivInner i (List.range' (i + 1) (n - (i + 1))) st with
        | none => rw [hs] at h; simp at h
        | some st1 =>
          rw [hs] at h
          simp only at h
          have := equivInner_spec (L := L) (fun j hj => by have := (List.mem_range'_1.mp hj).1; omega) hs ⟨a, hi, by simpa [LocalLabel.active] using ha⟩
          exact this.trans' (equivOuter_spec h)
      · rw [if_neg ha] at h
        exact equivOuter_spec h

theorem computeEquivalent_spec {L : Labels} {st st' : List (Option Nat) × List LocalLabel} (h : computeEquivalent st = some st') : SameTr L st st' := equivOuter_spec h

theorem SameTr.cons {L : Labels} {st st' : List (Option Nat) × List LocalLabel} (h : SameTr L st st') (hc : Cons L st.1 st.2) : Cons L st'.1 st'.2 :=
  ⟨h.pcons hc.toPCons, fun l c hl => (h.has l).mpr (hc.complete l c hl)⟩

/-! ### abstraction -/

theorem mapClass_spec {k : Nat} : ∀ {ss : List Nat} {m m' : List (Option Nat)}, mapClass k ss m = some m' →
    m'.length = m.length ∧ (∀ s ∈ ss, m[s]? = some none ∧ m'[s]? = some (some k)) ∧ ∀ s, s ∉ ss → m'[s]? = m[s]?
  | [], m, m', h => by
    simp only [mapClass, Option.some.injEq] at h
    subst h
    simp
  | x :: ss, m, m', h => by
    simp only [mapClass] at h
    cases hx : m[x]? with
    | none => rw [hx] at h; simp at h
    | some o =>
      cases o with
      | some y => rw [hx] at h; simp at h
      | none =>
        rw [hx] at h
        simp only at h
        obtain ⟨h1, h2, h3⟩ := mapClass_spec h
        have hxl : x < m.length := (List.getElem?_eq_some_iff.mp hx).1
        have hxn : x ∉ ss := by
          intro hc
          have := (h2 x hc).1
          rw [List.getElem?_set, if_pos rfl, if_pos hxl] at this
          simp at this
        refine ⟨by rw [h1, List.length_set], ?_, ?_⟩
        · intro s hs
          rcases List.mem_cons.mp hs with e | e
          · subst e
            refine ⟨hx, ?_⟩
            rw [h3 s hxn, List.getElem?_set, if_pos rfl, if_pos hxl]
          · obtain ⟨g1, g2⟩ := h2 s e
            refine ⟨?_, g2⟩
            rw [List.getElem?_set, if_neg (fun hcc : x = s => hxn (by rw [hcc]; exact e))] at g1
            exact g1
        · intro s hs
          simp only [List.mem_cons, not_or] at hs
          rw [h3 s hs.2, List.getElem?_set, if_neg (fun e => hs.1 e.symm)]

theorem mapClasses_spec : ∀ {cs : List (List Nat)} {k : Nat} {m m' : List (Option Nat)}, mapClasses cs k m = some m' →
    m'.length = m.length ∧ (∀ s x : Nat, m'[s]? = some (some x) ↔ m[s]? = some (some x) ∨ ∃ (j : Nat) (c : List Nat), cs[j]? = some c ∧ s ∈ c ∧ x = k + j) ∧ (∀ s x : Nat, m[s]? = some (some x) → ∀ c ∈ cs, s ∉ c)
  | [], k, m, m', h => by
    simp only [mapClasses, Option.some.injEq] at h
    subst h
    simp
  | c :: cs, k, m, m', h => by
    simp only [mapClasses] at h
    cases hc : mapClass k c m with
    | none => rw [hc] at h; simp at h
    | some m1 =>
      rw [hc] at h
      simp only at h
      obtain ⟨a1, a2, a3⟩ := mapClass_spec hc
      obtain ⟨b1, b2, b3⟩ := mapClasses_spec h
      refine ⟨by rw [b1, a1], ?_, ?_⟩
      · intro s x
        rw [b2]
        constructor
        · rintro (e | ⟨j, c', h1, h2, h3⟩)
          · by_cases hs : s ∈ c
            · rw [(a2 s hs).2] at e
              simp only [Option.some.injEq] at e
              exact Or.inr ⟨0, c, rfl, hs, by omega⟩
            · rw [a3 s hs] at e
              exact Or.inl e
          · exact Or.inr ⟨j + 1, c', by simpa using h1, h2, by omega⟩
        · rintro (e | ⟨j, c', h1, h2, h3⟩)
          · left
            have hs : s ∉ c := fun hs => by rw [(a2 s hs).1] at e; simp at e
            rw [a3 s hs]
            exact e
          · cases j with
            | zero =>
              simp only [List.getElem?_cons_zero, Option.some.injEq] at h1
              subst h1
              left
              rw [(a2 s h2).2, h3]
              rfl
            | succ j => exact Or.inr ⟨j, c', by simpa using h1, h2, by omega⟩
      · intro s x hs c' hc' hsc
        have hsn : s ∉ c := fun hs' => by rw [(a2 s hs').1] at hs; simp at hs
        rcases List.mem_cons.mp hc' with e | e
        · exact hsn (e ▸ hsc)
        · exact b3 s x (by rw [a3 s hsn]; exact hs) c' e hsc

/-- a mapping defined by a list of classes: the state is in the class with this number -/
def MapOf (n : Nat) (rel : List (List Nat)) (m : List (Option Nat)) : Prop :=
  m.length = n ∧ ∀ s x : Nat, m[s]? = some (some x) ↔ ∃ c, rel[x]? = some c ∧ s ∈ c

theorem abstractionMapping_spec {n : Nat} {rel : List (List Nat)} {m : List (Option Nat)} (h : abstractionMapping n rel = some m) : MapOf n rel m := by
  obtain ⟨h1, h2, _⟩ := mapClasses_spec h
  refine ⟨by simpa using h1, ?_⟩
  intro s x
  rw [h2]
  constructor
  · rintro (e | ⟨j, c, e1, e2, e3⟩)
    · rw [List.getElem?_replicate] at e
      split at e <;> simp at e
    · simp only [Nat.zero_add] at e3
      subst e3
      exact ⟨c, e1, e2⟩
  · rintro ⟨c, e1, e2⟩
    exact Or.inr ⟨x, c, e1, e2, by omega⟩

theorem classGoal_spec {goals : List Bool} : ∀ {c : List Nat} {b : Bool}, classGoal goals c = some b → (b = true ↔ ∃ s ∈ c, goals[s]? = some true)
  | [], b, h => by
    simp only [classGoal, Option.some.injEq] at h
    subst h
    simp
  | s :: c, b, h => by
    simp only [classGoal] at h
    cases hs : goals[s]? with
    | none => rw [hs] at h; simp at h
    | some x =>
      rw [hs] at h
      cases x with
      | true =>
        simp only [Option.some.injEq] at h
        subst h
        simp [hs]
      | false =>
        simp only at h
        rw [classGoal_spec h]
        simp [hs]

theorem mapTrans_mem {m : List (Option Nat)} {ts : List (Nat × Nat)} {os : List (Option (Nat × Nat))} (h : mapAll (mapTrans m) ts = some os) {a' b' : Nat} :
    (a', b') ∈ os.filterMap id ↔ ∃ a b, (a, b) ∈ ts ∧ m[a]? = some (some a') ∧ m[b]? = some (some b') := by
  have key : ∀ a b o, mapTrans m (a, b) = some o → (o = some (a', b') ↔ m[a]? = some (some a') ∧ m[b]? = some (some b')) := by
    intro a b o ho
    unfold mapTrans at ho
    simp only at ho
    rcases ha : m[a]? with _ | _ | x <;> rcases hb : m[b]? with _ | _ | y <;> rw [ha, hb] at ho <;> simp at ho <;> subst ho <;> simp
  simp only [List.mem_filterMap, id_eq, exists_eq_right]
  constructor
  · intro hm
    obtain ⟨⟨a, b⟩, h1, h2⟩ := mapAll_mem h hm
    exact ⟨a, b, h1, (key a b _ h2).mp rfl⟩
  · rintro ⟨a, b, h1, h2⟩
    obtain ⟨o, h3, h4⟩ := mapAll_mem' h h1
    rw [← (key a b o h4).mpr h2]
    exact h3

/-- the result of an abstraction is the quotient of the states that are not pruned -/
theorem applyAbstraction_spec {L : Labels} {T T' : TS} {rel : List (List Nat)} {m : List (Option Nat)} (hm : MapOf T.size rel m) (hT : TSOk L T) (h : T.applyAbstraction rel m = some T') :
    TSOk L T' ∧ T'.size = rel.length ∧ (∀ l a' b' : Nat, Tr T'.infos l a' b' ↔ ∃ a b : Nat, Tr T.infos l a b ∧ m[a]? = some (some a') ∧ m[b]? = some (some b')) ∧
    (∀ a' : Nat, T'.goals[a']? = some true ↔ ∃ a : Nat, T.goals[a]? = some true ∧ m[a]? = some (some a')) ∧
    (∃ i : Nat, T.init = some i ∧ m[i]? = some T'.init) ∧ T'.labelTo.length = T.labelTo.length := by
  unfold TS.applyAbstraction at h
  split at h
  · cases hg : mapAll (classGoal T.goals) rel with
    | none => rw [hg] at h; simp at h
    | some goals =>
      cases hi : mapAll (mapInfo m) T.infos with
      | none => rw [hg, hi] at h; simp at h
      | some infos =>
        cases hn : mapInit m T.init with
        | none => rw [hg, hi, hn] at h; simp at h
        | some init =>
          rw [hg, hi, hn] at h
          simp only at h
          cases he : computeEquivalent (T.labelTo, infos) with
          | none => rw [he] at h; simp at h
          | some st =>
            obtain ⟨m', infos'⟩ := st
            rw [he] at h
            simp only [Option.some.injEq] at h
            subst h
            have hinfo : ∀ (i : LocalLabel) (i' : LocalLabel), mapInfo m i = some i' → i'.labels = i.labels ∧ i'.cost = i.cost ∧ ∀ a' b', (a', b') ∈ i'.transitions ↔ ∃ a b, (a, b) ∈ i.transitions ∧ m[a]? = some (some a') ∧ m[b]? = some (some b') := by
              intro i i' hii
              unfold mapInfo at hii
              cases hmt : mapAll (mapTrans m) i.transitions with
              | none => rw [hmt] at hii; simp at hii
              | some os =>
                rw [hmt] at hii
                simp only [Option.some.injEq] at hii
                subst hii
                refine ⟨rfl, rfl, ?_⟩
                intro a' b'
                show (a', b') ∈ sortUniqueTrans _ ↔ _
                rw [mem_sortUniqueTrans]
                exact mapTrans_mem hmt
            have hlt : ∀ s x : Nat, m[s]? = some (some x) → x < rel.length := by
              intro s x hs
              obtain ⟨c, hc, _⟩ := (hm.2 s x).mp hs
              exact (List.getElem?_eq_some_iff.mp hc).1
            have hsize : goals.length = rel.length := mapAll_length hg
            have hp : Cons L T.labelTo infos := by
              refine ⟨⟨?_, ?_, ?_⟩, ?_⟩
              · intro k i' l hk hl
                obtain ⟨i, h1, h2⟩ := mapAll_getElem?' hi hk
                exact hT.cons.mapped k i l h1 ((hinfo i i' h2).1 ▸ hl)
              · intro i' hi' l hl
                obtain ⟨i, h1, h2⟩ := mapAll_mem hi hi'
                rw [(hinfo i i' h2).2.1]
                exact hT.cons.live i h1 l ((hinfo i i' h2).1 ▸ hl)
              · intro i' hi' hne
                obtain ⟨i, h1, h2⟩ := mapAll_mem hi hi'
                rw [(hinfo i i' h2).2.1, (hinfo i i' h2).1]
                exact hT.cons.least i h1 ((hinfo i i' h2).1 ▸ hne)
              · intro l c hl
                obtain ⟨i, h1, h2⟩ := hT.cons.complete l c hl
                obtain ⟨i', h3, h4⟩ := mapAll_mem' hi h1
                exact ⟨i', h3, (hinfo i i' h4).1 ▸ h2⟩
            have hs := computeEquivalent_spec (L := L) he
            have htr : ∀ l a' b', Tr infos' l a' b' ↔ ∃ a b, Tr T.infos l a b ∧ m[a]? = some (some a') ∧ m[b]? = some (some b') := by
              intro l a' b'
              rw [hs.tr]
              constructor
              · rintro ⟨i', h1, h2, h3⟩
                obtain ⟨i, h4, h5⟩ := mapAll_mem hi h1
                obtain ⟨a, b, h6, h7⟩ := ((hinfo i i' h5).2.2 a' b').mp h3
                exact ⟨a, b, ⟨i, h4, (hinfo i i' h5).1 ▸ h2, h6⟩, h7⟩
              · rintro ⟨a, b, ⟨i, h1, h2, h3⟩, h4⟩
                obtain ⟨i', h5, h6⟩ := mapAll_mem' hi h1
                exact ⟨i', h5, (hinfo i i' h6).1 ▸ h2, ((hinfo i i' h6).2.2 a' b').mpr ⟨a, b, h3, h4⟩⟩
            have hinit : ∃ i, T.init = some i ∧ m[i]? = some init := by
              unfold mapInit at hn
              cases hti : T.init with
              | none => rw [hti] at hn; simp at hn
              | some i => rw [hti] at hn; exact ⟨i, rfl, hn⟩
            refine ⟨⟨hs.cons hp, ⟨?_, ?_⟩⟩, hsize, htr, ?_, hinit, hs.len⟩
            · intro i hii
              simp only at hii
              obtain ⟨j, h1, h2⟩ := hinit
              rw [hii] at h2
              show i < goals.length
              rw [hsize]
              exact hlt j i h2
            · intro i hii t ht
              show t.1 < goals.length ∧ t.2 < goals.length
              obtain ⟨j', h1, h2⟩ := hs.trans i hii t ht
              obtain ⟨j, h3, h4⟩ := mapAll_mem hi h1
              obtain ⟨a, b, _, h6, h7⟩ := ((hinfo j j' h4).2.2 t.1 t.2).mp h2
              rw [hsize]
              exact ⟨hlt a t.1 h6, hlt b t.2 h7⟩
            · intro a'
              show goals[a']? = some true ↔ _
              constructor
              · intro hx
                obtain ⟨c, h1, h2⟩ := mapAll_getElem?' hg hx
                obtain ⟨s, h3, h4⟩ := (classGoal_spec h2).mp rfl
                exact ⟨s, h4, (hm.2 s a').mpr ⟨c, h1, h3⟩⟩
              · rintro ⟨a, h1, h2⟩
                obtain ⟨c, h3, h4⟩ := (hm.2 a a').mp h2
                obtain ⟨b, h5, h6⟩ := mapAll_getElem? hg h3
                rw [h5, (classGoal_spec h6).mpr ⟨a, h4, h1⟩]
  · simp at h

end Verif.Mas
