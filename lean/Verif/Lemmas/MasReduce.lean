import Verif.Lemmas.MasAbstract

/-
Label reduction of a transition system.
-/
namespace Verif.Mas

/-- one entry of a label mapping -/
def rename (e : Nat × List Nat) (l : Nat) : Nat := if l ∈ e.2 then e.1 else l

/-- the renaming of labels a label mapping stands for -/
def sigma (es : List (Nat × List Nat)) (l : Nat) : Nat := es.foldl (fun l e => rename e l) l

/-- the labels of an entry have the same cost; no label is in two entries -/
structure ValidMap (L : Labels) (es : List (Nat × List Nat)) : Prop where
  cost : ∀ e ∈ es, ∃ c, ∀ l ∈ e.2, L.cost l = some c
  ne : ∀ e ∈ es, e.2 ≠ []
  disj : es.Pairwise (fun e e' => ∀ l ∈ e.2, l ∉ e'.2)

theorem reduceLoop_spec : ∀ {ls : List Nat} {costs costs' : List (Option Nat)} {c0 c d : Nat}, reduceLoop ls costs c0 = some (costs', c) → (∀ l ∈ ls, (costs[l]?).join = some d) →
    costs'.length = costs.length ∧ (∀ l ∈ ls, (costs'[l]?).join = none) ∧ (∀ l, l ∉ ls → costs'[l]? = costs[l]?) ∧ ls.Nodup ∧ c = if ls = [] then c0 else min c0 d
  | [], costs, costs', c0, c, d, h, _ => by
    simp only [reduceLoop, Option.some.injEq, Prod.mk.injEq] at h
    obtain ⟨rfl, rfl⟩ := h
    simp
  | l :: ls, costs, costs', c0, c, d, h, hd => by
    simp only [reduceLoop] at h
    have hl := hd l (by simp)
    rw [hl] at h
    simp only at h
    have hnl : l ∉ ls := by
      intro hc
      -- the second time the label has no cost
      have aux : ∀ {ls : List Nat} {costs costs' : List (Option Nat)} {c0 c : Nat}, l ∈ ls → (costs[l]?).join = none → reduceLoop ls costs c0 ≠ some (costs', c) := by
        intro ls
        induction ls with
        | nil => intro _ _ _ _ h; simp at h
        | cons x xs ih =>
          intro costs costs' c0 c hm hn hr
          simp only [reduceLoop] at hr
          rcases List.mem_cons.mp hm with e | e
          · subst e; rw [hn] at hr; simp at hr
          · cases hx : (costs[x]?).join with
            | none => rw [hx] at hr; simp at hr
            | some y =>
              rw [hx] at hr
              simp only at hr
              refine ih e ?_ hr
              rw [List.getElem?_set]
              split
              · split <;> simp
              · exact hn
      refine aux hc ?_ h
      rw [List.getElem?_set, if_pos rfl]
      split <;> simp
    obtain ⟨r1, r2, r3, r4, r5⟩ := reduceLoop_spec (d := d) h (by
      intro x hx
      rw [List.getElem?_set, if_neg (fun e : l = x => hnl (by rw [e]; exact hx))]
      exact hd x (by simp [hx]))
    have hll : l < costs.length := by
      cases hc : costs[l]? with
      | none => rw [hc] at hl; simp at hl
      | some _ => exact (List.getElem?_eq_some_iff.mp hc).1
    refine ⟨by rw [r1, List.length_set], ?_, ?_, List.nodup_cons.mpr ⟨hnl, r4⟩, ?_⟩
    · intro x hx
      rcases List.mem_cons.mp hx with e | e
      · subst e
        rw [r3 x hnl, List.getElem?_set, if_pos rfl, if_pos hll]
        rfl
      · exact r2 x e
    · intro x hx
      simp only [List.mem_cons, not_or] at hx
      rw [r3 x hx.2, List.getElem?_set, if_neg (fun e => hx.1 e.symm)]
    · rw [if_neg (by simp)]
      rw [r5]
      split <;> split <;> omega

theorem Labels.cost_none {L : Labels} {l : Nat} (h : L.costs.length ≤ l) : L.cost l = none := by
  unfold Labels.cost
  rw [List.getElem?_eq_none h]
  rfl

theorem reduce_spec {L L' : Labels} (hL : L.Ok) {old : List Nat} {c : Nat} (h : L.reduce old = some L') (hc : ∀ l ∈ old, L.cost l = some c) (hne : old ≠ []) :
    L'.costs.length = L.costs.length + 1 ∧ L'.maxNum = L.maxNum ∧ L'.cost L.costs.length = some c ∧ (∀ l ∈ old, L'.cost l = none) ∧ (∀ l, l ∉ old → l ≠ L.costs.length → L'.cost l = L.cost l) ∧ L'.Ok := by
  unfold Labels.reduce at h
  cases hr : reduceLoop old L.costs inf with
  | none => rw [hr] at h; simp at h
  | some p =>
    obtain ⟨costs, c'⟩ := p
    rw [hr] at h
    simp only [Option.some.injEq] at h
    subst h
    obtain ⟨r1, r2, r3, _, r5⟩ := reduceLoop_spec (d := c) hr hc
    rw [if_neg hne] at r5
    have hcl : c ≤ inf := by
      obtain ⟨l, hl⟩ := List.exists_mem_of_ne_nil _ hne
      exact hL l c (hc l hl)
    have hcc : c' = c := by omega
    subst hcc
    have hold : ∀ l ∈ old, l < L.costs.length := by
      intro l hl
      by_contra hlt
      have := hc l hl
      rw [Labels.cost_none (by omega)] at this
      simp at this
    have e1 : ∀ l, l < L.costs.length → (⟨costs ++ [some c'], L.maxNum⟩ : Labels).cost l = (costs[l]?).join := by
      intro l hl
      unfold Labels.cost
      rw [List.getElem?_append_left (by omega)]
    have e2 : (⟨costs ++ [some c'], L.maxNum⟩ : Labels).cost L.costs.length = some c' := by
      unfold Labels.cost
      rw [List.getElem?_append_right (by omega), r1]
      simp
    have e3 : ∀ l, l ∉ old → l ≠ L.costs.length → (⟨costs ++ [some c'], L.maxNum⟩ : Labels).cost l = L.cost l := by
      intro l hl hn
      by_cases hlt : l < L.costs.length
      · rw [e1 l hlt, r3 l hl]
        rfl
      · rw [Labels.cost_none (by simp only [List.length_append, List.length_singleton]; omega), Labels.cost_none (by omega)]
    have e4 : ∀ l ∈ old, (⟨costs ++ [some c'], L.maxNum⟩ : Labels).cost l = none := by
      intro l hl
      rw [e1 l (hold l hl)]
      exact r2 l hl
    refine ⟨by simp [r1], rfl, e2, e4, e3, ?_⟩
    intro l d hd
    by_cases ho : l ∈ old
    · rw [e4 l ho] at hd; simp at hd
    · by_cases hn : l = L.costs.length
      · subst hn; rw [e2] at hd; simp only [Option.some.injEq] at hd; omega
      · rw [e3 l ho hn] at hd; exact hL l d hd

theorem ValidMap.tail {L L' : Labels} (hL : L.Ok) {e : Nat × List Nat} {es : List (Nat × List Nat)} (h : ValidMap L (e :: es)) (hr : L.reduce e.2 = some L') : ValidMap L' es := by
  obtain ⟨c, hc⟩ := h.cost e (by simp)
  obtain ⟨_, _, _, _, r5, _⟩ := reduce_spec hL hr hc (h.ne e (by simp))
  have hd := List.pairwise_cons.mp h.disj
  refine ⟨?_, fun x hx => h.ne x (by simp [hx]), hd.2⟩
  intro x hx
  obtain ⟨d, hd'⟩ := h.cost x (by simp [hx])
  refine ⟨d, fun l hl => ?_⟩
  rw [r5 l (fun hc' => hd.1 x hx l hc' hl) ?_]
  · exact hd' l hl
  · rintro rfl
    have := hd' _ hl
    rw [Labels.cost_none (Nat.le_refl _)] at this
    simp at this

/-- the costs of labels are not changed by a valid mapping -/
theorem reduceLabels_cost : ∀ {es : List (Nat × List Nat)} {L L' : Labels}, L.Ok → ValidMap L es → reduceLabels es L = some L' →
    L'.Ok ∧ L'.maxNum = L.maxNum ∧ (∀ l c, L.cost l = some c → L'.cost (sigma es l) = some c) ∧ L'.costs.length = L.costs.length + es.length
  | [], L, L', hL, _, h => by
    simp only [reduceLabels, Option.some.injEq] at h
    subst h
    exact ⟨hL, rfl, fun l c h => h, rfl⟩
  | e :: es, L, L', hL, hv, h => by
    simp only [reduceLabels] at h
    split at h
    · rename_i he
      cases hr : L.reduce e.2 with
      | none => rw [hr] at h; simp at h
      | some L1 =>
        rw [hr] at h
        simp only at h
        obtain ⟨c, hc⟩ := hv.cost e (by simp)
        obtain ⟨r1, r2, r3, r4, r5, r6⟩ := reduce_spec hL hr hc (hv.ne e (by simp))
        obtain ⟨s1, s2, s3, s4⟩ := reduceLabels_cost r6 (hv.tail hL hr) h
        refine ⟨s1, by rw [s2, r2], ?_, by rw [s4, r1, List.length_cons]; omega⟩
        intro l d hl
        show L'.cost (sigma es (rename e l)) = _
        refine s3 _ d ?_
        unfold rename
        split
        · rename_i hle
          have := hc l hle
          rw [hl] at this
          rw [he, r3]
          exact this.symm
        · rename_i hle
          rw [r5 l hle ?_]
          · exact hl
          · rintro rfl
            rw [Labels.cost_none (Nat.le_refl _)] at hl
            simp at hl
    · simp at h

/-! ### equivalent labels -/

theorem removeLabels_spec {labels old ls : List Nat} (h : removeLabels labels old = some ls) : ∀ l, l ∈ ls ↔ l ∈ labels ∧ l ∉ old := by
  unfold removeLabels at h
  split at h
  · simp only [Option.some.injEq] at h
    subst h
    intro l
    simp
  · simp at h

theorem reduceEquivalent_spec {L L' : Labels} (hL : L.Ok) {e : Nat × List Nat} {st st' : List (Option Nat) × List LocalLabel} (hcons : Cons L st.1 st.2) (he : e.1 = L.costs.length) {c : Nat} (hc : ∀ l ∈ e.2, L.cost l = some c) (hne : e.2 ≠ [])
    (hr : L.reduce e.2 = some L') (hloc : ∃ i ∈ st.2, ∀ l ∈ e.2, l ∈ i.labels) (h : reduceEquivalent e st = some st') :
    Cons L' st'.1 st'.2 ∧ (∀ l' a b, Tr st'.2 l' a b ↔ ∃ l, rename e l = l' ∧ Tr st.2 l a b) ∧ (∀ i ∈ st'.2, ∃ j ∈ st.2, i.transitions = j.transitions) ∧
      (∀ i ∈ st.2, ∃ i' ∈ st'.2, ∀ l ∈ i.labels, l ∉ e.2 → l ∈ i'.labels) ∧ st'.1.length = st.1.length := by
  obtain ⟨r1, r2, r3, r4, r5, r6⟩ := reduce_spec hL hr hc hne
  unfold reduceEquivalent at h
  cases hl0 : e.2 with
  | nil => exact absurd hl0 hne
  | cons l0 rest =>
    rw [hl0] at h
    simp only at h
    rw [← hl0] at h
    obtain ⟨i, hi, hil⟩ := hloc
    obtain ⟨k, hk⟩ := List.getElem?_of_mem hi
    have hl0m : l0 ∈ e.2 := by rw [hl0]; simp
    have hmk := hcons.mapped k i l0 hk (hil l0 hl0m)
    rw [hmk] at h
    simp only [Option.join_some, hk] at h
    cases hrm : removeLabels i.labels e.2 with
    | none => rw [hrm] at h; simp at h
    | some ls =>
      cases hs1 : setAll (some k) [e.1] st.1 with
      | none => rw [hrm, hs1] at h; simp at h
      | some m1 =>
        rw [hrm, hs1] at h
        simp only at h
        cases hs2 : setAll none e.2 m1 with
        | none => rw [hs2] at h; simp at h
        | some m2 =>
          rw [hs2] at h
          simp only [Option.some.injEq] at h
          subst h
          have hrl := removeLabels_spec hrm
          obtain ⟨a1, a2, a3⟩ := setAll_spec hs1
          obtain ⟨b1, b2, b3⟩ := setAll_spec hs2
          have hkl : k < st.2.length := (List.getElem?_eq_some_iff.mp hk).1
          have hget : ∀ j : Nat, (st.2.set k { i with labels := ls ++ [e.1] })[j]? = if k = j then some { i with labels := ls ++ [e.1] } else st.2[j]? := by
            intro j
            rw [List.getElem?_set]
            by_cases e1 : k = j
            · rw [if_pos e1, if_pos e1, if_pos (by omega)]
            · rw [if_neg e1, if_neg e1]
          have hnew : ∀ j ∈ st.2, e.1 ∉ j.labels := by
            intro j hj hc'
            obtain ⟨d, hd, _⟩ := hcons.live j hj e.1 hc'
            rw [he, Labels.cost_none (Nat.le_refl _)] at hd
            simp at hd
          have hen : e.1 ∉ e.2 := by
            intro hc'
            have := hc _ hc'
            rw [he, Labels.cost_none (Nat.le_refl _)] at this
            simp at this
          -- the labels of other local labels are not affected
          have hoth : ∀ (j : Nat) (x : LocalLabel) (l : Nat), k ≠ j → st.2[j]? = some x → l ∈ x.labels → l ∉ e.2 := by
            intro j x l hkj hj hl hc'
            exact hkj (hcons.unique hk hj (hil l hc') hl)
          refine ⟨⟨⟨?_, ?_, ?_⟩, ?_⟩, ?_, ?_, ?_, by rw [b1, a1]⟩
          · intro j x l hj hl
            simp only at hj
            rw [hget] at hj
            show m2[l]? = _
            split at hj
            · rename_i e1
              simp only [Option.some.injEq] at hj
              subst hj e1
              simp only [List.mem_append, List.mem_singleton, hrl] at hl
              rcases hl with ⟨h1, h2⟩ | h1
              · rw [b3 l h2, a3 l (by simp only [List.mem_singleton]; rintro rfl; exact hnew i hi h1)]
                exact hcons.mapped k i l hk h1
              · subst h1
                rw [b3 e.1 hen]
                exact a2 e.1 (by simp)
            · rename_i e1
              rw [b3 l (hoth j x l e1 hj hl), a3 l (by simp only [List.mem_singleton]; rintro rfl; exact hnew x (List.mem_of_getElem? hj) hl)]
              exact hcons.mapped j x l hj hl
          · intro x hx l hl
            obtain ⟨j, hj⟩ := List.getElem?_of_mem hx
            simp only at hj
            rw [hget] at hj
            split at hj
            · simp only [Option.some.injEq] at hj
              subst hj
              simp only [List.mem_append, List.mem_singleton, hrl] at hl
              simp only
              rcases hl with ⟨h1, h2⟩ | h1
              · rw [r5 l h2 (by rw [← he]; rintro rfl; exact hnew i hi h1)]
                exact hcons.live i hi l h1
              · subst h1
                rw [he, r3]
                refine ⟨c, rfl, ?_⟩
                obtain ⟨d, h3, h4⟩ := hcons.live i hi l0 (hil l0 hl0m)
                rw [hc l0 hl0m] at h3
                simp only [Option.some.injEq] at h3
                omega
            · rename_i e1
              rw [r5 l (hoth j x l e1 hj hl) (by rw [← he]; rintro rfl; exact hnew x (List.mem_of_getElem? hj) hl)]
              exact hcons.live x (List.mem_of_getElem? hj) l hl
          · intro x hx hxne
            obtain ⟨j, hj⟩ := List.getElem?_of_mem hx
            simp only at hj
            rw [hget] at hj
            split at hj
            · simp only [Option.some.injEq] at hj
              subst hj
              simp only [List.mem_append, List.mem_singleton, hrl]
              obtain ⟨l, h1, h2⟩ := hcons.least i hi (List.ne_nil_of_mem (hil l0 hl0m))
              by_cases hle : l ∈ e.2
              · refine ⟨e.1, Or.inr rfl, ?_⟩
                rw [he, r3, ← hc l hle, h2]
              · exact ⟨l, Or.inl ⟨h1, hle⟩, by rw [r5 l hle (by rw [← he]; rintro rfl; exact hnew i hi h1)]; exact h2⟩
            · rename_i e1
              obtain ⟨l, h1, h2⟩ := hcons.least x (List.mem_of_getElem? hj) hxne
              exact ⟨l, h1, by rw [r5 l (hoth j x l e1 hj h1) (by rw [← he]; rintro rfl; exact hnew x (List.mem_of_getElem? hj) h1)]; exact h2⟩
          · intro l d hl
            rw [has_iff]
            simp only [hget]
            by_cases hle : l ∈ e.2
            · rw [r4 l hle] at hl; simp at hl
            · by_cases hln : l = e.1
              · exact ⟨k, _, by rw [if_pos rfl], by simp [hln]⟩
              · rw [r5 l hle (by rw [← he]; exact hln)] at hl
                obtain ⟨j, x, h1, h2⟩ := has_iff.mp (hcons.complete l d hl)
                by_cases hkj : k = j
                · subst hkj
                  rw [hk] at h1
                  simp only [Option.some.injEq] at h1
                  subst h1
                  refine ⟨k, _, by rw [if_pos rfl], ?_⟩
                  simp only [List.mem_append, hrl]
                  exact Or.inl ⟨h2, hle⟩
                · exact ⟨j, x, by rw [if_neg hkj]; exact h1, h2⟩
          · intro l' a b
            rw [tr_iff]
            simp only [hget]
            constructor
            · rintro ⟨j, x, hj, hl, hab⟩
              split at hj
              · simp only [Option.some.injEq] at hj
                subst hj
                simp only [List.mem_append, List.mem_singleton, hrl] at hl hab
                rcases hl with ⟨h1, h2⟩ | h1
                · exact ⟨l', by unfold rename; rw [if_neg h2], i, hi, h1, hab⟩
                · exact ⟨l0, by unfold rename; rw [if_pos hl0m, h1], i, hi, hil l0 hl0m, hab⟩
              · rename_i e1
                exact ⟨l', by unfold rename; rw [if_neg (hoth j x l' e1 hj hl)], x, List.mem_of_getElem? hj, hl, hab⟩
            · rintro ⟨l, hl', htr⟩
              obtain ⟨j, x, hj, hl, hab⟩ := tr_iff.mp htr
              unfold rename at hl'
              by_cases hle : l ∈ e.2
              · rw [if_pos hle] at hl'
                subst hl'
                have hkj : k = j := hcons.unique hk hj (hil l hle) hl
                subst hkj
                rw [hk] at hj
                simp only [Option.some.injEq] at hj
                subst hj
                exact ⟨k, { i with labels := ls ++ [e.1] }, by rw [if_pos rfl], by simp, hab⟩
              · rw [if_neg hle] at hl'
                subst hl'
                by_cases hkj : k = j
                · subst hkj
                  rw [hk] at hj
                  simp only [Option.some.injEq] at hj
                  subst hj
                  exact ⟨k, { i with labels := ls ++ [e.1] }, by rw [if_pos rfl], by simp only [List.mem_append, hrl]; exact Or.inl ⟨hl, hle⟩, hab⟩
                · exact ⟨j, x, by rw [if_neg hkj]; exact hj, hl, hab⟩
          · intro x hx
            obtain ⟨j, hj⟩ := List.getElem?_of_mem hx
            simp only at hj
            rw [hget] at hj
            split at hj
            · simp only [Option.some.injEq] at hj
              subst hj
              exact ⟨i, hi, rfl⟩
            · exact ⟨x, List.mem_of_getElem? hj, rfl⟩
          · intro x hx
            obtain ⟨j, hj⟩ := List.getElem?_of_mem hx
            by_cases hkj : k = j
            · subst hkj
              rw [hk] at hj
              simp only [Option.some.injEq] at hj
              subst hj
              refine ⟨{ i with labels := ls ++ [e.1] }, List.mem_of_getElem? (i := k) (by rw [hget, if_pos rfl]), ?_⟩
              intro l hl hle
              simp only [List.mem_append, hrl]
              exact Or.inl ⟨hl, by rw [hl0]; exact hle⟩
            · exact ⟨x, List.mem_of_getElem? (i := j) (by rw [hget, if_neg hkj]; exact hj), fun l hl _ => hl⟩

theorem reduceAllEquivalent_spec : ∀ {es : List (Nat × List Nat)} {L L' : Labels} {st st' : List (Option Nat) × List LocalLabel}, L.Ok → ValidMap L es → Cons L st.1 st.2 → reduceLabels es L = some L' →
    (∀ e ∈ es, ∃ i ∈ st.2, ∀ l ∈ e.2, l ∈ i.labels) → reduceAllEquivalent es st = some st' →
    Cons L' st'.1 st'.2 ∧ (∀ l' a b, Tr st'.2 l' a b ↔ ∃ l, sigma es l = l' ∧ Tr st.2 l a b) ∧ (∀ i ∈ st'.2, ∃ j ∈ st.2, i.transitions = j.transitions) ∧ st'.1.length = st.1.length
  | [], L, L', st, st', hL, _, hc, hr, _, h => by
    simp only [reduceAllEquivalent, Option.some.injEq] at h
    simp only [reduceLabels, Option.some.injEq] at hr
    subst h hr
    refine ⟨hc, ?_, fun i hi => ⟨i, hi, rfl⟩, rfl⟩
    intro l' a b
    simp [sigma]
  | e :: es, L, L', st, st', hL, hv, hc, hr, hloc, h => by
    simp only [reduceLabels] at hr
    split at hr
    · rename_i he
      cases hr1 : L.reduce e.2 with
      | none => rw [hr1] at hr; simp at hr
      | some L1 =>
        rw [hr1] at hr
        simp only at hr
        simp only [reduceAllEquivalent] at h
        cases hs : reduceEquivalent e st with
        | none => rw [hs] at h; simp at h
        | some st1 =>
          rw [hs] at h
          simp only at h
          obtain ⟨c, hcc⟩ := hv.cost e (by simp)
          have hne := hv.ne e (by simp)
          obtain ⟨_, _, _, _, _, r6⟩ := reduce_spec hL hr1 hcc hne
          obtain ⟨a1, a2, a3, a4, a5⟩ := reduceEquivalent_spec hL hc he hcc hne hr1 (hloc e (by simp)) hs
          have hd := List.pairwise_cons.mp hv.disj
          obtain ⟨b1, b2, b3, b4⟩ := reduceAllEquivalent_spec r6 (hv.tail hL hr1) a1 hr (by
            intro x hx
            obtain ⟨i, h1, h2⟩ := hloc x (by simp [hx])
            obtain ⟨i', h3, h4⟩ := a4 i h1
            exact ⟨i', h3, fun l hl => h4 l (h2 l hl) (fun hc' => hd.1 x hx l hc' hl)⟩) h
          refine ⟨b1, ?_, ?_, by rw [b4, a5]⟩
          · intro l' a b
            rw [b2]
            simp only [a2]
            constructor
            · rintro ⟨l, h1, l1, h2, h3⟩
              exact ⟨l1, by show sigma es (rename e l1) = l'; rw [h2, h1], h3⟩
            · rintro ⟨l1, h1, h3⟩
              exact ⟨rename e l1, h1, l1, rfl, h3⟩
          · intro i hi
            obtain ⟨j, h1, h2⟩ := b3 i hi
            obtain ⟨j', h3, h4⟩ := a3 j h1
            exact ⟨j', h3, by rw [h2, h4]⟩
    · simp at hr

end Verif.Mas
