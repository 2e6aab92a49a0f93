import Verif.Lemmas.MasReduce

/-
Label reduction of a transition system for labels that are not locally equivalent.
-/
namespace Verif.Mas

theorem reduce_nodup {L L' : Labels} {old : List Nat} {c : Nat} (h : L.reduce old = some L') (hc : ∀ l ∈ old, L.cost l = some c) : old.Nodup := by
  unfold Labels.reduce at h
  cases hr : reduceLoop old L.costs inf with
  | none => rw [hr] at h; simp at h
  | some p => exact (reduceLoop_spec (d := c) hr hc).2.2.2.1

theorem sigma_of_not_mem : ∀ {es : List (Nat × List Nat)} {l : Nat}, (∀ e ∈ es, l ∉ e.2) → sigma es l = l
  | [], l, _ => rfl
  | e :: es, l, h => by
    show sigma es (rename e l) = l
    have : rename e l = l := by unfold rename; rw [if_neg (h e (by simp))]
    rw [this]
    exact sigma_of_not_mem (fun x hx => h x (by simp [hx]))

theorem collectOld_spec {infos : List LocalLabel} : ∀ {ls : List Nat} {m m' : List (Option Nat)} {seen : List Nat} {ts ts' rem rem' : List (Nat × Nat)}, ls.Nodup → (∀ k ∈ seen, ∀ i, infos[k]? = some i → ∀ t ∈ i.transitions, t ∈ ts) →
    collectOld infos ls m seen ts rem = some (m', ts', rem') →
    m'.length = m.length ∧ (∀ l, l ∉ ls → m'[l]? = m[l]?) ∧ (∀ t, t ∈ ts' ↔ t ∈ ts ∨ ∃ l ∈ ls, ∃ (k : Nat) (i : LocalLabel), m[l]? = some (some k) ∧ infos[k]? = some i ∧ t ∈ i.transitions) ∧
      ∀ p : Nat × Nat, p ∈ rem' ↔ p ∈ rem ∨ ∃ l ∈ ls, m[l]? = some (some p.1) ∧ p.2 = l
  | [], m, m', seen, ts, ts', rem, rem', _, _, h => by
    simp only [collectOld, Option.some.injEq, Prod.mk.injEq] at h
    obtain ⟨rfl, rfl, rfl⟩ := h
    simp
  | x :: ls, m, m', seen, ts, ts', rem, rem', hnd, hs, h => by
    simp only [collectOld] at h
    rw [List.nodup_cons] at hnd
    obtain ⟨hx, hnd⟩ := hnd
    cases hk : (m[x]?).join with
    | none => rw [hk] at h; simp at h
    | some k =>
      rw [hk] at h
      simp only at h
      have hmx : m[x]? = some (some k) := by
        cases hm : m[x]? with
        | none => rw [hm] at hk; simp at hk
        | some y => rw [hm] at hk; simp at hk; rw [hk]
      cases hi : infos[k]? with
      | none => rw [hi] at h; simp at h
      | some i =>
        rw [hi] at h
        simp only at h
        obtain ⟨r1, r2, r3, r4⟩ := collectOld_spec hnd (by
          intro k' hk' i' hi' t ht
          split
          · rename_i hks
            rcases List.mem_cons.mp hk' with e | e
            · subst e; exact hs _ hks i' hi' t ht
            · exact hs _ e i' hi' t ht
          · rcases List.mem_cons.mp hk' with e | e
            · subst e
              rw [hi] at hi'
              simp only [Option.some.injEq] at hi'
              subst hi'
              exact List.mem_append.mpr (Or.inr ht)
            · exact List.mem_append.mpr (Or.inl (hs _ e i' hi' t ht))) h
        have hset : ∀ l ∈ ls, (m.set x none)[l]? = m[l]? := by
          intro l hl
          rw [List.getElem?_set, if_neg (fun e : x = l => hx (by rw [e]; exact hl))]
        refine ⟨by rw [r1, List.length_set], ?_, ?_, ?_⟩
        · intro l hl
          simp only [List.mem_cons, not_or] at hl
          rw [r2 l hl.2, List.getElem?_set, if_neg (fun e => hl.1 e.symm)]
        · intro t
          rw [r3]
          constructor
          · rintro (e | ⟨l, hl, k', i', h1, h2⟩)
            · split at e
              · exact Or.inl e
              · rcases List.mem_append.mp e with e | e
                · exact Or.inl e
                · exact Or.inr ⟨x, by simp, k, i, hmx, hi, e⟩
            · rw [hset l hl] at h1
              exact Or.inr ⟨l, by simp [hl], k', i', h1, h2⟩
          · rintro (e | ⟨l, hl, k', i', h1, h2, h3⟩)
            · left
              split
              · exact e
              · exact List.mem_append.mpr (Or.inl e)
            · rcases List.mem_cons.mp hl with e | e
              · subst e
                rw [hmx] at h1
                simp only [Option.some.injEq] at h1
                subst h1
                left
                split
                · rename_i hks
                  exact hs k hks i' h2 t h3
                · rw [hi] at h2
                  simp only [Option.some.injEq] at h2
                  subst h2
                  exact List.mem_append.mpr (Or.inr h3)
              · exact Or.inr ⟨l, e, k', i', by rw [hset l e]; exact h1, h2, h3⟩
        · intro p
          rw [r4]
          constructor
          · rintro (e | ⟨l, hl, h1, h2⟩)
            · rcases List.mem_append.mp e with e | e
              · exact Or.inl e
              · simp only [List.mem_singleton] at e
                subst e
                exact Or.inr ⟨x, by simp, hmx, rfl⟩
            · rw [hset l hl] at h1
              exact Or.inr ⟨l, by simp [hl], h1, h2⟩
          · rintro (e | ⟨l, hl, h1, h2⟩)
            · exact Or.inl (List.mem_append.mpr (Or.inl e))
            · rcases List.mem_cons.mp hl with e | e
              · subst e
                rw [hmx] at h1
                simp only [Option.some.injEq] at h1
                left
                refine List.mem_append.mpr (Or.inr ?_)
                simp only [List.mem_singleton]
                rw [← h2, h1]
              · exact Or.inr ⟨l, e, by rw [hset l e]; exact h1, h2⟩

/-- the state of the loop: labels that are recorded for removal do not count -/
structure CInv (L : Labels) (st : CombSt) : Prop where
  mapped : ∀ (k : Nat) (i : LocalLabel) (l : Nat), st.infos[k]? = some i → l ∈ i.labels → (k, l) ∉ st.removed → st.labelTo[l]? = some (some k)
  live : ∀ (k : Nat) (i : LocalLabel) (l : Nat), st.infos[k]? = some i → l ∈ i.labels → (k, l) ∉ st.removed → ∃ c, L.cost l = some c ∧ i.cost ≤ c
  least : ∀ (k : Nat) (i : LocalLabel), st.infos[k]? = some i → (∀ l, (k, l) ∉ st.removed) → i.labels ≠ [] → ∃ l ∈ i.labels, L.cost l = some i.cost
  complete : ∀ l c, L.cost l = some c → ∃ (k : Nat) (i : LocalLabel), st.infos[k]? = some i ∧ l ∈ i.labels ∧ (k, l) ∉ st.removed
  dead : ∀ k l, (k, l) ∈ st.removed → L.cost l = none ∧ l < L.costs.length ∧ k < st.infos.length

/-- the transitions of the labels that count -/
def VTr (st : CombSt) (l a b : Nat) : Prop := ∃ (k : Nat) (i : LocalLabel), st.infos[k]? = some i ∧ l ∈ i.labels ∧ (k, l) ∉ st.removed ∧ (a, b) ∈ i.transitions

theorem combineOne_spec {L L' Lf : Labels} (hL : L.Ok) {e : Nat × List Nat} {st st' : CombSt} (hinv : CInv L st) (he : e.1 = L.costs.length) {c : Nat} (hc : ∀ l ∈ e.2, L.cost l = some c) (hne : e.2 ≠ [])
    (hr : L.reduce e.2 = some L') (hf : Lf.cost e.1 = some c) (h : combineOne Lf e st = some st') :
    CInv L' st' ∧ (∀ l' a b, VTr st' l' a b ↔ ∃ l, rename e l = l' ∧ VTr st l a b) ∧ (∀ i ∈ st'.infos, ∀ t ∈ i.transitions, ∃ j ∈ st.infos, t ∈ j.transitions) ∧ st'.labelTo.length = st.labelTo.length := by
  obtain ⟨r1, r2, r3, r4, r5, r6⟩ := reduce_spec hL hr hc hne
  have hnd := reduce_nodup hr hc
  unfold combineOne at h
  cases hco : collectOld st.infos e.2 st.labelTo [] [] st.removed with
  | none => rw [hco] at h; simp at h
  | some p =>
    obtain ⟨m, ts, rem⟩ := p
    rw [hco] at h
    simp only at h
    cases hs : setAll (some st.infos.length) [e.1] m with
    | none => rw [hs] at h; simp at h
    | some m1 =>
      rw [hs, hf] at h
      simp only [Option.some.injEq] at h
      subst h
      obtain ⟨c1, c2, c3, c4⟩ := collectOld_spec hnd (by simp) hco
      obtain ⟨s1, s2, s3⟩ := setAll_spec hs
      -- where the labels of the entry are
      have hloc : ∀ l ∈ e.2, ∃ (k : Nat) (i : LocalLabel), st.infos[k]? = some i ∧ l ∈ i.labels ∧ (k, l) ∉ st.removed ∧ st.labelTo[l]? = some (some k) := by
        intro l hl
        obtain ⟨k, i, h1, h2, h3⟩ := hinv.complete l c (hc l hl)
        exact ⟨k, i, h1, h2, h3, hinv.mapped k i l h1 h2 h3⟩
      have hen : e.1 ∉ e.2 := by
        intro hc'
        have := hc _ hc'
        rw [he, Labels.cost_none (Nat.le_refl _)] at this
        simp at this
      have hfresh : ∀ (k : Nat) (i : LocalLabel), st.infos[k]? = some i → e.1 ∉ i.labels := by
        intro k i hk hl
        by_cases hrem : (k, e.1) ∈ st.removed
        · have := (hinv.dead _ _ hrem).2.1
          omega
        · obtain ⟨d, hd, _⟩ := hinv.live k i e.1 hk hl hrem
          rw [he, Labels.cost_none (Nat.le_refl _)] at hd
          simp at hd
      have hget : ∀ (k : Nat) (i : LocalLabel), (st.infos ++ [⟨[e.1], sortUniqueTrans ts, c⟩])[k]? = some i ↔ st.infos[k]? = some i ∨ (k = st.infos.length ∧ i = ⟨[e.1], sortUniqueTrans ts, c⟩) := by
        intro k i
        by_cases hk : k < st.infos.length
        · rw [List.getElem?_append_left hk]
          constructor
          · exact Or.inl
          · rintro (e | ⟨e, _⟩)
            · exact e
            · omega
        · rw [List.getElem?_append_right (by omega)]
          rw [List.getElem?_eq_none (l := st.infos) (by omega)]
          rw [List.getElem?_singleton]
          constructor
          · intro h
            split at h
            · simp only [Option.some.injEq] at h
              exact Or.inr ⟨by omega, h.symm⟩
            · simp at h
          · rintro (e | ⟨e, rfl⟩)
            · simp at e
            · rw [if_pos (by omega)]
      -- a label that counts afterwards counted before and is not in the entry
      have hkeep : ∀ (k : Nat) (i : LocalLabel) (l : Nat), st.infos[k]? = some i → l ∈ i.labels → ((k, l) ∉ rem ↔ (k, l) ∉ st.removed ∧ l ∉ e.2) := by
        intro k i l hk hl
        rw [c4]
        simp only [not_or]
        constructor
        · rintro ⟨h1, h2⟩
          refine ⟨h1, fun hle => h2 ⟨l, hle, hinv.mapped k i l hk hl h1, rfl⟩⟩
        · rintro ⟨h1, h2⟩
          refine ⟨h1, ?_⟩
          rintro ⟨l', hl', _, e'⟩
          exact h2 (e' ▸ hl')
      have hnewrem : (st.infos.length, e.1) ∉ rem := by
        rw [c4]
        rintro (h1 | ⟨l', hl', _, e'⟩)
        · have := (hinv.dead _ _ h1).2.2
          omega
        · simp only at e'
          exact hen (e' ▸ hl')
      have hr5 : ∀ (k : Nat) (i : LocalLabel) (l : Nat), st.infos[k]? = some i → l ∈ i.labels → l ∉ e.2 → L'.cost l = L.cost l := by
        intro k i l hk hl hle
        exact r5 l hle (by rw [← he]; rintro rfl; exact hfresh k i hk hl)
      refine ⟨⟨?_, ?_, ?_, ?_, ?_⟩, ?_, ?_, by rw [s1, c1]⟩
      · intro k i l hk hl hrm
        show m1[l]? = _
        rcases (hget k i).mp hk with hk' | ⟨rfl, rfl⟩
        · obtain ⟨h1, h2⟩ := (hkeep k i l hk' hl).mp hrm
          rw [s3 l (by simp only [List.mem_singleton]; rintro rfl; exact hfresh k i hk' hl), c2 l h2]
          exact hinv.mapped k i l hk' hl h1
        · simp only [List.mem_singleton] at hl
          subst hl
          exact s2 _ (by simp)
      · intro k i l hk hl hrm
        rcases (hget k i).mp hk with hk' | ⟨rfl, rfl⟩
        · obtain ⟨h1, h2⟩ := (hkeep k i l hk' hl).mp hrm
          rw [hr5 k i l hk' hl h2]
          exact hinv.live k i l hk' hl h1
        · simp only [List.mem_singleton] at hl
          subst hl
          exact ⟨c, by rw [he]; exact r3, Nat.le_refl _⟩
      · intro k i hk hrm hine
        rcases (hget k i).mp hk with hk' | ⟨rfl, rfl⟩
        · obtain ⟨l, h1, h2⟩ := hinv.least k i hk' (fun l hl => hrm l ((c4 _).mpr (Or.inl hl))) hine
          obtain ⟨_, h4⟩ := (hkeep k i l hk' h1).mp (hrm l)
          exact ⟨l, h1, by rw [hr5 k i l hk' h1 h4]; exact h2⟩
        · exact ⟨e.1, by simp, by rw [he]; exact r3⟩
      · intro l d hl
        by_cases hln : l = e.1
        · subst hln
          exact ⟨_, _, (hget _ _).mpr (Or.inr ⟨rfl, rfl⟩), by simp, hnewrem⟩
        · by_cases hle : l ∈ e.2
          · rw [r4 l hle] at hl; simp at hl
          · rw [r5 l hle (by rw [← he]; exact hln)] at hl
            obtain ⟨k, i, h1, h2, h3⟩ := hinv.complete l d hl
            exact ⟨k, i, (hget k i).mpr (Or.inl h1), h2, (hkeep k i l h1 h2).mpr ⟨h3, hle⟩⟩
      · intro k l hkl
        have hlen : (st.infos ++ [(⟨[e.1], sortUniqueTrans ts, c⟩ : LocalLabel)]).length = st.infos.length + 1 := by simp
        show _ ∧ _ ∧ k < (st.infos ++ [_]).length
        rw [hlen]
        rcases (c4 _).mp hkl with h1 | ⟨l', hl', h2, e'⟩
        · obtain ⟨d1, d2, d3⟩ := hinv.dead k l h1
          refine ⟨?_, by omega, by omega⟩
          by_cases hle : l ∈ e.2
          · exact r4 l hle
          · rw [r5 l hle (by omega)]
            exact d1
        · simp only at e' h2
          subst e'
          obtain ⟨k', i, h3, h4, h5, h6⟩ := hloc l hl'
          rw [h6] at h2
          simp only [Option.some.injEq] at h2
          subst h2
          have hlt : l < L.costs.length := by
            by_contra hlt
            have := hc l hl'
            rw [Labels.cost_none (by omega)] at this
            simp at this
          exact ⟨r4 l hl', by omega, by have := (List.getElem?_eq_some_iff.mp h3).1; omega⟩
      · intro l' a b
        unfold VTr
        simp only [hget]
        constructor
        · rintro ⟨k, i, hk | ⟨rfl, rfl⟩, hl, hrm, hab⟩
          · obtain ⟨h1, h2⟩ := (hkeep k i l' hk hl).mp hrm
            exact ⟨l', by unfold rename; rw [if_neg h2], k, i, hk, hl, h1, hab⟩
          · simp only [List.mem_singleton] at hl
            subst hl
            simp only [mem_sortUniqueTrans, c3, List.not_mem_nil, false_or] at hab
            obtain ⟨l, hl, k, i, h1, h2, h3⟩ := hab
            obtain ⟨k', i', g1, g2, g3, g4⟩ := hloc l hl
            rw [g4] at h1
            simp only [Option.some.injEq] at h1
            subst h1
            rw [g1] at h2
            simp only [Option.some.injEq] at h2
            subst h2
            exact ⟨l, by unfold rename; rw [if_pos hl], k', i', g1, g2, g3, h3⟩
        · rintro ⟨l, hl', k, i, hk, hl, hrm, hab⟩
          unfold rename at hl'
          split at hl'
          · rename_i hle
            subst hl'
            refine ⟨st.infos.length, _, Or.inr ⟨rfl, rfl⟩, by simp, hnewrem, ?_⟩
            simp only [mem_sortUniqueTrans, c3]
            exact Or.inr ⟨l, hle, k, i, hinv.mapped k i l hk hl hrm, hk, hab⟩
          · rename_i hle
            subst hl'
            exact ⟨k, i, Or.inl hk, hl, (hkeep k i l hk hl).mpr ⟨hrm, hle⟩, hab⟩
      · intro i hi t ht
        rcases List.mem_append.mp hi with e' | e'
        · exact ⟨i, e', ht⟩
        · simp only [List.mem_singleton] at e'
          subst e'
          simp only [mem_sortUniqueTrans, c3, List.not_mem_nil, false_or] at ht
          obtain ⟨l, _, k, j, _, h2, h3⟩ := ht
          exact ⟨j, List.mem_of_getElem? h2, h3⟩

theorem combineAll_spec : ∀ {es : List (Nat × List Nat)} {L L' : Labels} {st st' : CombSt}, L.Ok → ValidMap L es → CInv L st → reduceLabels es L = some L' → combineAll L' es st = some st' →
    CInv L' st' ∧ (∀ l' a b, VTr st' l' a b ↔ ∃ l, sigma es l = l' ∧ VTr st l a b) ∧ (∀ i ∈ st'.infos, ∀ t ∈ i.transitions, ∃ j ∈ st.infos, t ∈ j.transitions) ∧ st'.labelTo.length = st.labelTo.length := by
  intro es
  -- the labels that are used for the costs are the final ones
  suffices H : ∀ {es : List (Nat × List Nat)} {L L' : Labels} {st st' : CombSt} (Lf : Labels), Lf = L' → L.Ok → ValidMap L es → CInv L st → reduceLabels es L = some L' → combineAll Lf es st = some st' →
    CInv L' st' ∧ (∀ l' a b, VTr st' l' a b ↔ ∃ l, sigma es l = l' ∧ VTr st l a b) ∧ (∀ i ∈ st'.infos, ∀ t ∈ i.transitions, ∃ j ∈ st.infos, t ∈ j.transitions) ∧ st'.labelTo.length = st.labelTo.length from
    fun {_ _ _ _} hL hv hi hr h => H _ rfl hL hv hi hr h
  intro es
  induction es with
  | nil =>
    intro L L' st st' Lf hLf hL _ hi hr h
    simp only [combineAll, Option.some.injEq] at h
    simp only [reduceLabels, Option.some.injEq] at hr
    subst h hr
    exact ⟨hi, by simp [sigma], fun i hi t ht => ⟨i, hi, ht⟩, rfl⟩
  | cons e es ih =>
    intro L L' st st' Lf hLf hL hv hi hr h
    simp only [reduceLabels] at hr
    split at hr
    · rename_i he
      cases hr1 : L.reduce e.2 with
      | none => rw [hr1] at hr; simp at hr
      | some L1 =>
        rw [hr1] at hr
        simp only at hr
        simp only [combineAll] at h
        cases hs : combineOne Lf e st with
        | none => rw [hs] at h; simp at h
        | some st1 =>
          rw [hs] at h
          simp only at h
          obtain ⟨c, hcc⟩ := hv.cost e (by simp)
          have hne := hv.ne e (by simp)
          obtain ⟨_, _, r3, _, _, r6⟩ := reduce_spec hL hr1 hcc hne
          have hv' := hv.tail hL hr1
          have hf : Lf.cost e.1 = some c := by
            have := (reduceLabels_cost r6 hv' hr).2.2.1 e.1 c (by rw [he]; exact r3)
            rw [sigma_of_not_mem] at this
            · rw [hLf]; exact this
            · intro x hx hc'
              obtain ⟨d, hd⟩ := hv.cost x (by simp [hx])
              have := hd _ hc'
              rw [he, Labels.cost_none (Nat.le_refl _)] at this
              simp at this
          obtain ⟨a1, a2, a3, a4⟩ := combineOne_spec hL hi he hcc hne hr1 hf hs
          obtain ⟨b1, b2, b3, b4⟩ := ih Lf hLf r6 hv' a1 hr h
          refine ⟨b1, ?_, ?_, by rw [b4, a4]⟩
          · intro l' a b
            rw [b2]
            simp only [a2]
            constructor
            · rintro ⟨l, h1, l1, h2, h3⟩
              exact ⟨l1, by show sigma es (rename e l1) = l'; rw [h2, h1], h3⟩
            · rintro ⟨l1, h1, h3⟩
              exact ⟨rename e l1, h1, l1, rfl, h3⟩
          · intro i hi' t ht
            obtain ⟨j, h1, h2⟩ := b3 i hi' t ht
            exact a3 j h1 t h2
    · simp at hr

theorem removeOld_spec {L : Labels} {rem : List (Nat × Nat)} {k : Nat} {infos infos' : List LocalLabel} (h : removeOld L rem k infos = some infos') :
    ∃ i i' : LocalLabel, infos[k]? = some i ∧ infos' = infos.set k i' ∧ i'.transitions = i.transitions ∧ (∀ l, l ∈ i'.labels ↔ l ∈ i.labels ∧ (k, l) ∉ rem) ∧ minCost L i'.labels inf = some i'.cost := by
  unfold removeOld at h
  cases hi : infos[k]? with
  | none => rw [hi] at h; simp at h
  | some i =>
    rw [hi] at h
    simp only at h
    cases hr : removeLabels i.labels (sortLabels ((rem.filter (fun e => e.1 = k)).map (·.2))) with
    | none => rw [hr] at h; simp at h
    | some ls =>
      rw [hr] at h
      simp only at h
      cases hm : minCost L ls inf with
      | none => rw [hm] at h; simp at h
      | some c =>
        rw [hm] at h
        simp only [Option.some.injEq] at h
        refine ⟨i, { i with labels := ls, cost := c }, rfl, h.symm, rfl, ?_, hm⟩
        intro l
        rw [removeLabels_spec hr, mem_sortLabels]
        simp only [List.mem_map, List.mem_filter, decide_eq_true_eq, Prod.exists, exists_eq_right]


theorem removeAllOld_spec {L : Labels} {rem : List (Nat × Nat)} : ∀ {ks : List Nat} {infos infos' : List LocalLabel}, ks.Nodup → removeAllOld L rem ks infos = some infos' →
    infos'.length = infos.length ∧ (∀ k, k ∉ ks → infos'[k]? = infos[k]?) ∧
    ∀ k ∈ ks, ∃ i i' : LocalLabel, infos[k]? = some i ∧ infos'[k]? = some i' ∧ i'.transitions = i.transitions ∧ (∀ l, l ∈ i'.labels ↔ l ∈ i.labels ∧ (k, l) ∉ rem) ∧ minCost L i'.labels inf = some i'.cost
  | [], infos, infos', _, h => by
    simp only [removeAllOld, Option.some.injEq] at h
    subst h
    simp
  | x :: ks, infos, infos', hnd, h => by
    simp only [removeAllOld] at h
    rw [List.nodup_cons] at hnd
    cases hr : removeOld L rem x infos with
    | none => rw [hr] at h; simp at h
    | some infos1 =>
      rw [hr] at h
      simp only at h
      obtain ⟨i, i', h1, rfl, h3, h4, h5⟩ := removeOld_spec hr
      obtain ⟨r1, r2, r3⟩ := removeAllOld_spec hnd.2 h
      have hxl : x < infos.length := (List.getElem?_eq_some_iff.mp h1).1
      refine ⟨by rw [r1, List.length_set], ?_, ?_⟩
      · intro k hk
        simp only [List.mem_cons, not_or] at hk
        rw [r2 k hk.2, List.getElem?_set, if_neg (fun e => hk.1 e.symm)]
      · intro k hk
        rcases List.mem_cons.mp hk with e | e
        · subst e
          exact ⟨i, i', h1, by rw [r2 k hnd.1, List.getElem?_set, if_pos rfl, if_pos hxl], h3, h4, h5⟩
        · obtain ⟨j, j', g1, g2⟩ := r3 k e
          rw [List.getElem?_set, if_neg (fun e' : x = k => hnd.1 (by rw [e']; exact e))] at g1
          exact ⟨j, j', g1, g2⟩

theorem reduceCombinable_mid {es : List (Nat × List Nat)} {L L' : Labels} {st : List (Option Nat) × List LocalLabel} {cs : CombSt} {infos : List LocalLabel} (hL : L.Ok) (hv : ValidMap L es) (hc : Cons L st.1 st.2) (hr : reduceLabels es L = some L')
    (hca : combineAll L' es ⟨st.1, st.2, []⟩ = some cs) (hra : removeAllOld L' cs.removed (cs.removed.map (·.1)).eraseDups cs.infos = some infos) : Cons L' cs.labelTo infos := by
  have hi0 : CInv L ⟨st.1, st.2, []⟩ := by
    refine ⟨fun k i l hk hl _ => hc.mapped k i l hk hl, fun k i l hk hl _ => hc.live i (List.mem_of_getElem? hk) l hl, fun k i hk _ hne => hc.least i (List.mem_of_getElem? hk) hne, ?_, by simp⟩
    intro l c hl
    obtain ⟨k, i, h1, h2⟩ := has_iff.mp (hc.complete l c hl)
    exact ⟨k, i, h1, h2, by simp⟩
  obtain ⟨a1, a2, a3, a4⟩ := combineAll_spec hL hv hi0 hr hca
  obtain ⟨r1, r2, r3⟩ := removeAllOld_spec (nodup_eraseDups _ _ (Nat.le_refl _)) hra
  have hL' := (reduceLabels_cost hL hv hr).1
  -- the result of the removal
  have hget : ∀ (k : Nat) (i' : LocalLabel), infos[k]? = some i' → ∃ i : LocalLabel, cs.infos[k]? = some i ∧ i'.transitions = i.transitions ∧ (∀ l, l ∈ i'.labels ↔ l ∈ i.labels ∧ (k, l) ∉ cs.removed) ∧
      ((i' = i ∧ ∀ l, (k, l) ∉ cs.removed) ∨ minCost L' i'.labels inf = some i'.cost) := by
    intro k i' hk
    by_cases hks : k ∈ (cs.removed.map (·.1)).eraseDups
    · obtain ⟨i, j', g1, g2, g3, g4, g5⟩ := r3 k hks
      rw [hk] at g2
      simp only [Option.some.injEq] at g2
      subst g2
      exact ⟨i, g1, g3, g4, Or.inr g5⟩
    · rw [r2 k hks] at hk
      have hn : ∀ l, (k, l) ∉ cs.removed := by
        intro l hl
        apply hks
        rw [List.mem_eraseDups, List.mem_map]
        exact ⟨_, hl, rfl⟩
      exact ⟨i', hk, rfl, fun l => ⟨fun hl => ⟨hl, hn l⟩, fun hl => hl.1⟩, Or.inl ⟨rfl, hn⟩⟩
  have hget' : ∀ (k : Nat) (i : LocalLabel), cs.infos[k]? = some i → ∃ i' : LocalLabel, infos[k]? = some i' ∧ i'.transitions = i.transitions ∧ (∀ l, l ∈ i'.labels ↔ l ∈ i.labels ∧ (k, l) ∉ cs.removed) := by
    intro k i hk
    have hlt : k < infos.length := by rw [r1]; exact (List.getElem?_eq_some_iff.mp hk).1
    obtain ⟨j, h1, h2, h3, _⟩ := hget k _ (List.getElem?_eq_getElem hlt)
    rw [hk] at h1
    simp only [Option.some.injEq] at h1
    subst h1
    exact ⟨_, List.getElem?_eq_getElem hlt, h2, h3⟩
  refine ⟨⟨?_, ?_, ?_⟩, ?_⟩
  · intro k i' l hk hl
    obtain ⟨i, h1, _, h3, _⟩ := hget k i' hk
    obtain ⟨h4, h5⟩ := (h3 l).mp hl
    exact a1.mapped k i l h1 h4 h5
  · intro i' hi' l hl
    obtain ⟨k, hk⟩ := List.getElem?_of_mem hi'
    obtain ⟨i, h1, _, h3, h4⟩ := hget k i' hk
    rcases h4 with ⟨rfl, h4⟩ | h4
    · exact a1.live k i' l h1 hl (h4 l)
    · exact (minCost_spec h4).2.1 l hl
  · intro i' hi' hne
    obtain ⟨k, hk⟩ := List.getElem?_of_mem hi'
    obtain ⟨i, h1, _, h3, h4⟩ := hget k i' hk
    rcases h4 with ⟨rfl, h4⟩ | h4
    · exact a1.least k i' h1 h4 hne
    · exact minCost_inf hL' h4 hne
  · intro l c hl
    obtain ⟨k, i, h1, h2, h3⟩ := a1.complete l c hl
    obtain ⟨i', g1, _, g3⟩ := hget' k i h1
    exact has_iff.mpr ⟨k, i', g1, (g3 l).mpr ⟨h2, h3⟩⟩

theorem reduceCombinable_spec {es : List (Nat × List Nat)} {L L' : Labels} {st st' : List (Option Nat) × List LocalLabel} (hL : L.Ok) (hv : ValidMap L es) (hc : Cons L st.1 st.2) (hr : reduceLabels es L = some L')
    (h : reduceCombinable L' es st = some st') :
    Cons L' st'.1 st'.2 ∧ (∀ l' a b, Tr st'.2 l' a b ↔ ∃ l, sigma es l = l' ∧ Tr st.2 l a b) ∧ (∀ i ∈ st'.2, ∀ t ∈ i.transitions, ∃ j ∈ st.2, t ∈ j.transitions) ∧ st'.1.length = st.1.length := by
  unfold reduceCombinable at h
  cases hca : combineAll L' es ⟨st.1, st.2, []⟩ with
  | none => rw [hca] at h; simp at h
  | some cs =>
    rw [hca] at h
    simp only at h
    cases hra : removeAllOld L' cs.removed (cs.removed.map (·.1)).eraseDups cs.infos with
    | none => rw [hra] at h; simp at h
    | some infos =>
      rw [hra] at h
      simp only at h
      have hi0 : CInv L ⟨st.1, st.2, []⟩ := by
        refine ⟨fun k i l hk hl _ => hc.mapped k i l hk hl, fun k i l hk hl _ => hc.live i (List.mem_of_getElem? hk) l hl, fun k i hk _ hne => hc.least i (List.mem_of_getElem? hk) hne, ?_, by simp⟩
        intro l c hl
        obtain ⟨k, i, h1, h2⟩ := has_iff.mp (hc.complete l c hl)
        exact ⟨k, i, h1, h2, by simp⟩
      obtain ⟨a1, a2, a3, a4⟩ := combineAll_spec hL hv hi0 hr hca
      obtain ⟨r1, r2, r3⟩ := removeAllOld_spec (nodup_eraseDups _ _ (Nat.le_refl _)) hra
      have hL' := (reduceLabels_cost hL hv hr).1
      -- the result of the removal
      have hget : ∀ (k : Nat) (i' : LocalLabel), infos[k]? = some i' → ∃ i : LocalLabel, cs.infos[k]? = some i ∧ i'.transitions = i.transitions ∧ (∀ l, l ∈ i'.labels ↔ l ∈ i.labels ∧ (k, l) ∉ cs.removed) ∧
          ((i' = i ∧ ∀ l, (k, l) ∉ cs.removed) ∨ minCost L' i'.labels inf = some i'.cost) := by
        intro k i' hk
        by_cases hks : k ∈ (cs.removed.map (·.1)).eraseDups
        · obtain ⟨i, j', g1, g2, g3, g4, g5⟩ := r3 k hks
          rw [hk] at g2
          simp only [Option.some.injEq] at g2
          subst g2
          exact ⟨i, g1, g3, g4, Or.inr g5⟩
        · rw [r2 k hks] at hk
          have hn : ∀ l, (k, l) ∉ cs.removed := by
            intro l hl
            apply hks
            rw [List.mem_eraseDups, List.mem_map]
            exact ⟨_, hl, rfl⟩
          exact ⟨i', hk, rfl, fun l => ⟨fun hl => ⟨hl, hn l⟩, fun hl => hl.1⟩, Or.inl ⟨rfl, hn⟩⟩
      have hget' : ∀ (k : Nat) (i : LocalLabel), cs.infos[k]? = some i → ∃ i' : LocalLabel, infos[k]? = some i' ∧ i'.transitions = i.transitions ∧ (∀ l, l ∈ i'.labels ↔ l ∈ i.labels ∧ (k, l) ∉ cs.removed) := by
        intro k i hk
        have hlt : k < infos.length := by rw [r1]; exact (List.getElem?_eq_some_iff.mp hk).1
        obtain ⟨j, h1, h2, h3, _⟩ := hget k _ (List.getElem?_eq_getElem hlt)
        rw [hk] at h1
        simp only [Option.some.injEq] at h1
        subst h1
        exact ⟨_, List.getElem?_eq_getElem hlt, h2, h3⟩
      have hcons : Cons L' cs.labelTo infos := reduceCombinable_mid hL hv hc hr hca hra
      have htr : ∀ l a b, Tr infos l a b ↔ VTr cs l a b := by
        intro l a b
        rw [tr_iff]
        constructor
        · rintro ⟨k, i', hk, hl, hab⟩
          obtain ⟨i, h1, h2, h3, _⟩ := hget k i' hk
          obtain ⟨h4, h5⟩ := (h3 l).mp hl
          exact ⟨k, i, h1, h4, h5, h2 ▸ hab⟩
        · rintro ⟨k, i, hk, hl, hrm, hab⟩
          obtain ⟨i', g1, g2, g3⟩ := hget' k i hk
          exact ⟨k, i', g1, (g3 l).mpr ⟨hl, hrm⟩, g2 ▸ hab⟩
      have hs := computeEquivalent_spec (L := L') h
      refine ⟨hs.cons hcons, ?_, ?_, by rw [hs.len]; exact a4⟩
      · intro l' a b
        rw [hs.tr, htr, a2]
        constructor
        · rintro ⟨l, h1, k, i, h2, h3, _, h5⟩
          exact ⟨l, h1, tr_iff.mpr ⟨k, i, h2, h3, h5⟩⟩
        · rintro ⟨l, h1, h2⟩
          obtain ⟨k, i, h3, h4, h5⟩ := tr_iff.mp h2
          exact ⟨l, h1, k, i, h3, h4, by simp, h5⟩
      · intro i' hi' t ht
        obtain ⟨j', h1, h2⟩ := hs.trans i' hi' t ht
        obtain ⟨k, hk⟩ := List.getElem?_of_mem h1
        obtain ⟨j, h3, h4, _⟩ := hget k j' hk
        exact a3 j (List.mem_of_getElem? h3) t (h4 ▸ h2)

/-- a label reduction renames the labels of the transitions -/
theorem applyLabelReduction_spec {es : List (Nat × List Nat)} {L L' : Labels} {T T' : TS} {only : Bool} (hL : L.Ok) (hv : ValidMap L es) (hT : TSOk L T) (hr : reduceLabels es L = some L')
    (hloc : only = true → ∀ e ∈ es, ∃ i ∈ T.infos, ∀ l ∈ e.2, l ∈ i.labels) (h : T.applyLabelReduction L' es only = some T') :
    TSOk L' T' ∧ T'.goals = T.goals ∧ T'.init = T.init ∧ T'.labelTo.length = T.labelTo.length ∧ ∀ l' a b, Tr T'.infos l' a b ↔ ∃ l, sigma es l = l' ∧ Tr T.infos l a b := by
  unfold TS.applyLabelReduction at h
  split at h
  · have key : ∀ m infos, T' = { T with labelTo := m, infos := infos } → (Cons L' m infos ∧ (∀ l' a b, Tr infos l' a b ↔ ∃ l, sigma es l = l' ∧ Tr T.infos l a b) ∧ (∀ i ∈ infos, ∀ t ∈ i.transitions, ∃ j ∈ T.infos, t ∈ j.transitions) ∧ m.length = T.labelTo.length) →
        TSOk L' T' ∧ T'.goals = T.goals ∧ T'.init = T.init ∧ T'.labelTo.length = T.labelTo.length ∧ ∀ l' a b, Tr T'.infos l' a b ↔ ∃ l, sigma es l = l' ∧ Tr T.infos l a b := by
      rintro m infos rfl ⟨h1, h2, h3, h4⟩
      refine ⟨⟨h1, ⟨hT.range.init, ?_⟩⟩, rfl, rfl, h4, h2⟩
      intro i hi t ht
      obtain ⟨j, hj, hjt⟩ := h3 i hi t ht
      exact hT.range.trans j hj t hjt
    cases only with
    | true =>
      simp only [if_true] at h
      cases ha : reduceAllEquivalent es (T.labelTo, T.infos) with
      | none => rw [ha] at h; simp at h
      | some st =>
        obtain ⟨m, infos⟩ := st
        rw [ha] at h
        simp only [Option.some.injEq] at h
        obtain ⟨b1, b2, b3, b4⟩ := reduceAllEquivalent_spec hL hv hT.cons hr (hloc rfl) ha
        refine key m infos h.symm ⟨b1, b2, ?_, b4⟩
        intro i hi t ht
        obtain ⟨j, hj, e⟩ := b3 i hi
        exact ⟨j, hj, e ▸ ht⟩
    | false =>
      simp only [Bool.false_eq_true, if_false] at h
      cases ha : reduceCombinable L' es (T.labelTo, T.infos) with
      | none => rw [ha] at h; simp at h
      | some st =>
        obtain ⟨m, infos⟩ := st
        rw [ha] at h
        simp only [Option.some.injEq] at h
        exact key m infos h.symm (reduceCombinable_spec hL hv hT.cons hr ha)
  · simp at h

end Verif.Mas
