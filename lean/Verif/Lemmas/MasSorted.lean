import Verif.Lemmas.MasCombine

/-
The label groups of a transition system are sorted and contain no label twice.
-/
namespace Verif.Mas

/-- all groups are strictly sorted -/
def Srt (infos : List LocalLabel) : Prop := ∀ i ∈ infos, i.labels.Pairwise (· < ·)

theorem sortLabels_sorted {l : List Nat} (h : l.Nodup) : (sortLabels l).Pairwise (· < ·) := by
  have h1 : (sortLabels l).Pairwise (· ≤ ·) := List.pairwise_insertionSort (· ≤ ·) l
  have h2 : (sortLabels l).Nodup := (List.perm_insertionSort (· ≤ ·) l).nodup_iff.mpr h
  exact (h1.and h2).imp (fun ⟨a, b⟩ => Nat.lt_of_le_of_ne a b)

theorem sorted_nodup {l : List Nat} (h : l.Pairwise (· < ·)) : l.Nodup := h.imp (fun hab => Nat.ne_of_lt hab)

theorem addGroup_srt {L : Labels} {ls : List Nat} {ts : List (Nat × Nat)} {m m' : List (Option Nat)} {infos infos' : List LocalLabel} (h : addGroup L ls ts m infos = some (m', infos')) (hs : Srt infos) (hl : ls.Pairwise (· < ·)) : Srt infos' := by
  unfold addGroup at h
  cases hc : minCost L ls inf with
  | none => rw [hc] at h; simp at h
  | some c =>
    cases hm : setAll (some infos.length) ls m with
    | none => rw [hc, hm] at h; simp at h
    | some m1 =>
      rw [hc, hm] at h
      simp only [Option.some.injEq, Prod.mk.injEq] at h
      obtain ⟨rfl, rfl⟩ := h
      intro i hi
      rcases List.mem_append.mp hi with e | e
      · exact hs i e
      · simp only [List.mem_singleton] at e
        subst e
        exact hl

theorem addGroups_srt {L : Labels} : ∀ (gs : List (List Nat × List (Nat × Nat))) (st st' : GroupSt), addGroups L gs st = some st' → Srt st.infos → st.dead.Nodup →
    gs.Pairwise (fun g g' => ∀ l ∈ g.1, l ∉ g'.1) → (∀ g ∈ gs, g.1.Nodup ∧ ∀ l ∈ g.1, l ∉ st.dead) → Srt st'.infos ∧ st'.dead.Nodup
  | [], st, st', h, hs, hd, _, _ => by
    simp only [addGroups, Option.some.injEq] at h
    subst h
    exact ⟨hs, hd⟩
  | (ls, ts) :: gs, st, st', h, hs, hd, hpw, hn => by
    simp only [addGroups] at h
    rw [List.pairwise_cons] at hpw
    obtain ⟨hpw1, hpw2⟩ := hpw
    have hn0 := hn (ls, ts) (by simp)
    by_cases hts : ts.isEmpty
    · rw [if_pos hts] at h
      refine addGroups_srt gs _ st' h hs ?_ hpw2 ?_
      · rw [List.nodup_append]
        refine ⟨hd, hn0.1, ?_⟩
        rintro a ha b hb rfl
        exact hn0.2 a hb ha
      · intro g hg
        refine ⟨(hn g (by simp [hg])).1, ?_⟩
        intro l hl hc
        rcases List.mem_append.mp hc with e | e
        · exact (hn g (by simp [hg])).2 l hl e
        · exact hpw1 g hg l e hl
    · rw [if_neg hts] at h
      cases ha : addGroup L (sortLabels ls) (sortTrans ts) st.labelTo st.infos with
      | none => rw [ha] at h; simp at h
      | some p =>
        obtain ⟨m, infos⟩ := p
        rw [ha] at h
        simp only at h
        exact addGroups_srt gs _ st' h (addGroup_srt ha hs (sortLabels_sorted hn0.1)) hd hpw2 (fun g hg => hn g (by simp [hg]))

theorem groups_nodup {O : HashOrder} {T1 T2 : TS} (h1 : Srt T1.infos) {gs : List (List (List Nat × List (Nat × Nat)))} (h : mapAll (infoGroups O T2) (T1.infos.filter (·.active)) = some gs) : ∀ g ∈ gs.flatten, g.1.Nodup := by
  intro g hg
  obtain ⟨gl, hgl, hg'⟩ := List.mem_flatten.mp hg
  obtain ⟨i1, hi1, hgi⟩ := mapAll_mem h hgl
  unfold infoGroups at hgi
  cases hb : buckets O (fun l => (T2.labelTo[l]?).join) i1.labels with
  | none => rw [hb] at hgi; simp at hgi
  | some bs =>
    rw [hb] at hgi
    simp only at hgi
    obtain ⟨b, hb1, hb2⟩ := mapAll_mem hgi hg'
    unfold bucketGroup at hb2
    cases hi : T2.infos[b.1]? with
    | none => rw [hi] at hb2; simp at hb2
    | some i2 =>
      rw [hi] at hb2
      simp only [Option.some.injEq] at hb2
      subst hb2
      simp only
      rw [(buckets_spec hb).1 b hb1]
      exact (sorted_nodup (h1 i1 (List.mem_filter.mp hi1).1)).filter _

theorem merge_srt {O : HashOrder} {L : Labels} {T1 T2 T : TS} (h1 : TSOk L T1) (h2 : TSOk L T2) (hs : Srt T1.infos) (h : T1.merge O L T2 = some T) : Srt T.infos := by
  unfold TS.merge at h
  cases hi : mergeInit T1 T2 with
  | none => rw [hi] at h; simp at h
  | some i0 =>
    rw [hi] at h
    simp only at h
    split at h
    · cases hg : mapAll (infoGroups O T2) (T1.infos.filter (·.active)) with
      | none => rw [hg] at h; simp at h
      | some gs =>
        rw [hg] at h
        simp only at h
        cases hst : addGroups L gs.flatten ⟨List.replicate L.maxNum none, [], []⟩ with
        | none => rw [hst] at h; simp at h
        | some st =>
          rw [hst] at h
          simp only at h
          cases hd : addDead L st with
          | none => rw [hd] at h; simp at h
          | some p =>
            obtain ⟨m, infos⟩ := p
            rw [hd] at h
            simp only [Option.some.injEq] at h
            subst h
            obtain ⟨g1, _, _⟩ := groups_spec h1.cons.toPCons h2.cons hg
            have hn := groups_nodup hs hg
            obtain ⟨a1, a2⟩ := addGroups_srt gs.flatten _ st hst (by intro i hi; simp at hi) (by simp) g1 (fun g hg => ⟨hn g hg, by simp⟩)
            unfold addDead at hd
            split at hd
            · simp only [Option.some.injEq, Prod.mk.injEq] at hd
              obtain ⟨_, rfl⟩ := hd
              exact a1
            · exact addGroup_srt hd a1 (sortLabels_sorted a2)
    · simp at h

theorem equivStep_srt {L : Labels} {i j : Nat} (hij : i ≠ j) {st st' : List (Option Nat) × List LocalLabel} (h : equivStep i j st = some st') (hp : PCons L st.1 st.2) (hs : Srt st.2) : Srt st'.2 := by
  unfold equivStep at h
  cases hi : st.2[i]? with
  | none => rw [hi] at h; simp at h
  | some a =>
    cases hj : st.2[j]? with
    | none => rw [hi, hj] at h; simp at h
    | some b =>
      rw [hi, hj] at h
      simp only at h
      by_cases hc : b.active ∧ a.transitions = b.transitions
      · rw [if_pos hc] at h
        cases hss : setAll (some i) b.labels st.1 with
        | none => rw [hss] at h; simp at h
        | some m =>
          rw [hss] at h
          simp only [Option.some.injEq] at h
          subst h
          intro x hx
          simp only at hx
          have hnd : (a.labels ++ b.labels).Nodup := by
            rw [List.nodup_append]
            refine ⟨sorted_nodup (hs a (List.mem_of_getElem? hi)), sorted_nodup (hs b (List.mem_of_getElem? hj)), ?_⟩
            rintro l hl l' hl' rfl
            exact hij (hp.unique hi hj hl hl')
          rcases List.mem_or_eq_of_mem_set hx with e | e
          · rcases List.mem_or_eq_of_mem_set e with e | e
            · exact hs x e
            · subst e
              exact sortLabels_sorted hnd
          · subst e
            simp [inactive]
      · rw [if_neg hc] at h
        simp only [Option.some.injEq] at h
        subst h
        exact hs

theorem equivInner_srt {L : Labels} {i : Nat} : ∀ {js : List Nat} {st st' : List (Option Nat) × List LocalLabel}, (∀ j ∈ js, i ≠ j) → equivInner i js st = some st' → (∃ a : LocalLabel, st.2[i]? = some a ∧ a.labels ≠ []) →
    PCons L st.1 st.2 → Srt st.2 → Srt st'.2
  | [], st, st', _, h, _, _, hs => by
    simp only [equivInner, Option.some.injEq] at h
    subst h
    exact hs
  | j :: js, st, st', hj, h, ⟨a, h1, h2⟩, hp, hs => by
    simp only [equivInner] at h
    cases hst : equivStep i j st with
    | none => rw [hst] at h; simp at h
    | some st1 =>
      rw [hst] at h
      simp only at h
      obtain ⟨e1, e2⟩ := equivStep_spec (hj j (by simp)) hst h1 h2 (L := L)
      exact equivInner_srt (fun x hx => hj x (by simp [hx])) h e2 (e1.pcons hp) (equivStep_srt (hj j (by simp)) hst hp hs)

theorem equivOuter_srt {L : Labels} {n : Nat} : ∀ {is : List Nat} {st st' : List (Option Nat) × List LocalLabel}, equivOuter n is st = some st' → PCons L st.1 st.2 → Srt st.2 → Srt st'.2
  | [], st, st', h, _, hs => by
    simp only [equivOuter, Option.some.injEq] at h
    subst h
    exact hs
  | i :: is, st, st', h, hp, hs => by
    simp only [equivOuter] at h
    cases hi : st.2[i]? with
    | none => rw [hi] at h; simp at h
    | some a =>
      rw [hi] at h
      simp only at h
      by_cases ha : a.active
      · rw [if_pos ha] at h
        cases hst : equivInner i (List.range' (i + 1) (n - (i + 1))) st with
        | none => rw [hst] at h; simp at h
        | some st1 =>
          rw [hst] at h
          simp only at h
          have hne : ∀ j ∈ List.range' (i + 1) (n - (i + 1)), i ≠ j := fun j hj => by have := (List.mem_range'_1.mp hj).1; omega
          have hact : ∃ a : LocalLabel, st.2[i]? = some a ∧ a.labels ≠ [] := ⟨a, hi, by simpa [LocalLabel.active] using ha⟩
          exact equivOuter_srt h ((equivInner_spec hne hst hact).pcons hp) (equivInner_srt hne hst hact hp hs)
      · rw [if_neg ha] at h
        exact equivOuter_srt h hp hs

theorem applyAbstraction_srt {L : Labels} {T T' : TS} {rel : List (List Nat)} {m : List (Option Nat)} (hT : TSOk L T) (hs : Srt T.infos) (h : T.applyAbstraction rel m = some T') : Srt T'.infos := by
  unfold TS.applyAbstraction at h
  split at h
  · cases hg : mapAll (classGoal T.goals) rel with
    | none => rw [hg] at h; simp at h
    | some goals =>
      cases hi : mapAll (mapInfo m) T.infos with
      | none => rw [hg, hi] at h; simp at h
      | some infos =>
        cases hn : mapInit m T.init with
        | none => rw [hg, hi, hn] at h; simp at h
        | some init =>
          rw [hg, hi, hn] at h
          simp only at h
          cases he : computeEquivalent (T.labelTo, infos) with
          | none => rw [he] at h; simp at h
          | some st =>
            obtain ⟨m', infos'⟩ := st
            rw [he] at h
            simp only [Option.some.injEq] at h
            subst h
            have hinfo : ∀ (i : LocalLabel) (i' : LocalLabel), mapInfo m i = some i' → i'.labels = i.labels ∧ i'.cost = i.cost := by
              intro i i' hii
              unfold mapInfo at hii
              cases hmt : mapAll (mapTrans m) i.transitions with
              | none => rw [hmt] at hii; simp at hii
              | some os =>
                rw [hmt] at hii
                simp only [Option.some.injEq] at hii
                subst hii
                exact ⟨rfl, rfl⟩
            have hp : PCons L T.labelTo infos := by
              refine ⟨?_, ?_, ?_⟩
              · intro k i' l hk hl
                obtain ⟨i, h1, h2⟩ := mapAll_getElem?' hi hk
                exact hT.cons.mapped k i l h1 ((hinfo i i' h2).1 ▸ hl)
              · intro i' hi' l hl
                obtain ⟨i, h1, h2⟩ := mapAll_mem hi hi'
                rw [(hinfo i i' h2).2]
                exact hT.cons.live i h1 l ((hinfo i i' h2).1 ▸ hl)
              · intro i' hi' hne
                obtain ⟨i, h1, h2⟩ := mapAll_mem hi hi'
                rw [(hinfo i i' h2).2, (hinfo i i' h2).1]
                exact hT.cons.least i h1 ((hinfo i i' h2).1 ▸ hne)
            refine equivOuter_srt (L := L) he hp ?_
            intro i' hi'
            obtain ⟨i, h1, h2⟩ := mapAll_mem hi hi'
            rw [(hinfo i i' h2).1]
            exact hs i h1
  · simp at h

theorem removeLabels_sorted {labels old ls : List Nat} (h : removeLabels labels old = some ls) : ls.Pairwise (· < ·) := by
  unfold removeLabels at h
  split at h
  · rename_i hs
    simp only [Option.some.injEq] at h
    subst h
    exact hs.1.filter _
  · simp at h

theorem reduceEquivalent_srt {L : Labels} {e : Nat × List Nat} {st st' : List (Option Nat) × List LocalLabel} (hcons : Cons L st.1 st.2) (he : e.1 = L.costs.length) (hs : Srt st.2) (h : reduceEquivalent e st = some st') : Srt st'.2 := by
  unfold reduceEquivalent at h
  cases hl0 : e.2 with
  | nil => rw [hl0] at h; simp at h
  | cons l0 rest =>
    rw [hl0] at h
    simp only at h
    rw [← hl0] at h
    cases hk : (st.1[l0]?).join with
    | none => rw [hk] at h; simp at h
    | some k =>
      rw [hk] at h
      simp only at h
      cases hi : st.2[k]? with
      | none => rw [hi] at h; simp at h
      | some i =>
        rw [hi] at h
        simp only at h
        cases hrm : removeLabels i.labels e.2 with
        | none => rw [hrm] at h; simp at h
        | some ls =>
          cases hs1 : setAll (some k) [e.1] st.1 with
          | none => rw [hrm, hs1] at h; simp at h
          | some m1 =>
            rw [hrm, hs1] at h
            simp only at h
            cases hs2 : setAll none e.2 m1 with
            | none => rw [hs2] at h; simp at h
            | some m2 =>
              rw [hs2] at h
              simp only [Option.some.injEq] at h
              subst h
              intro x hx
              rcases List.mem_or_eq_of_mem_set hx with e' | e'
              · exact hs x e'
              · subst e'
                simp only
                rw [List.pairwise_append]
                refine ⟨removeLabels_sorted hrm, by simp, ?_⟩
                intro l hl y hy
                simp only [List.mem_singleton] at hy
                subst hy
                obtain ⟨c, hc, _⟩ := hcons.live i (List.mem_of_getElem? hi) l ((removeLabels_spec hrm l).mp hl).1
                rw [he]
                by_contra hlt
                rw [Labels.cost_none (by omega)] at hc
                simp at hc

theorem reduceAllEquivalent_srt : ∀ {es : List (Nat × List Nat)} {L L' : Labels} {st st' : List (Option Nat) × List LocalLabel}, L.Ok → ValidMap L es → Cons L st.1 st.2 → reduceLabels es L = some L' →
    (∀ e ∈ es, ∃ i ∈ st.2, ∀ l ∈ e.2, l ∈ i.labels) → Srt st.2 → reduceAllEquivalent es st = some st' → Srt st'.2
  | [], L, L', st, st', _, _, _, _, _, hs, h => by
    simp only [reduceAllEquivalent, Option.some.injEq] at h
    subst h
    exact hs
  | e :: es, L, L', st, st', hL, hv, hc, hr, hloc, hss, h => by
    simp only [reduceLabels] at hr
    split at hr
    · rename_i he
      cases hr1 : L.reduce e.2 with
      | none => rw [hr1] at hr; simp at hr
      | some L1 =>
        rw [hr1] at hr
        simp only at hr
        simp only [reduceAllEquivalent] at h
        cases hs : reduceEquivalent e st with
        | none => rw [hs] at h; simp at h
        | some st1 =>
          rw [hs] at h
          simp only at h
          obtain ⟨c, hcc⟩ := hv.cost e (by simp)
          have hne := hv.ne e (by simp)
          obtain ⟨_, _, _, _, _, r6⟩ := reduce_spec hL hr1 hcc hne
          obtain ⟨a1, _, _, a4, _⟩ := reduceEquivalent_spec hL hc he hcc hne hr1 (hloc e (by simp)) hs
          have hd := List.pairwise_cons.mp hv.disj
          exact reduceAllEquivalent_srt r6 (hv.tail hL hr1) a1 hr (by
            intro x hx
            obtain ⟨i, h1, h2⟩ := hloc x (by simp [hx])
            obtain ⟨i', h3, h4⟩ := a4 i h1
            exact ⟨i', h3, fun l hl => h4 l (h2 l hl) (fun hc' => hd.1 x hx l hc' hl)⟩) (reduceEquivalent_srt hc he hss hs) h
    · simp at hr

theorem combineAll_srt {L : Labels} : ∀ {es : List (Nat × List Nat)} {st st' : CombSt}, Srt st.infos → combineAll L es st = some st' → Srt st'.infos
  | [], st, st', hs, h => by
    simp only [combineAll, Option.some.injEq] at h
    subst h
    exact hs
  | e :: es, st, st', hs, h => by
    simp only [combineAll] at h
    cases hc : combineOne L e st with
    | none => rw [hc] at h; simp at h
    | some st1 =>
      rw [hc] at h
      simp only at h
      refine combineAll_srt ?_ h
      unfold combineOne at hc
      cases hco : collectOld st.infos e.2 st.labelTo [] [] st.removed with
      | none => rw [hco] at hc; simp at hc
      | some p =>
        obtain ⟨m, ts, rem⟩ := p
        rw [hco] at hc
        simp only at hc
        split at hc
        · simp only [Option.some.injEq] at hc
          subst hc
          intro x hx
          rcases List.mem_append.mp hx with e' | e'
          · exact hs x e'
          · simp only [List.mem_singleton] at e'
            subst e'
            simp
        · simp at hc

theorem removeAllOld_srt {L : Labels} {rem : List (Nat × Nat)} : ∀ {ks : List Nat} {infos infos' : List LocalLabel}, Srt infos → removeAllOld L rem ks infos = some infos' → Srt infos'
  | [], infos, infos', hs, h => by
    simp only [removeAllOld, Option.some.injEq] at h
    subst h
    exact hs
  | k :: ks, infos, infos', hs, h => by
    simp only [removeAllOld] at h
    cases hr : removeOld L rem k infos with
    | none => rw [hr] at h; simp at h
    | some infos1 =>
      rw [hr] at h
      simp only at h
      refine removeAllOld_srt ?_ h
      unfold removeOld at hr
      cases hi : infos[k]? with
      | none => rw [hi] at hr; simp at hr
      | some i =>
        rw [hi] at hr
        simp only at hr
        cases hrl : removeLabels i.labels (sortLabels ((rem.filter (fun e => e.1 = k)).map (·.2))) with
        | none => rw [hrl] at hr; simp at hr
        | some ls =>
          rw [hrl] at hr
          simp only at hr
          cases hm : minCost L ls inf with
          | none => rw [hm] at hr; simp at hr
          | some c =>
            rw [hm] at hr
            simp only [Option.some.injEq] at hr
            subst hr
            intro x hx
            rcases List.mem_or_eq_of_mem_set hx with e' | e'
            · exact hs x e'
            · subst e'
              exact removeLabels_sorted hrl

theorem applyLabelReduction_srt {es : List (Nat × List Nat)} {L L' : Labels} {T T' : TS} {only : Bool} (hL : L.Ok) (hv : ValidMap L es) (hT : TSOk L T) (hr : reduceLabels es L = some L')
    (hloc : only = true → ∀ e ∈ es, ∃ i ∈ T.infos, ∀ l ∈ e.2, l ∈ i.labels) (hs : Srt T.infos) (h : T.applyLabelReduction L' es only = some T') : Srt T'.infos := by
  unfold TS.applyLabelReduction at h
  split at h
  · cases only with
    | true =>
      simp only [if_true] at h
      cases ha : reduceAllEquivalent es (T.labelTo, T.infos) with
      | none => rw [ha] at h; simp at h
      | some st =>
        obtain ⟨m, infos⟩ := st
        rw [ha] at h
        simp only [Option.some.injEq] at h
        subst h
        exact reduceAllEquivalent_srt hL hv hT.cons hr (hloc rfl) hs ha
    | false =>
      simp only [Bool.false_eq_true, if_false] at h
      cases ha : reduceCombinable L' es (T.labelTo, T.infos) with
      | none => rw [ha] at h; simp at h
      | some st =>
        obtain ⟨m, infos⟩ := st
        rw [ha] at h
        simp only [Option.some.injEq] at h
        subst h
        show Srt infos
        have ha0 := ha
        unfold reduceCombinable at ha
        cases hca : combineAll L' es ⟨T.labelTo, T.infos, []⟩ with
        | none => rw [hca] at ha; simp at ha
        | some cs =>
          rw [hca] at ha
          simp only at ha
          cases hra : removeAllOld L' cs.removed (cs.removed.map (·.1)).eraseDups cs.infos with
          | none => rw [hra] at ha; simp at ha
          | some infos1 =>
            rw [hra] at ha
            simp only at ha
            exact equivOuter_srt (st' := (m, infos)) ha (reduceCombinable_mid (st := (T.labelTo, T.infos)) hL hv hT.cons hr hca hra).toPCons (removeAllOld_srt (combineAll_srt hs hca) hra)
  · simp at h

end Verif.Mas
