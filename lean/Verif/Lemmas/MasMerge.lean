import Verif.Lemmas.MasBasic

/-
The product of transition systems.
-/
namespace Verif.Mas

theorem addGroup_spec {L : Labels} (hL : L.Ok) {ls : List Nat} {ts : List (Nat × Nat)} {m m' : List (Option Nat)} {infos infos' : List LocalLabel} (h : addGroup L ls ts m infos = some (m', infos')) (hp : PCons L m infos) (hd : ∀ l ∈ ls, ¬Has infos l) :
    PCons L m' infos' ∧ (∀ l a b, Tr infos' l a b ↔ Tr infos l a b ∨ (l ∈ ls ∧ (a, b) ∈ ts)) ∧ (∀ l, Has infos' l ↔ Has infos l ∨ l ∈ ls) ∧ m'.length = m.length ∧
      ∀ i ∈ infos', i ∈ infos ∨ i.transitions = ts := by
  unfold addGroup at h
  cases hc : minCost L ls inf with
  | none => rw [hc] at h; simp at h
  | some c =>
    cases hm : setAll (some infos.length) ls m with
    | none => rw [hc, hm] at h; simp at h
    | some m1 =>
      rw [hc, hm] at h
      simp only [Option.some.injEq, Prod.mk.injEq] at h
      obtain ⟨rfl, rfl⟩ := h
      obtain ⟨s1, s2, s3⟩ := setAll_spec hm
      obtain ⟨c1, c2, c3⟩ := minCost_spec hc
      refine ⟨⟨?_, ?_, ?_⟩, ?_, ?_, s1, ?_⟩
      · intro k i l hk hl
        by_cases hlt : k < infos.length
        · rw [List.getElem?_append_left hlt] at hk
          rw [s3 l (fun hc' => hd l hc' ⟨i, List.mem_of_getElem? hk, hl⟩)]
          exact hp.mapped k i l hk hl
        · rw [List.getElem?_append_right (by omega)] at hk
          have hk0 : k - infos.length = 0 := by
            have := (List.getElem?_eq_some_iff.mp hk).1
            simp only [List.length_singleton] at this
            omega
          rw [hk0] at hk
          simp only [List.getElem?_cons_zero, Option.some.injEq] at hk
          subst hk
          rw [s2 l hl]
          congr 2
          omega
      · intro i hi l hl
        rcases List.mem_append.mp hi with e | e
        · exact hp.live i e l hl
        · simp only [List.mem_singleton] at e
          subst e
          exact c2 l hl
      · intro i hi hne
        rcases List.mem_append.mp hi with e | e
        · exact hp.least i e hne
        · simp only [List.mem_singleton] at e
          subst e
          exact minCost_inf hL hc hne
      · intro l a b
        simp only [Tr, List.mem_append, List.mem_singleton]
        constructor
        · rintro ⟨i, e | rfl, h1, h2⟩
          · exact Or.inl ⟨i, e, h1, h2⟩
          · exact Or.inr ⟨h1, h2⟩
        · rintro (⟨i, e, h1, h2⟩ | ⟨h1, h2⟩)
          · exact ⟨i, Or.inl e, h1, h2⟩
          · exact ⟨_, Or.inr rfl, h1, h2⟩
      · intro l
        simp only [Has, List.mem_append, List.mem_singleton]
        constructor
        · rintro ⟨i, e | rfl, h1⟩
          · exact Or.inl ⟨i, e, h1⟩
          · exact Or.inr h1
        · rintro (⟨i, e, h1⟩ | h1)
          · exact ⟨i, Or.inl e, h1⟩
          · exact ⟨_, Or.inr rfl, h1⟩
      · intro i hi
        rcases List.mem_append.mp hi with e | e
        · exact Or.inl e
        · simp only [List.mem_singleton] at e
          subst e
          exact Or.inr rfl

theorem addGroups_spec {L : Labels} (hL : L.Ok) : ∀ (gs : List (List Nat × List (Nat × Nat))) (st st' : GroupSt), addGroups L gs st = some st' → PCons L st.labelTo st.infos →
    gs.Pairwise (fun g g' => ∀ l ∈ g.1, l ∉ g'.1) → (∀ g ∈ gs, ∀ l ∈ g.1, ¬Has st.infos l ∧ l ∉ st.dead) → (∀ l ∈ st.dead, ¬Has st.infos l) →
    PCons L st'.labelTo st'.infos ∧ (∀ l a b, Tr st'.infos l a b ↔ Tr st.infos l a b ∨ ∃ g ∈ gs, l ∈ g.1 ∧ (a, b) ∈ g.2) ∧ (∀ l, Has st'.infos l ∨ l ∈ st'.dead ↔ (Has st.infos l ∨ l ∈ st.dead) ∨ ∃ g ∈ gs, l ∈ g.1) ∧
      (∀ l ∈ st'.dead, ¬Has st'.infos l) ∧ st'.labelTo.length = st.labelTo.length ∧ ∀ i ∈ st'.infos, i ∈ st.infos ∨ ∃ g ∈ gs, ∀ t ∈ i.transitions, t ∈ g.2
  | [], st, st', h, hp, _, _, hd => by
    simp only [addGroups, Option.some.injEq] at h
    subst h
    exact ⟨hp, by simp, by simp, hd, rfl, fun i hi => Or.inl hi⟩
  | (ls, ts) :: gs, st, st', h, hp, hpw, hn, hd => by
    simp only [addGroups] at h
    rw [List.pairwise_cons] at hpw
    obtain ⟨hpw1, hpw2⟩ := hpw
    have hn0 := hn (ls, ts) (by simp)
    by_cases hts : ts.isEmpty
    · rw [if_pos hts] at h
      have hts' : ts = [] := by simpa using hts
      subst hts'
      obtain ⟨r1, r2, r3, r4, r5, r6⟩ := addGroups_spec hL gs { st with dead := st.dead ++ ls } st' h hp hpw2 (by
        intro g hg l hl
        refine ⟨(hn g (by simp [hg]) l hl).1, ?_⟩
        intro hc
        rcases List.mem_append.mp hc with e | e
        · exact (hn g (by simp [hg]) l hl).2 e
        · exact hpw1 g hg l e hl) (by
        intro l hl
        rcases List.mem_append.mp hl with e | e
        · exact hd l e
        · exact (hn0 l e).1)
      refine ⟨r1, ?_, ?_, r4, r5, ?_⟩
      · intro l a b
        rw [r2]
        simp
      · intro l
        rw [r3]
        simp only [List.mem_append, List.mem_cons, exists_eq_or_imp]
        tauto
      · intro i hi
        rcases r6 i hi with e | ⟨g, hg, e⟩
        · exact Or.inl e
        · exact Or.inr ⟨g, by simp [hg], e⟩
    · rw [if_neg hts] at h
      cases ha : addGroup L (sortLabels ls) (sortTrans ts) st.labelTo st.infos with
      | none => rw [ha] at h; simp at h
      | some p =>
        obtain ⟨m, infos⟩ := p
        rw [ha] at h
        simp only at h
        obtain ⟨a1, a2, a3, a4, a5⟩ := addGroup_spec hL ha hp (fun l hl => (hn0 l (mem_sortLabels.mp hl)).1)
        obtain ⟨r1, r2, r3, r4, r5, r6⟩ := addGroups_spec hL gs { st with labelTo := m, infos := infos } st' h a1 hpw2 (by
          intro g hg l hl
          refine ⟨?_, (hn g (by simp [hg]) l hl).2⟩
          rw [a3 l, mem_sortLabels]
          rintro (e | e)
          · exact (hn g (by simp [hg]) l hl).1 e
          · exact hpw1 g hg l e hl) (by
          intro l hl
          rw [a3 l, mem_sortLabels]
          rintro (e | e)
          · exact hd l hl e
          · exact (hn0 l e).2 hl)
        refine ⟨r1, ?_, ?_, r4, by rw [r5, a4], ?_⟩
        · intro l a b
          rw [r2, a2, mem_sortLabels, mem_sortTrans]
          simp only [List.mem_cons, exists_eq_or_imp]
          tauto
        · intro l
          rw [r3]
          simp only [a3, mem_sortLabels, List.mem_cons, exists_eq_or_imp]
          tauto
        · intro i hi
          rcases r6 i hi with e | ⟨g, hg, e⟩
          · rcases a5 i e with e | e
            · exact Or.inl e
            · right
              exact ⟨(ls, ts), by simp, fun t ht => by rw [e] at ht; exact mem_sortTrans.mp ht⟩
          · exact Or.inr ⟨g, by simp [hg], e⟩

theorem addDead_spec {L : Labels} (hL : L.Ok) {st : GroupSt} {m : List (Option Nat)} {infos : List LocalLabel} (h : addDead L st = some (m, infos)) (hp : PCons L st.labelTo st.infos) (hd : ∀ l ∈ st.dead, ¬Has st.infos l) :
    PCons L m infos ∧ (∀ l a b, Tr infos l a b ↔ Tr st.infos l a b) ∧ (∀ l, Has infos l ↔ Has st.infos l ∨ l ∈ st.dead) ∧ m.length = st.labelTo.length ∧ ∀ i ∈ infos, i ∈ st.infos ∨ i.transitions = [] := by
  unfold addDead at h
  by_cases hde : st.dead.isEmpty
  · rw [if_pos hde] at h
    simp only [Option.some.injEq, Prod.mk.injEq] at h
    obtain ⟨rfl, rfl⟩ := h
    have : st.dead = [] := by simpa using hde
    exact ⟨hp, by simp, by simp [this], rfl, fun i hi => Or.inl hi⟩
  · rw [if_neg hde] at h
    obtain ⟨a1, a2, a3, a4, a5⟩ := addGroup_spec hL h hp (fun l hl => hd l (mem_sortLabels.mp hl))
    refine ⟨a1, ?_, ?_, a4, a5⟩
    · intro l a b; rw [a2]; simp
    · intro l; rw [a3, mem_sortLabels]

/-- the groups of labels that are computed for the product -/
theorem groups_spec {O : HashOrder} {L : Labels} {T1 T2 : TS} (h1 : PCons L T1.labelTo T1.infos) (h2 : Cons L T2.labelTo T2.infos) {gs : List (List (List Nat × List (Nat × Nat)))}
    (h : mapAll (infoGroups O T2) (T1.infos.filter (·.active)) = some gs) :
    gs.flatten.Pairwise (fun g g' => ∀ l ∈ g.1, l ∉ g'.1) ∧
    (∀ g ∈ gs.flatten, ∃ i1 ∈ T1.infos, ∃ i2 ∈ T2.infos, (∀ l ∈ g.1, l ∈ i1.labels ∧ l ∈ i2.labels) ∧ g.2 = product T2.size i1.transitions i2.transitions) ∧
    (∀ i1 ∈ T1.infos, ∀ l ∈ i1.labels, ∃ i2 ∈ T2.infos, l ∈ i2.labels ∧ ∃ g ∈ gs.flatten, l ∈ g.1 ∧ g.2 = product T2.size i1.transitions i2.transitions) := by
  -- one local label of the first system
  have one : ∀ i1 ∈ T1.infos, ∀ gl, infoGroups O T2 i1 = some gl →
      gl.Pairwise (fun g g' => ∀ l ∈ g.1, l ∉ g'.1) ∧ (∀ g ∈ gl, ∃ i2 ∈ T2.infos, (∀ l ∈ g.1, l ∈ i1.labels ∧ l ∈ i2.labels) ∧ g.2 = product T2.size i1.transitions i2.transitions) ∧
      (∀ l ∈ i1.labels, ∃ i2 ∈ T2.infos, l ∈ i2.labels ∧ ∃ g ∈ gl, l ∈ g.1 ∧ g.2 = product T2.size i1.transitions i2.transitions) := by
    intro i1 hi1 gl hgl
    unfold infoGroups at hgl
    cases hb : buckets O (fun l => (T2.labelTo[l]?).join) i1.labels with
    | none => rw [hb] at hgl; simp at hgl
    | some bs =>
      rw [hb] at hgl
      simp only at hgl
      obtain ⟨b1, b2, b3⟩ := buckets_spec hb
      -- the second local label of a bucket contains its labels
      have hin : ∀ l ∈ i1.labels, ∀ k i2, (T2.labelTo[l]?).join = some k → T2.infos[k]? = some i2 → l ∈ i2.labels := by
        intro l hl k i2 hk hi2
        obtain ⟨c, hc, _⟩ := h1.live i1 hi1 l hl
        obtain ⟨i, hi, hli⟩ := h2.complete l c hc
        obtain ⟨k', hk'⟩ := List.getElem?_of_mem hi
        have := h2.mapped k' i l hk' hli
        rw [this] at hk
        simp only [Option.join_some, Option.some.injEq] at hk
        subst hk
        rw [hk'] at hi2
        simp only [Option.some.injEq] at hi2
        subst hi2
        exact hli
      have hgrp : ∀ b g, bucketGroup T2 i1.transitions b = some g → ∃ i2, T2.infos[b.1]? = some i2 ∧ g = (b.2, product T2.size i1.transitions i2.transitions) := by
        intro b g hg
        unfold bucketGroup at hg
        cases hi : T2.infos[b.1]? with
        | none => rw [hi] at hg; simp at hg
        | some i2 =>
          rw [hi] at hg
          simp only [Option.some.injEq] at hg
          exact ⟨i2, rfl, hg.symm⟩
      refine ⟨?_, ?_, ?_⟩
      · rw [List.pairwise_iff_getElem]
        intro x y hx hy hxy l hl hl'
        obtain ⟨bx, e1, f1⟩ := mapAll_getElem?' hgl (List.getElem?_eq_getElem hx)
        obtain ⟨by', e2, f2⟩ := mapAll_getElem?' hgl (List.getElem?_eq_getElem hy)
        obtain ⟨_, _, g1⟩ := hgrp _ _ f1
        obtain ⟨_, _, g2⟩ := hgrp _ _ f2
        rw [g1, b1 bx (List.mem_of_getElem? e1)] at hl
        rw [g2, b1 by' (List.mem_of_getElem? e2)] at hl'
        have k1 := (List.mem_filter.mp hl).2
        have k2 := (List.mem_filter.mp hl').2
        simp only [decide_eq_true_eq] at k1 k2
        rw [k1] at k2
        simp only [Option.some.injEq] at k2
        have hbx : x < bs.length := (List.getElem?_eq_some_iff.mp e1).1
        have hby : y < bs.length := (List.getElem?_eq_some_iff.mp e2).1
        have p1 : (bs.map (·.1))[x]'(by simpa using hbx) = bx.1 := by simp [(List.getElem?_eq_some_iff.mp e1).2]
        have p2 : (bs.map (·.1))[y]'(by simpa using hby) = by'.1 := by simp [(List.getElem?_eq_some_iff.mp e2).2]
        have := (List.Nodup.getElem_inj_iff b3 (hi := by simpa using hbx) (hj := by simpa using hby)).mp (by rw [p1, p2, k2])
        omega
      · intro g hg
        obtain ⟨b, hb1, hb2⟩ := mapAll_mem hgl hg
        obtain ⟨i2, e1, rfl⟩ := hgrp b g hb2
        refine ⟨i2, List.mem_of_getElem? e1, ?_, rfl⟩
        intro l hl
        simp only at hl
        rw [b1 b hb1] at hl
        obtain ⟨hl1, hl2⟩ := List.mem_filter.mp hl
        simp only [decide_eq_true_eq] at hl2
        exact ⟨hl1, hin l hl1 _ _ hl2 e1⟩
      · intro l hl
        obtain ⟨b, hb1, hb2⟩ := b2 l hl
        obtain ⟨g, hg1, hg2⟩ := mapAll_mem' hgl hb1
        obtain ⟨i2, e1, rfl⟩ := hgrp b g hg2
        refine ⟨i2, List.mem_of_getElem? e1, hin l hl _ _ hb2 e1, _, hg1, ?_, rfl⟩
        simp only
        rw [b1 b hb1]
        exact List.mem_filter.mpr ⟨hl, by simpa using hb2⟩
  have hact : ∀ i1 ∈ T1.infos, ∀ l ∈ i1.labels, i1 ∈ T1.infos.filter (·.active) := by
    intro i1 hi1 l hl
    refine List.mem_filter.mpr ⟨hi1, ?_⟩
    simp only [LocalLabel.active, Bool.not_eq_true', List.isEmpty_eq_false_iff]
    exact List.ne_nil_of_mem hl
  refine ⟨?_, ?_, ?_⟩
  · rw [List.pairwise_flatten]
    constructor
    · intro gl hgl
      obtain ⟨i1, hi1, hg⟩ := mapAll_mem h hgl
      exact (one i1 (List.mem_filter.mp hi1).1 gl hg).1
    · rw [List.pairwise_iff_getElem]
      intro x y hx hy hxy g hg g' hg' l hl hl'
      obtain ⟨ix, e1, f1⟩ := mapAll_getElem?' h (List.getElem?_eq_getElem hx)
      obtain ⟨iy, e2, f2⟩ := mapAll_getElem?' h (List.getElem?_eq_getElem hy)
      obtain ⟨_, _, g1, _⟩ := (one ix (List.mem_filter.mp (List.mem_of_getElem? e1)).1 _ f1).2.1 g hg
      obtain ⟨_, _, g2, _⟩ := (one iy (List.mem_filter.mp (List.mem_of_getElem? e2)).1 _ f2).2.1 g' hg'
      -- positions in a filtered list come from different positions of the list
      have hpw : T1.infos.Pairwise (fun i i' => ∀ l ∈ i.labels, l ∉ i'.labels) := by
        rw [List.pairwise_iff_getElem]
        intro a b ha hb hab l hl1 hl2
        have := h1.unique (List.getElem?_eq_getElem ha) (List.getElem?_eq_getElem hb) hl1 hl2
        omega
      have hpw' := hpw.sublist (List.filter_sublist (p := fun i => i.active))
      rw [List.pairwise_iff_getElem] at hpw'
      obtain ⟨q1, rfl⟩ := List.getElem?_eq_some_iff.mp e1
      obtain ⟨q2, rfl⟩ := List.getElem?_eq_some_iff.mp e2
      exact hpw' x y q1 q2 hxy l (g1 l hl).1 (g2 l hl').1
  · intro g hg
    obtain ⟨gl, hgl, hg'⟩ := List.mem_flatten.mp hg
    obtain ⟨i1, hi1, hgi⟩ := mapAll_mem h hgl
    have hi1' := (List.mem_filter.mp hi1).1
    obtain ⟨i2, k1, k2, k3⟩ := (one i1 hi1' gl hgi).2.1 g hg'
    exact ⟨i1, hi1', i2, k1, k2, k3⟩
  · intro i1 hi1 l hl
    obtain ⟨gl, hgl, hgi⟩ := mapAll_mem' h (hact i1 hi1 l hl)
    obtain ⟨i2, k1, k2, g, k3, k4, k5⟩ := (one i1 hi1 gl hgi).2.2 l hl
    exact ⟨i2, k1, k2, g, List.mem_flatten.mpr ⟨gl, hgl, k3⟩, k4, k5⟩

theorem mem_product {n : Nat} {t1 t2 : List (Nat × Nat)} {a b : Nat} : (a, b) ∈ product n t1 t2 ↔ ∃ a1 b1 a2 b2, (a1, b1) ∈ t1 ∧ (a2, b2) ∈ t2 ∧ a = a1 * n + a2 ∧ b = b1 * n + b2 := by
  unfold product
  simp only [List.mem_flatMap, List.mem_map, Prod.exists, Prod.mk.injEq]
  constructor
  · rintro ⟨a1, b1, h1, a2, b2, h2, rfl, rfl⟩
    exact ⟨a1, b1, a2, b2, h1, h2, rfl, rfl⟩
  · rintro ⟨a1, b1, a2, b2, h1, h2, rfl, rfl⟩
    exact ⟨a1, b1, h1, a2, b2, h2, rfl, rfl⟩

theorem pair_lt {n1 n2 a b : Nat} (ha : a < n1) (hb : b < n2) : a * n2 + b < n1 * n2 := by
  calc a * n2 + b < a * n2 + n2 := by omega
    _ = (a + 1) * n2 := by rw [Nat.succ_mul]
    _ ≤ n1 * n2 := Nat.mul_le_mul_right _ ha

/-- a table in row-major order -/
theorem getElem?_rows {α : Type} {n2 : Nat} : ∀ {rows : List (List α)}, (∀ r ∈ rows, r.length = n2) → ∀ {a b : Nat}, b < n2 → rows.flatten[a * n2 + b]? = (rows[a]?).bind (fun r => r[b]?)
  | [], _, a, b, _ => by simp
  | r :: rows, h, a, b, hb => by
    have hr := h r (by simp)
    rw [List.flatten_cons]
    cases a with
    | zero =>
      rw [Nat.zero_mul, Nat.zero_add, List.getElem?_append_left (by omega)]
      simp
    | succ a =>
      rw [List.getElem?_append_right (by rw [hr, Nat.succ_mul]; omega), hr]
      have e : (a + 1) * n2 + b - n2 = a * n2 + b := by rw [Nat.succ_mul]; omega
      rw [e, getElem?_rows (fun x hx => h x (by simp [hx])) hb]
      simp

theorem length_rows {α : Type} {n2 : Nat} : ∀ {rows : List (List α)}, (∀ r ∈ rows, r.length = n2) → rows.flatten.length = rows.length * n2
  | [], _ => by simp
  | r :: rows, h => by
    rw [List.flatten_cons, List.length_append, length_rows (fun x hx => h x (by simp [hx])), h r (by simp), List.length_cons, Nat.succ_mul, Nat.add_comm]

/-- the result of `merge` is the product of the systems -/
theorem merge_spec {O : HashOrder} {L : Labels} (hL : L.Ok) {T1 T2 T : TS} (h1 : TSOk L T1) (h2 : TSOk L T2) (h : T1.merge O L T2 = some T) :
    TSOk L T ∧ T.size = T1.size * T2.size ∧
    (∀ l a b, Tr T.infos l a b ↔ ∃ a1 b1 a2 b2, Tr T1.infos l a1 b1 ∧ Tr T2.infos l a2 b2 ∧ a = a1 * T2.size + a2 ∧ b = b1 * T2.size + b2) ∧
    (∀ a1 a2, a2 < T2.size → (T.goals[a1 * T2.size + a2]? = some true ↔ T1.goals[a1]? = some true ∧ T2.goals[a2]? = some true)) ∧
    (∃ i1 i2, T1.init = some i1 ∧ T2.init = some i2 ∧ T.init = some (i1 * T2.size + i2)) ∧ T.labelTo.length = L.maxNum := by
  unfold TS.merge at h
  cases hi : mergeInit T1 T2 with
  | none => rw [hi] at h; simp at h
  | some i0 =>
    rw [hi] at h
    simp only at h
    split at h
    · cases hg : mapAll (infoGroups O T2) (T1.infos.filter (·.active)) with
      | none => rw [hg] at h; simp at h
      | some gs =>
        rw [hg] at h
        simp only at h
        cases hs : addGroups L gs.flatten ⟨List.replicate L.maxNum none, [], []⟩ with
        | none => rw [hs] at h; simp at h
        | some st =>
          rw [hs] at h
          simp only at h
          cases hd : addDead L st with
          | none => rw [hd] at h; simp at h
          | some p =>
            obtain ⟨m, infos⟩ := p
            rw [hd] at h
            simp only [Option.some.injEq] at h
            subst h
            obtain ⟨g1, g2, g3⟩ := groups_spec h1.cons.toPCons h2.cons hg
            have e0 : ∀ l, ¬Has [] l := by rintro l ⟨i, hi, _⟩; simp at hi
            obtain ⟨s1, s2, s3, s4, s5, s6⟩ := addGroups_spec hL gs.flatten _ st hs ⟨by simp, by simp, by simp⟩ g1 (fun g hg' l hl => ⟨e0 l, by simp⟩) (by simp)
            obtain ⟨d1, d2, d3, d4, d5⟩ := addDead_spec hL hd s1 s4
            have hinit : ∃ i1 i2, T1.init = some i1 ∧ T2.init = some i2 ∧ i1 < T1.size ∧ i2 < T2.size ∧ i0 = i1 * T2.size + i2 := by
              unfold mergeInit at hi
              cases e1 : T1.init with
              | none => rw [e1] at hi; simp at hi
              | some i1 =>
                cases e2 : T2.init with
                | none => rw [e1, e2] at hi; simp at hi
                | some i2 =>
                  rw [e1, e2] at hi
                  simp only at hi
                  split at hi
                  · rename_i hr
                    simp only [Option.some.injEq] at hi
                    exact ⟨i1, i2, rfl, rfl, hr.1, hr.2, hi.symm⟩
                  · simp at hi
            obtain ⟨i1, i2, k1, k2, k3, k4, rfl⟩ := hinit
            have hrows : ∀ r ∈ T1.goals.map (fun a => T2.goals.map (fun b => a && b)), r.length = T2.size := by
              intro r hr
              obtain ⟨x, _, rfl⟩ := List.mem_map.mp hr
              simp [TS.size]
            have hfm : T1.goals.flatMap (fun a => T2.goals.map (fun b => a && b)) = (T1.goals.map (fun a => T2.goals.map (fun b => a && b))).flatten := by rw [List.flatMap_def]
            have hsize : (⟨m, infos, T1.goals.flatMap (fun a => T2.goals.map (fun b => a && b)), some (i1 * T2.size + i2)⟩ : TS).size = T1.size * T2.size := by
              show (T1.goals.flatMap _).length = _
              rw [hfm, length_rows hrows, List.length_map]
              rfl
            have htr : ∀ l a b, Tr infos l a b ↔ ∃ a1 b1 a2 b2, Tr T1.infos l a1 b1 ∧ Tr T2.infos l a2 b2 ∧ a = a1 * T2.size + a2 ∧ b = b1 * T2.size + b2 := by
              intro l a b
              rw [d2, s2]
              constructor
              · rintro (⟨i, hi, _⟩ | ⟨g, hg', hl, hab⟩)
                · simp at hi
                · obtain ⟨j1, q1, j2, q2, q3, q4⟩ := g2 g hg'
                  rw [q4] at hab
                  obtain ⟨a1, b1, a2, b2, r1, r2, r3, r4⟩ := mem_product.mp hab
                  exact ⟨a1, b1, a2, b2, ⟨j1, q1, (q3 l hl).1, r1⟩, ⟨j2, q2, (q3 l hl).2, r2⟩, r3, r4⟩
              · rintro ⟨a1, b1, a2, b2, ⟨j1, q1, q2, q3⟩, ⟨j2, r1, r2, r3⟩, e1, e2⟩
                right
                obtain ⟨j2', p1, p2, g, p3, p4, p5⟩ := g3 j1 q1 l q2
                have : j2' = j2 := by
                  obtain ⟨x, hx⟩ := List.getElem?_of_mem p1
                  obtain ⟨y, hy⟩ := List.getElem?_of_mem r1
                  have := h2.cons.unique hx hy p2 r2
                  subst this
                  rw [hx] at hy
                  simpa using hy
                subst this
                exact ⟨g, p3, p4, by rw [p5]; exact mem_product.mpr ⟨a1, b1, a2, b2, q3, r3, e1, e2⟩⟩
            refine ⟨⟨⟨d1, ?_⟩, ⟨?_, ?_⟩⟩, hsize, htr, ?_, ⟨i1, i2, k1, k2, rfl⟩, ?_⟩
            · intro l c hc
              show Has infos l
              rw [d3, s3]
              right
              obtain ⟨j1, q1, q2⟩ := h1.cons.complete l c hc
              obtain ⟨j2', p1, p2, g, p3, p4, p5⟩ := g3 j1 q1 l q2
              exact ⟨g, p3, p4⟩
            · intro i hi'
              simp only [Option.some.injEq] at hi'
              subst hi'
              rw [hsize]
              exact pair_lt k3 k4
            · intro i hi' t ht
              rw [hsize]
              rcases d5 i hi' with e | e
              · rcases s6 i e with e | ⟨g, hg', e⟩
                · simp at e
                · have := e t ht
                  obtain ⟨j1, q1, j2, q2, q3, q4⟩ := g2 g hg'
                  rw [q4] at this
                  obtain ⟨a, b⟩ := t
                  obtain ⟨a1, b1, a2, b2, r1, r2, rfl, rfl⟩ := mem_product.mp this
                  have u1 := h1.range.trans j1 q1 _ r1
                  have u2 := h2.range.trans j2 q2 _ r2
                  exact ⟨pair_lt u1.1 u2.1, pair_lt u1.2 u2.2⟩
              · rw [e] at ht; simp at ht
            · intro a1 a2 ha2
              show (T1.goals.flatMap _)[_]? = _ ↔ _
              rw [hfm, getElem?_rows hrows ha2]
              simp only [List.getElem?_map]
              have hlt : a2 < T2.goals.length := ha2
              rw [List.getElem?_eq_getElem hlt]
              cases hg1 : T1.goals[a1]? with
              | none => simp
              | some x =>
                simp only [Option.map_some, Option.bind_some, List.getElem?_map, List.getElem?_eq_getElem hlt, Option.some.injEq, Bool.and_eq_true]
            · show m.length = L.maxNum
              rw [d4, s5]
              simp
    · simp at h

end Verif.Mas
