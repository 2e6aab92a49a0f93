import Verif.Lemmas.SimplifyOperators

/-
What the new operators of src/translate/simplify.py do, compared to the old ones.
-/
namespace Verif.Simplify
open Verif.SasFile
open Verif.Mas (mapAll)

theorem mapAll_total {α β : Type} {f : α → Option (Option β)} : ∀ {l : List α}, (∀ a ∈ l, ∃ b, f a = some b) → mapAll f l = some (l.map (fun a => (f a).getD none))
  | [], _ => rfl
  | a :: l, h => by
    obtain ⟨b, hb⟩ := h a (by simp)
    simp [mapAll, hb, mapAll_total (l := l) (fun a ha => h a (by simp [ha]))]

theorem mem_filterMap_getD {α β : Type} {f : α → Option (Option β)} {l : List α} {b : β} (h : ∀ a ∈ l, ∃ b, f a = some b) :
    b ∈ (l.map (fun a => (f a).getD none)).filterMap id ↔ ∃ a ∈ l, f a = some (some b) := by
  rw [List.filterMap_map, List.mem_filterMap]
  refine exists_congr (fun a => and_congr_right (fun ha => ?_))
  obtain ⟨c, hc⟩ := h a ha
  simp [hc]

theorem key_inj {a b : PrePost} (h : a.key = b.key) : a = b := by
  obtain ⟨v, p, q, c⟩ := a
  obtain ⟨v', p', q', c'⟩ := b
  simp only [PrePost.key, EmbeddingLike.apply_eq_iff_eq, Prod.mk.injEq] at h
  obtain ⟨h1, h2, h3, h4⟩ := h
  have h5 : p = p' := by
    cases p <;> cases p' <;> simp at h2 ⊢ <;> omega
  have h6 : c = c' := by
    refine List.map_injective_iff.mpr ?_ h4
    rintro ⟨a, b⟩ ⟨a', b'⟩ hab
    simp only [EmbeddingLike.apply_eq_iff_eq, Prod.mk.injEq] at hab
    rw [hab.1, hab.2]
  rw [h1, h3, h5, h6]

theorem mem_mkOperator_prevail {n : List Char} {prevail : List Fact} {es : List PrePost} {c : Nat} {f : Fact} : f ∈ (mkOperator n prevail es c).prevail ↔ f ∈ prevail :=
  (List.perm_insertionSort _ _).mem_iff

theorem mem_mkOperator_prePost {n : List Char} {prevail : List Fact} {es : List PrePost} {c : Nat} {e : PrePost} : e ∈ (mkOperator n prevail es c).prePost ↔ e ∈ es :=
  (List.perm_insertionSort _ _).mem_iff.trans List.mem_dedup

theorem mkOperator_canonical {n : List Char} {prevail : List Fact} {es : List PrePost} {c : Nat} (h1 : (prevail.map (·.var)).Nodup) (h2 : ∀ e ∈ es, SortedVars e.conds)
    (h3 : ∀ f ∈ prevail, ∀ e ∈ es, f.var ≠ e.var) (h4 : ∀ e ∈ es, ∀ e' ∈ es, e.var = e'.var → e.pre = e'.pre) : (mkOperator n prevail es c).Canonical where
  prevail := by
    have a1 : (mkOperator n prevail es c).prevail.Pairwise (fun a b => toLex (a.var, a.val) ≤ toLex (b.var, b.val)) := by
      haveI : Std.Total (fun a b : Fact => toLex (a.var, a.val) ≤ toLex (b.var, b.val)) := ⟨fun a b => le_total _ _⟩
      haveI : IsTrans Fact (fun a b : Fact => toLex (a.var, a.val) ≤ toLex (b.var, b.val)) := ⟨fun a b c h1 h2 => le_trans h1 h2⟩
      exact List.pairwise_insertionSort _ _
    have a2 : ((mkOperator n prevail es c).prevail.map (·.var)).Nodup := ((List.perm_insertionSort _ prevail).map _).nodup_iff.mpr h1
    rw [List.Nodup, List.pairwise_map] at a2
    refine (a1.and a2).imp (fun ⟨a, b⟩ => ?_)
    rw [Prod.Lex.toLex_le_toLex] at a
    rcases a with h | ⟨h, _⟩
    · exact h
    · exact absurd h b
  conds := fun e he => h2 e (mem_mkOperator_prePost.mp he)
  sorted := by
    have a1 : (mkOperator n prevail es c).prePost.Pairwise (fun a b => a.key ≤ b.key) := by
      haveI : Std.Total (fun a b : PrePost => a.key ≤ b.key) := ⟨fun a b => le_total _ _⟩
      haveI : IsTrans PrePost (fun a b : PrePost => a.key ≤ b.key) := ⟨fun a b c h1 h2 => le_trans h1 h2⟩
      exact List.pairwise_insertionSort _ _
    have a2 : (mkOperator n prevail es c).prePost.Nodup := (List.perm_insertionSort _ _).nodup_iff.mpr (List.nodup_dedup _)
    exact (a1.and a2).imp (fun ⟨a, b⟩ => lt_of_le_of_ne a (fun h => b (key_inj h)))
  prevailOrEffect := fun f hf e he => h3 f (mem_mkOperator_prevail.mp hf) e (mem_mkOperator_prePost.mp he)
  samePre := fun e he e' he' => h4 e (mem_mkOperator_prePost.mp he) e' (mem_mkOperator_prePost.mp he')

section
variable {T : SasTask} {R : Renaming}

/-- conditions of an operator -/
abbrev condsOf (o : SasOperator) : List Fact := (taskOp true o).pre

/-- a new operator -/
structure NewOp (T : SasTask) (R : Renaming) (o o' : SasOperator) : Prop where
  name : o'.name = o.name
  cost : o'.cost = o.cost
  canonical : o'.Canonical
  preD : ∀ f ∈ condsOf o, T.Reached f.var f.val
  pre : ∀ f', f' ∈ condsOf o' ↔ ∃ f ∈ condsOf o, (emb T R).img f = some f'
  eff : ∀ e' ∈ o'.prePost, ∃ e ∈ o.prePost, ∃ k, Useful T R k e ∧ e' = newEffect T R k e
  eff' : ∀ e ∈ o.prePost, Useless T R (condsOf o) e ∨ ∃ k, Useful T R k e ∧ newEffect T R k e ∈ o'.prePost
  few : o'.prePost.length ≤ o.prePost.length

theorem translateOperator_spec (hT : T.Valid) (hC : T.Canonical) (hG : Good T R) (keep : Bool) {o : SasOperator} (ho : o ∈ T.operators) :
    ((∃ f ∈ condsOf o, ¬ T.Reached f.var f.val) ∧ translateOperator R keep o = some none) ∨
    (keep = false ∧ (∀ e ∈ o.prePost, Useless T R (condsOf o) e) ∧ translateOperator R keep o = some none) ∨
    ∃ o', translateOperator R keep o = some (some o') ∧ NewOp T R o o' ∧ (keep = false → o'.prePost ≠ []) := by
  have hCo := hC.operators o ho
  have hv := hT.operators o ho
  obtain ⟨d, h1, h2, h3⟩ := applicability_spec hCo
  have hmem : ∀ f, f ∈ d ↔ f ∈ condsOf o := fun f => by rw [h3, mem_taskOp_pre]
  have hok : ∀ f ∈ d, FactOk T f := by
    intro f hf
    rcases (h3 f).mp hf with h | ⟨e, he, hv1, hv2⟩
    · exact hv.prevail.1 f h
    · have := hv.pre e he _ hv2
      rw [hv1] at this
      exact this
  unfold translateOperator
  simp only [h1]
  rcases convertPairs_spec hG hok with ⟨a1, a2⟩ | ⟨⟨f, a1, a1'⟩, a2⟩
  · right
    have hpp := fun e (he : e ∈ o.prePost) => translatePrePost_spec hT hC hG ho h2 h3 a1 he
    have htot : ∀ e ∈ o.prePost, ∃ b, translatePrePost R (d.filterMap (emb T R).img) e = some b := by
      intro e he
      rcases hpp e he with ⟨_, h⟩ | ⟨k, _, h⟩
      · exact ⟨_, h⟩
      · exact ⟨_, h⟩
    have huse : ∀ e, Useless T R d e ↔ Useless T R (condsOf o) e := by
      intro e
      simp only [Useless, hmem]
    simp only [a2, mapAll_total htot]
    have hes := fun e' => mem_filterMap_getD (b := e') htot
    have heff : ∀ e' ∈ (o.prePost.map (fun a => (translatePrePost R (d.filterMap (emb T R).img) a).getD none)).filterMap id, ∃ e ∈ o.prePost, ∃ k, Useful T R k e ∧ e' = newEffect T R k e := by
      intro e' he'
      obtain ⟨e, he, h⟩ := (hes e').mp he'
      rcases hpp e he with ⟨_, h'⟩ | ⟨k, hk, h'⟩
      · rw [h'] at h; simp at h
      · rw [h', Option.some.injEq, Option.some.injEq] at h
        exact ⟨e, he, k, hk, h.symm⟩
    have heff' : ∀ e ∈ o.prePost, Useless T R (condsOf o) e ∨ ∃ k, Useful T R k e ∧
        newEffect T R k e ∈ (o.prePost.map (fun a => (translatePrePost R (d.filterMap (emb T R).img) a).getD none)).filterMap id := by
      intro e he
      rcases hpp e he with ⟨h, _⟩ | ⟨k, hk, h'⟩
      · exact Or.inl ((huse e).mp h)
      · exact Or.inr ⟨k, hk, (hes _).mpr ⟨e, he, h'⟩⟩
    have hlen : ((o.prePost.map (fun a => (translatePrePost R (d.filterMap (emb T R).img) a).getD none)).filterMap id).length ≤ o.prePost.length := by
      have := List.length_filterMap_le id (o.prePost.map (fun a => (translatePrePost R (d.filterMap (emb T R).img) a).getD none))
      simpa using this
    generalize (o.prePost.map (fun a => (translatePrePost R (d.filterMap (emb T R).img) a).getD none)).filterMap id = es at heff heff' hlen
    by_cases hempty : (es.isEmpty && !keep) = true
    · left
      rw [if_pos hempty]
      simp only [Bool.and_eq_true, List.isEmpty_iff, Bool.not_eq_eq_eq_not, Bool.not_true] at hempty
      refine ⟨hempty.2, fun e he => ?_, rfl⟩
      rcases heff' e he with h | ⟨k, _, h⟩
      · exact h
      · rw [hempty.1] at h; simp at h
    · right
      rw [if_neg hempty]
      refine ⟨_, rfl, ⟨rfl, rfl, ?_, fun f hf => a1 f ((hmem f).mpr hf), ?_, fun e' he' => heff e' (mem_mkOperator_prePost.mp he'), fun e he => ?_, ?_⟩, ?_⟩
      · refine mkOperator_canonical ?_ ?_ ?_ ?_
        · exact (List.Nodup.sublist (List.filter_sublist.map _) (nodup_of_sorted (sortedVars_img hG h2)))
        · intro e' he'
          obtain ⟨e, he, k, _, rfl⟩ := heff e' he'
          exact sortedVars_img hG (hCo.conds e he)
        · intro f hf e he
          simp only [List.mem_filter, Bool.not_eq_true', List.any_eq_false, beq_iff_eq] at hf
          exact fun h => hf.2 e he h.symm
        · intro e1 he1 e2 he2 hvv
          obtain ⟨e, he, k, hk, rfl⟩ := heff e1 he1
          obtain ⟨e', he', k', hk', rfl⟩ := heff e2 he2
          simp only [newEffect] at hvv ⊢
          subst hvv
          have hee : e.var = e'.var := idx_inj hG hk.idx hk'.idx
          rw [hCo.samePre e he e' he' hee, hee]
      · intro f'
        rw [mem_taskOp_pre]
        simp only [mem_mkOperator_prevail, mem_mkOperator_prePost, List.mem_filter, Bool.not_eq_true', List.any_eq_false, beq_iff_eq, List.mem_filterMap]
        constructor
        · rintro (⟨⟨f, hf, hi⟩, _⟩ | ⟨e', he', hv1, hv2⟩)
          · exact ⟨f, (hmem f).mp hf, hi⟩
          · obtain ⟨e, he, k, hk, rfl⟩ := heff e' he'
            simp only [newEffect] at hv1 hv2
            rw [Option.map_eq_some_iff] at hv2
            obtain ⟨x, hx, hx2⟩ := hv2
            refine ⟨⟨e.var, x⟩, mem_taskOp_pre.mpr (Or.inr ⟨e, he, rfl, hx⟩), ?_⟩
            simp only [Emb.img, hk.idx, Option.map_some, hx2]
            rw [hv1]
        · rintro ⟨f, hf, hi⟩
          by_cases hany : ∃ e' ∈ es, e'.var = f'.var
          · right
            obtain ⟨e', he', hv'⟩ := hany
            obtain ⟨e, he, k, hk, rfl⟩ := heff e' he'
            obtain ⟨b1, b2⟩ := Emb.img_some hi
            simp only [newEffect] at hv'
            have hfe : e.var = f.var := idx_inj hG (hk.idx.trans (by rw [hv'])) b1
            refine ⟨_, he', by simpa [newEffect] using hv', ?_⟩
            rcases mem_taskOp_pre.mp hf with h | ⟨e2, he2, hv1, hv2⟩
            · exact absurd hfe.symm (hCo.prevailOrEffect f h e he)
            · have := hCo.samePre e he e2 he2 (hfe.trans hv1.symm)
              simp only [newEffect, this, hv2, Option.map_some, b2, hfe]
          · left
            exact ⟨⟨f, (hmem f).mpr hf, hi⟩, fun e' he' h => hany ⟨e', he', h⟩⟩
      · rcases heff' e he with h | ⟨k, hk, h⟩
        · exact Or.inl h
        · exact Or.inr ⟨k, hk, mem_mkOperator_prePost.mpr h⟩
      · have : (mkOperator o.name (List.filter (fun f => !es.any fun e => e.var == f.var) (List.filterMap (emb T R).img d)) es o.cost).prePost.length = es.dedup.length :=
          (List.perm_insertionSort _ _).length_eq
        rw [this]
        exact (List.dedup_sublist es).length_le.trans hlen
      · intro hk hne
        rw [hk] at hempty
        simp only [Bool.not_false, Bool.and_true, List.isEmpty_iff] at hempty
        obtain ⟨e, he⟩ := List.exists_mem_of_ne_nil _ hempty
        have := mem_mkOperator_prePost (n := o.name) (prevail := List.filter (fun f => !es.any fun e => e.var == f.var) (List.filterMap (emb T R).img d)) (c := o.cost) |>.mpr he
        rw [hne] at this
        simp at this
  · left
    exact ⟨⟨f, (hmem f).mp a1, a1'⟩, by simp only [a2]⟩

/-! ### states -/

/-- all values are reached -/
def Within (T : SasTask) (s : State) : Prop := s.length = T.variables.length ∧ ∀ v x : Nat, s[v]? = some x → T.Reached v x

/-- operators lead to values that are reached -/
theorem within_result {b : Bool} {o : SasOperator} (hC : o.Canonical) (ho : o ∈ T.operators) {s m : State} (hs : Within T s) (ha : (taskOp b o).applicable s) (hm : (taskOp b o).EffectResult s m) :
    Within T m := by
  refine ⟨hm.1.trans hs.1, fun v x hx => ?_⟩
  have hlt : v < s.length := by rw [← hm.1]; exact (List.getElem?_eq_some_iff.mp hx).1
  have e0 := List.getElem?_eq_getElem hlt
  have := hm.2 v _ e0
  rw [hx, Option.some.injEq] at this
  rcases assigned_cases (b := b) hC s v with ⟨h1, _⟩ | ⟨e, he, hv, hf, h1, _⟩
  · rw [h1] at this
    simp only [Option.getD_none] at this
    rw [this]
    exact hs.2 v _ e0
  · rw [h1] at this
    simp only [Option.getD_some] at this
    rw [this]
    refine .effect _ o e (hs.2 v _ e0) ho he hv ⟨fun f hf' hv' => ?_, fun e' he' hv' y hy => ?_, fun c hc hv' => ?_⟩
    · have := ha f (mem_taskOp_pre.mpr (Or.inl hf'))
      rw [Fact.holds, hv', hv, e0, Option.some.injEq] at this
      exact this.symm
    · have := ha ⟨e.var, y⟩ (mem_taskOp_pre.mpr (Or.inr ⟨e', he', hv', hy⟩))
      simp only [Fact.holds, hv, e0, Option.some.injEq] at this
      exact this.symm
    · have := hf c hc
      rw [Fact.holds, hv', hv, e0, Option.some.injEq] at this
      exact this.symm

/-- a fact of a removed variable always holds -/
theorem fixed (hT : T.Valid) (hG : Good T R) {c : Fact} (hc : FactOk T c) (hr : T.Reached c.var c.val) (hi : (emb T R).idx c.var = none) : (emb T R).Fixed T.task c := by
  obtain ⟨x, hx, _⟩ := hc
  obtain ⟨y, hy⟩ := removed hG hx hi
  have hlt := (List.getElem?_eq_some_iff.mp hx).1
  have hcy := (hy _).mp hr
  refine ⟨?_, fun z hz => ?_, fun _ => ?_⟩
  · simpa [SasTask.task, hT.init] using hlt
  · rw [hcy]
    exact (hy z).mp hz
  · have e0 := List.getElem?_eq_getElem (show c.var < T.init.length by rw [hT.init]; exact hlt)
    have := (hy _).mp (.init _ e0)
    have hz : (T.variables.zip T.init)[c.var]? = some (x, T.init[c.var]'(by rw [hT.init]; exact hlt)) := List.getElem?_zip_eq_some.mpr ⟨hx, e0⟩
    rw [hcy, ← this]
    simp only [Task.defaultOf, SasTask.task, List.getElem?_map, hz, Option.map_some, Option.getD_some]

variable {t' : Task} {s s' : State}

/-- the effects that fire -/
theorem fires_new (hT : T.Valid) (hG : Good T R) (hE : (emb T R).OK T.task t') (hr : (emb T R).Rel T.task t' s s') {o : SasOperator} (ho : o ∈ T.operators) {e : PrePost} (he : e ∈ o.prePost)
    (hD : ∀ c ∈ e.conds, T.Reached c.var c.val) : allHold e.conds s ↔ allHold (e.conds.filterMap (emb T R).img) s' :=
  hr.allHold hE hD (fun c hc hi => fixed hT hG (((hT.operators o ho).conds e he).1 c hc) (hD c hc) hi)

/-- an effect that is removed and fires does not change a variable that is kept -/
theorem useless_keeps {o : SasOperator} {b : Bool} (hr : (emb T R).Rel T.task t' s s') (ha : (taskOp b o).applicable s) {e : PrePost} (hu : Useless T R (condsOf o) e)
    (hi : (emb T R).idx e.var ≠ none) (hf : allHold e.conds s) : e.pre = some e.post := by
  rcases hu with h | h | ⟨c, hc, hn⟩ | ⟨c, hc, f, hf', hv, hne⟩
  · exact absurd h hi
  · exact h
  · exact absurd (hr.dom _ _ (hf c hc)) hn
  · have h1 := hf c hc
    have h2 := ha f hf'
    rw [Fact.holds, hv] at h2
    rw [Fact.holds, h2, Option.some.injEq] at h1
    exact absurd h1 hne

theorem rel_within (hT : T.Valid) (hr : (emb T R).Rel T.task t' s s') : Within T s :=
  ⟨by rw [hr.length]; simp [SasTask.task, hT.init], hr.dom⟩

theorem applicable_new (hT : T.Valid) (hG : Good T R) (hE : (emb T R).OK T.task t') (hr : (emb T R).Rel T.task t' s s') {o o' : SasOperator} (ho : o ∈ T.operators) (hn : NewOp T R o o') (b b' : Bool) :
    (taskOp b o).applicable s ↔ (taskOp b' o').applicable s' := by
  have hv := hT.operators o ho
  have hok : ∀ f ∈ condsOf o, FactOk T f := by
    intro f hf
    rcases mem_taskOp_pre.mp hf with h | ⟨e, he, hv1, hv2⟩
    · exact hv.prevail.1 f h
    · have := hv.pre e he _ hv2
      rw [hv1] at this
      exact this
  have h1 : (taskOp b o).applicable s ↔ allHold ((condsOf o).filterMap (emb T R).img) s' :=
    hr.allHold hE hn.preD (fun f hf hi => fixed hT hG (hok f hf) (hn.preD f hf) hi)
  rw [h1]
  constructor
  · intro h f' hf'
    obtain ⟨f, hf, hi⟩ := (hn.pre f').mp hf'
    exact h f' (List.mem_filterMap.mpr ⟨f, hf, hi⟩)
  · intro h f' hf'
    obtain ⟨f, hf, hi⟩ := List.mem_filterMap.mp hf'
    exact h f' ((hn.pre f').mpr ⟨f, hf, hi⟩)

theorem result_new (hT : T.Valid) (hC : T.Canonical) (hK : T.NoKeepingEffects) (hG : Good T R) (hE : (emb T R).OK T.task t') (hr : (emb T R).Rel T.task t' s s') {o o' : SasOperator} (ho : o ∈ T.operators)
    (hn : NewOp T R o o') {b b' : Bool} (ha : (taskOp b o).applicable s) {m : State} (hm : (taskOp b o).EffectResult s m) :
    ∃ m', (taskOp b' o').EffectResult s' m' ∧ (emb T R).Rel T.task t' m m' := by
  have hCo := hC.operators o ho
  have hres := Verif.Registry.applyEffs_result (taskOp b' o') s'
  refine ⟨_, hres, ?_⟩
  have hw := within_result hCo ho (rel_within hT hr) ha hm
  refine ⟨hm.1.trans hr.length, hres.1.trans hr.length', hw.2, fun v k hi => ?_⟩
  obtain ⟨x, hx, hx'⟩ := hr.val v k hi
  refine ⟨_, hm.2 v x hx, ?_⟩
  rw [hres.2 k _ hx']
  congr 1
  have hpre : ∀ e ∈ o.prePost, e.var = v → e.pre = some e.post → e.post = x := by
    intro e he hv hp
    have := ha ⟨e.var, e.post⟩ (mem_taskOp_pre.mpr (Or.inr ⟨e, he, rfl, hp⟩))
    simp only [Fact.holds, hv, hx, Option.some.injEq] at this
    exact this.symm
  -- firing effects
  have hfwd : ∀ e ∈ o.prePost, e.var = v → allHold e.conds s → e.pre = some e.post ∨ (Useful T R k e ∧ newEffect T R k e ∈ o'.prePost ∧ allHold (newEffect T R k e).conds s') := by
    intro e he hv hf
    rcases hn.eff' e he with hu | ⟨k', hk', hmem⟩
    · exact Or.inl (useless_keeps hr ha hu (by rw [hv, hi]; simp) hf)
    · right
      have : k' = k := by
        have := hk'.idx
        rw [hv, hi, Option.some.injEq] at this
        exact this.symm
      subst this
      exact ⟨hk', hmem, (fires_new hT hG hE hr ho he hk'.conds).mp hf⟩
  have hbwd : ∀ e' ∈ o'.prePost, e'.var = k → allHold e'.conds s' → ∃ e ∈ o.prePost, e.var = v ∧ allHold e.conds s ∧ Useful T R k e ∧ e' = newEffect T R k e := by
    intro e' he' hv hf
    obtain ⟨e, he, k', hk', rfl⟩ := hn.eff e' he'
    simp only [newEffect] at hv
    subst hv
    exact ⟨e, he, idx_inj hG hk'.idx hi, (fires_new hT hG hE hr ho he hk'.conds).mpr hf, hk', rfl⟩
  rcases assigned_cases (b := b') hn.canonical s' k with ⟨h1, h2⟩ | ⟨e', he', hv', hf', h1, h2⟩
  · rw [h1]
    rcases assigned_cases (b := b) hCo s v with ⟨g1, _⟩ | ⟨e, he, hv, hf, g1, _⟩
    · rw [g1]
      rfl
    · rw [g1]
      rcases hfwd e he hv hf with hp | ⟨_, hmem, hff⟩
      · simp only [Option.getD_none, Option.getD_some]
        rw [hpre e he hv hp]
      · exact absurd hff (h2 _ hmem rfl)
  · rw [h1]
    obtain ⟨e, he, hv, hf, hu, rfl⟩ := hbwd e' he' hv' hf'
    rcases assigned_cases (b := b) hCo s v with ⟨_, g2⟩ | ⟨e2, he2, hv2, hf2, g1, g2⟩
    · exact absurd hf (g2 e he hv)
    · rw [g1]
      simp only [Option.getD_some, newEffect]
      have hle := g2 e he hv hf
      have : e2.post ≤ e.post := by
        rcases hfwd e2 he2 hv2 hf2 with hp | ⟨hu2, hmem, hff⟩
        · exact hK o ho e2 he2 e he hp (hv2.trans hv.symm)
        · have := h2 _ hmem rfl hff
          simp only [newEffect] at this
          by_contra hlt
          have h3 := hu.post
          have h4 := hu2.post
          rw [hv] at h3 this
          rw [hv2] at h4 this
          have := rank_lt hG hi h3 h4 (by omega)
          omega
      rw [show e2.post = e.post by omega, hv]

/-- an operator without useful effects changes no variable that is kept -/
theorem result_dropped (hT : T.Valid) (hC : T.Canonical) (hr : (emb T R).Rel T.task t' s s') {o : SasOperator} (ho : o ∈ T.operators)
    (hu : ∀ e ∈ o.prePost, Useless T R (condsOf o) e) {b : Bool} (ha : (taskOp b o).applicable s) {m : State} (hm : (taskOp b o).EffectResult s m) :
    (emb T R).Rel T.task t' m s' := by
  have hCo := hC.operators o ho
  have hw := within_result hCo ho (rel_within hT hr) ha hm
  refine ⟨hm.1.trans hr.length, hr.length', hw.2, fun v k hi => ?_⟩
  obtain ⟨x, hx, hx'⟩ := hr.val v k hi
  refine ⟨x, ?_, hx'⟩
  rw [hm.2 v x hx]
  congr 1
  rcases assigned_cases (b := b) hCo s v with ⟨g1, _⟩ | ⟨e, he, hv, hf, g1, _⟩
  · rw [g1]
    rfl
  · rw [g1]
    have hp := useless_keeps hr ha (hu e he) (by rw [hv, hi]; simp) hf
    have := ha ⟨e.var, e.post⟩ (mem_taskOp_pre.mpr (Or.inr ⟨e, he, rfl, hp⟩))
    simp only [Fact.holds, hv, hx, Option.some.injEq] at this
    exact this.symm

end

end Verif.Simplify
