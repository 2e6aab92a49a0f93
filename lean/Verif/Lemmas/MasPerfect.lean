import Verif.Lemmas.MasJoint
import Verif.Lemmas.ShrinkClasses

/-
Merge-and-shrink with exact bisimulation: joint paths of the factors are plans.
-/
namespace Verif.Mas
open Verif.AdaptiveQueue

/-! ### label reduction -/

theorem sigma_eq : ∀ {es : List (Nat × List Nat)} {L L' : Labels}, L.Ok → ValidMap L es → reduceLabels es L = some L' → ∀ {l l2 c c2 : Nat}, L.cost l = some c → L.cost l2 = some c2 → sigma es l = sigma es l2 →
    l = l2 ∨ ∃ e ∈ es, l ∈ e.2 ∧ l2 ∈ e.2
  | [], L, L', _, _, _, l, l2, c, c2, _, _, h => Or.inl h
  | e :: es, L, L', hL, hv, h, l, l2, c, c2, hl, hl2, heq => by
    simp only [reduceLabels] at h
    split at h
    · rename_i he
      cases hr : L.reduce e.2 with
      | none => rw [hr] at h; simp at h
      | some L1 =>
        rw [hr] at h
        simp only at h
        obtain ⟨c0, hc0⟩ := hv.cost e (by simp)
        obtain ⟨r1, r2, r3, r4, r5, r6⟩ := reduce_spec hL hr hc0 (hv.ne e (by simp))
        have hne : ∀ x d, L.cost x = some d → x ≠ e.1 := by
          rintro x d hx rfl
          rw [he, Labels.cost_none (Nat.le_refl _)] at hx
          simp at hx
        have hren : ∀ x d, L.cost x = some d → ∃ d', L1.cost (rename e x) = some d' := by
          intro x d hx
          unfold rename
          split
          · rw [he]; exact ⟨_, r3⟩
          · rename_i hxe
            exact ⟨d, by rw [r5 x hxe (he ▸ hne x d hx)]; exact hx⟩
        have hnot : ∀ x, ∀ e' ∈ es, rename e x ∈ e'.2 → rename e x = x := by
          intro x e' he' hx
          unfold rename at hx ⊢
          split
          · rename_i hxe
            rw [if_pos hxe] at hx
            obtain ⟨d, hd⟩ := hv.cost e' (by simp [he'])
            exact absurd rfl (hne _ d (hd _ hx))
          · rfl
        obtain ⟨d1, hd1⟩ := hren l c hl
        obtain ⟨d2, hd2⟩ := hren l2 c2 hl2
        rcases sigma_eq r6 (hv.tail hL hr) h hd1 hd2 heq with h1 | ⟨e', he', h1, h2⟩
        · by_cases p : l ∈ e.2
          · by_cases q : l2 ∈ e.2
            · exact Or.inr ⟨e, by simp, p, q⟩
            · unfold rename at h1
              rw [if_pos p, if_neg q] at h1
              exact absurd h1.symm (hne l2 c2 hl2)
          · by_cases q : l2 ∈ e.2
            · unfold rename at h1
              rw [if_neg p, if_pos q] at h1
              exact absurd h1 (hne l c hl)
            · unfold rename at h1
              rw [if_neg p, if_neg q] at h1
              exact Or.inl h1
        · refine Or.inr ⟨e', by simp [he'], ?_, ?_⟩
          · rw [hnot l e' he' h1] at h1; exact h1
          · rw [hnot l2 e' he' h2] at h2; exact h2
    · simp at h

theorem sigma_onto : ∀ {es : List (Nat × List Nat)} {L L' : Labels}, L.Ok → ValidMap L es → reduceLabels es L = some L' → ∀ {l' c : Nat}, L'.cost l' = some c → ∃ l, sigma es l = l' ∧ L.cost l = some c
  | [], L, L', _, _, h, l', c, hc => by
    simp only [reduceLabels, Option.some.injEq] at h
    subst h
    exact ⟨l', rfl, hc⟩
  | e :: es, L, L', hL, hv, h, l', c, hc => by
    simp only [reduceLabels] at h
    split at h
    · rename_i he
      cases hr : L.reduce e.2 with
      | none => rw [hr] at h; simp at h
      | some L1 =>
        rw [hr] at h
        simp only at h
        obtain ⟨c0, hc0⟩ := hv.cost e (by simp)
        obtain ⟨r1, r2, r3, r4, r5, r6⟩ := reduce_spec hL hr hc0 (hv.ne e (by simp))
        obtain ⟨l1, h1, h2⟩ := sigma_onto r6 (hv.tail hL hr) h hc
        by_cases hl1 : l1 = L.costs.length
        · subst hl1
          obtain ⟨l, hl⟩ := List.exists_mem_of_ne_nil _ (hv.ne e (by simp))
          refine ⟨l, ?_, ?_⟩
          · show sigma es (rename e l) = l'
            unfold rename
            rw [if_pos hl, he]
            exact h1
          · rw [hc0 l hl, ← r3, h2]
        · have hn : l1 ∉ e.2 := fun hm => by rw [r4 l1 hm] at h2; simp at h2
          refine ⟨l1, ?_, ?_⟩
          · show sigma es (rename e l1) = l'
            unfold rename
            rw [if_neg hn]
            exact h1
          · rw [← r5 l1 hn hl1]
            exact h2
    · simp at h

/-- the factors before label reduction -/
theorem Faithful.mapping {t : Task} {U : Bool} {F F' : FTS} (hP : Faithful t F) (h : FtsInv t U F) {es : List (Nat × List Nat)} {i : Nat} (hv : ValidMap F.labels es)
    (hloc : ∀ j f, j ≠ i → F.factor j = some f → ∀ e ∈ es, ∃ x ∈ f.ts.infos, ∀ l ∈ e.2, l ∈ x.labels) (hF : F.applyLabelMapping es i = some F') : Faithful t F' := by
  obtain ⟨lab, h1, h2⟩ := h
  unfold FTS.applyLabelMapping at hF
  cases hr : reduceLabels es F.labels with
  | none => rw [hr] at hF; simp at hF
  | some L' =>
    rw [hr] at hF
    simp only at hF
    cases hm : mapAll (reduceFactor L' es i) F.factors.zipIdx with
    | none => rw [hm] at hF; simp at hF
    | some fs =>
      rw [hm] at hF
      simp only [Option.some.injEq] at hF
      obtain ⟨k1, _, k3, _⟩ := reduceLabels_cost h1.ok hv hr
      -- the factors correspond to each other
      have hfac : ∀ j f, F.factor j = some f → ∃ T', F'.factor j = some { f with ts := T' } ∧ T'.goals = f.ts.goals ∧ ∀ l' a b, Tr T'.infos l' a b ↔ ∃ l, sigma es l = l' ∧ Tr f.ts.infos l a b := by
        intro j f hf
        unfold FTS.factor at hf
        rw [Option.join_eq_some_iff] at hf
        have hz : F.factors.zipIdx[j]? = some (some f, j) := by
          rw [List.getElem?_zipIdx, hf]
          simp
        obtain ⟨y, h3, h4⟩ := mapAll_getElem? hm hz
        simp only [reduceFactor] at h4
        cases hT : f.ts.applyLabelReduction L' es (decide (j ≠ i)) with
        | none => rw [hT] at h4; simp at h4
        | some T' =>
          rw [hT] at h4
          simp only [Option.some.injEq] at h4
          subst h4
          have hfj : F.factor j = some f := by unfold FTS.factor; rw [hf]; rfl
          obtain ⟨_, h5, _, _, h6⟩ := applyLabelReduction_spec h1.ok hv (h2 j f hfj).1.ok hr (fun hd => hloc j f (by simpa using hd) hfj) hT
          refine ⟨T', ?_, h5, h6⟩
          subst hF
          unfold FTS.factor
          simp only
          rw [h3]
          rfl
      have hlab : F'.labels = L' := by subst hF; rfl
      refine hP.of (fun s σ hs hp => ⟨σ, fun j f hf => ?_, fun k hk => ?_⟩)
      · obtain ⟨T', h3, _, _⟩ := hfac j f hf
        have := hp j _ h3
        exact this
      · clear hp
        induction hk with
        | goal σ hg =>
          refine .goal σ (fun j f hf => ?_)
          obtain ⟨T', h3, h4, _⟩ := hfac j f hf
          have := hg j _ h3
          simp only at this
          rw [h4] at this
          exact this
        | step σ σ' l' c k hc ht _ ih =>
          rw [hlab] at hc
          have hcost : ∀ j f l, F.factor j = some f → Tr f.ts.infos l (σ j) (σ' j) → sigma es l = l' → F.labels.cost l = some c := by
            intro j f l hf htr hl
            obtain ⟨x, h6, h7, _⟩ := htr
            obtain ⟨c', h8, _⟩ := (h2 j f hf).1.ok.cons.live x h6 l h7
            have := k3 l c' h8
            rw [hl, hc] at this
            simp only [Option.some.injEq] at this
            rw [h8, this]
          -- a label for the factor that is special
          obtain ⟨l, hl, hlc, hli⟩ : ∃ l, sigma es l = l' ∧ F.labels.cost l = some c ∧ ∀ f, F.factor i = some f → Tr f.ts.infos l (σ i) (σ' i) := by
            cases hi : F.factor i with
            | none =>
              obtain ⟨l, h3, h4⟩ := sigma_onto h1.ok hv hr hc
              exact ⟨l, h3, h4, by simp⟩
            | some f =>
              obtain ⟨T', h3, _, h5⟩ := hfac i f hi
              obtain ⟨l, h6, h7⟩ := (h5 _ _ _).mp (ht i _ h3)
              exact ⟨l, h6, hcost i f l hi h7 h6, fun g hg => by simp only [Option.some.injEq] at hg; exact hg ▸ h7⟩
          refine .step σ σ' l c k hlc (fun j f hf => ?_) ih
          by_cases hji : j = i
          · subst hji
            exact hli f hf
          · obtain ⟨T', h3, _, h5⟩ := hfac j f hf
            obtain ⟨l2, h6, h7⟩ := (h5 _ _ _).mp (ht j _ h3)
            have h8 := hcost j f l2 hf h7 h6
            rcases sigma_eq h1.ok hv hr hlc h8 (by rw [hl, h6]) with rfl | ⟨e, he, h9, h10⟩
            · exact h7
            · obtain ⟨x, h11, h12⟩ := hloc j f hji hf e he
              obtain ⟨y, h13, h14, h15⟩ := h7
              obtain ⟨p, hp⟩ := List.getElem?_of_mem h11
              obtain ⟨q, hq⟩ := List.getElem?_of_mem h13
              have hpq := (h2 j f hf).1.ok.cons.toPCons.unique hp hq (h12 l2 h10) h14
              subst hpq
              rw [hp] at hq
              simp only [Option.some.injEq] at hq
              subst hq
              exact ⟨x, h11, h12 l h9, h15⟩

theorem Faithful.reduceAt {t : Task} {U : Bool} {O : HashOrder} {F F' : FTS} (hP : Faithful t F) (h : FtsInv t U F) {i : Nat} {b : Bool} (hF : F.reduceAt O i = some (F', b)) : Faithful t F' := by
  unfold FTS.reduceAt at hF
  cases hb : F.combinable i with
  | none => rw [hb] at hF; simp at hF
  | some bs =>
    rw [hb] at hF
    simp only at hF
    split at hF
    · simp at hF
    · simp only [Option.some.injEq, Prod.mk.injEq] at hF
      exact hF.1 ▸ hP
    · rename_i es _ hm
      simp only [Option.map_eq_some_iff, Prod.mk.injEq] at hF
      obtain ⟨F1, h1, rfl, _⟩ := hF
      obtain ⟨h2, h3⟩ := mapping_valid h.ok hb hm
      exact hP.mapping h h2 h3 h1

/-- what holds after every step holds at the end -/
theorem reduceAll_closed {O : HashOrder} {P : FTS → Prop} (hP : ∀ {F F' : FTS} {i : Nat} {b : Bool}, P F → F.reduceAt O i = some (F', b) → P F') {order : List Nat} : ∀ {k p fails : Nat} {F F' : FTS}, P F → reduceAllLoop O order k p fails F = some F' → P F'
  | 0, p, fails, F, F', h, hF => by simp only [reduceAllLoop, Option.some.injEq] at hF; exact hF ▸ h
  | k + 1, p, fails, F, F', h, hF => by
    simp only [reduceAllLoop] at hF
    cases hi : reduceIter O order p fails F with
    | none => rw [hi] at hF; simp at hF
    | some r =>
      obtain ⟨F1, fails1⟩ := r
      rw [hi] at hF
      simp only at hF
      have h1 : P F1 := by
        unfold reduceIter at hi
        split at hi
        · simp at hi
        · split at hi
          · simp at hi
          · simp only [Option.some.injEq, Prod.mk.injEq] at hi
            exact hi.1 ▸ h
          · split at hi
            · simp at hi
            · rename_i F2 hr
              simp only [Option.some.injEq, Prod.mk.injEq] at hi
              exact hi.1 ▸ hP h hr
            · rename_i F2 hr
              simp only [Option.some.injEq, Prod.mk.injEq] at hi
              exact hi.1 ▸ hP h hr
      split at hF
      · simp only [Option.some.injEq] at hF
        exact hF ▸ h1
      · split at hF
        · simp at hF
        · exact reduceAll_closed hP h1 hF

theorem reduce_closed {O : HashOrder} {P : FTS → Prop} (hP : ∀ {F F' : FTS} {i : Nat} {b : Bool}, P F → F.reduceAt O i = some (F', b) → P F') {r : Reduction} {n : Nat} {pair : Nat × Nat} {F F' : FTS} (h : P F) (hF : F.reduce O r n pair = some F') : P F' := by
  unfold FTS.reduce at hF
  split at hF
  · split at hF
    · rename_i F1 b _ _ hr
      simp only [Option.map_eq_some_iff] at hF
      obtain ⟨⟨F2, b2⟩, h2, rfl⟩ := hF
      exact hP (hP h hr) h2
    · simp at hF
  · split at hF
    · simp at hF
    · split at hF
      · simp at hF
      · exact reduceAll_closed hP h hF
  · split at hF
    · simp at hF
    · split at hF
      · simp at hF
      · exact reduceAll_closed hP h hF

/-! ### atomic factors -/

section
variable {t : Task} (hwf : t.WF) (hax : t.axioms = []) (hp : PlainTask t)

include hp in
/-- the transitions of an operator in the atomic system of a variable: the precondition holds, and the value is the one after the operator -/
theorem opTransitions_plain {o : Operator} (ho : o ∈ t.ops) {v d a b : Nat} (h : (a, b) ∈ opTransitions o v d) {s : State} (hs : s[v]? = some a) : (∀ f ∈ o.pre, f.var = v → f.val = a) ∧ b = (o.assigned s v).getD a := by
  have hpre : ∀ f ∈ o.pre, ∀ g ∈ o.pre, f.var = g.var → f = g := fun f hf g hg e => List.inj_on_of_nodup_map (hp.pre o ho) hf hg e
  have heff : ∀ e ∈ o.effects, ∀ e' ∈ o.effects, e.fact.var = e'.fact.var → e = e' := fun f hf g hg e => List.inj_on_of_nodup_map (f := fun e : Effect => e.fact.var) (hp.eff o ho) hf hg e
  unfold opTransitions at h
  rw [List.mem_append] at h
  rcases h with h | h
  · simp only [List.mem_flatMap, List.mem_filter, beq_iff_eq] at h
    obtain ⟨e, ⟨he, rfl⟩, h⟩ := h
    unfold effectTransitions at h
    have hnc := hp.noCond o ho e he
    have hcv : condValue e = none := by unfold condValue; rw [hnc]; rfl
    rw [hcv, hnc] at h
    simp only [List.isEmpty_nil, if_true, List.append_nil, List.mem_map, List.mem_filter, Prod.mk.injEq] at h
    obtain ⟨x, ⟨hx, _⟩, rfl, rfl⟩ := h
    refine ⟨fun f hf hfv => ?_, ?_⟩
    · unfold preValues at hx
      cases hpv : preValue o e.fact.var with
      | none =>
        unfold preValue at hpv
        simp only [Option.map_eq_none_iff, List.getLast?_eq_none_iff, List.filter_eq_nil_iff, beq_iff_eq] at hpv
        exact absurd hfv (hpv f hf)
      | some y =>
        rw [hpv] at hx
        simp only [List.mem_singleton] at hx
        subst hx
        obtain ⟨g, h1, h2, h3⟩ := preValue_some hpv
        have := hpre f hf g h1 (by rw [hfv, h2])
        rw [this, h3]
    · have : o.assigned s e.fact.var = some e.fact.val := by
        unfold Operator.assigned
        have hmem : e ∈ o.effects.filter (fun e' => decide (e'.fires s) && e'.fact.var == e.fact.var) := by
          simp only [List.mem_filter, Bool.and_eq_true, decide_eq_true_eq, beq_iff_eq, and_true]
          exact ⟨he, by unfold Effect.fires allHold; rw [hnc]; simp⟩
        cases hl : (o.effects.filter (fun e' => decide (e'.fires s) && e'.fact.var == e.fact.var)).getLast? with
        | none =>
          rw [List.getLast?_eq_none_iff] at hl
          rw [hl] at hmem
          simp at hmem
        | some e' =>
          have := List.mem_of_getLast? hl
          simp only [List.mem_filter, Bool.and_eq_true, decide_eq_true_eq, beq_iff_eq] at this
          rw [heff e' this.1 e he this.2.2]
          rfl
      rw [this]
      rfl
  · split at h
    · simp at h
    · rename_i hany
      simp only [List.mem_map, List.mem_filter, beq_iff_eq, Prod.mk.injEq] at h
      obtain ⟨f, ⟨hf, rfl⟩, rfl, rfl⟩ := h
      refine ⟨fun g hg hgv => by rw [hpre g hg f hf hgv], ?_⟩
      have : o.assigned s f.var = none := by
        unfold Operator.assigned
        simp only [Option.map_eq_none_iff, List.getLast?_eq_none_iff, List.filter_eq_nil_iff, Bool.and_eq_true, decide_eq_true_eq, beq_iff_eq, not_and]
        intro e he _ hv
        exact hany (List.any_eq_true.mpr ⟨e, he, by simp [hv]⟩)
      rw [this]
      rfl

include hwf hax hp in
theorem createFts_faithful (hcosts : ∀ o ∈ t.ops, o.cost ≤ inf) {H : StdHeap Nat} {ci cg : Bool} {F : FTS} (h : createFts H t ci cg = some F) : Faithful t F := by
  unfold createFts at h
  cases hm : mapAll (atomicFactor H t ci cg) (List.range t.vars.length) with
  | none => rw [hm] at h; simp at h
  | some fs =>
    rw [hm] at h
    simp only [Option.some.injEq] at h
    -- the factor of a variable
    have hfac : ∀ v d, t.vars[v]? = some d → ∃ f, F.factor v = some f ∧ f.repr = Repr.newLeaf v d.domain ∧ f.ts.goals = atomicGoals t v d.domain ∧
        ∀ (l a b : Nat), Tr f.ts.infos l a b ↔ ∃ o, t.ops[l]? = some o ∧ ((relevant o v = true ∧ (a, b) ∈ opTransitions o v d.domain) ∨ (relevant o v = false ∧ a = b ∧ a < d.domain)) := by
      intro v d hd
      have hlt : v < t.vars.length := (List.getElem?_eq_some_iff.mp hd).1
      obtain ⟨y, h1, h2⟩ := mapAll_getElem? hm (List.getElem?_range hlt)
      unfold atomicFactor at h2
      rw [hd] at h2
      cases hT : atomic t v with
      | none => rw [hT] at h2; simp at h2
      | some T =>
        rw [hT] at h2
        simp only at h2
        cases hc : computeBoth H T ci cg with
        | none => rw [hc] at h2; simp at h2
        | some dist =>
          rw [hc] at h2
          simp only [Option.some.injEq] at h2
          subst h2
          obtain ⟨d', h0, _, _, _, _, h5, _, h6⟩ := atomic_spec hwf hcosts hT
          rw [hd] at h0
          simp only [Option.some.injEq] at h0
          subst h0
          refine ⟨⟨T, Repr.newLeaf v d.domain, dist⟩, ?_, rfl, h5, h6⟩
          subst h
          unfold FTS.factor
          simp only
          rw [h1]
          rfl
    have hproj : ∀ s σ, t.ValidState s → Proj F s σ → ∀ v x, s[v]? = some x → σ v = x := by
      intro s σ hs hps v x hx
      have hlt : v < t.vars.length := by rw [← hs.1]; exact (List.getElem?_eq_some_iff.mp hx).1
      have hd := List.getElem?_eq_getElem hlt
      obtain ⟨f, h1, h2, _⟩ := hfac v _ hd
      have := hps v f h1
      rw [h2, (newLeaf_ok hd).2 s x hx (hs.2 v x _ hx hd)] at this
      simp only [Option.some.injEq] at this
      exact this.symm
    have hlab : F.labels = createLabels t := by subst h; rfl
    have main : ∀ σ k, JGoal F σ k → ∀ s, t.ValidState s → (∀ v x, s[v]? = some x → σ v = x) → ∃ π, t.SolvesFrom s π ∧ t.planCost π ≤ k := by
      intro σ k hk
      induction hk with
      | goal σ hg =>
        intro s hs hσ
        refine ⟨[], ⟨s, .nil s, fun f hf => ?_⟩, by simp [Task.planCost]⟩
        obtain ⟨d, hd, hlt⟩ := hwf.goalFacts f hf
        have hlt' : f.var < s.length := by rw [hs.1]; exact (List.getElem?_eq_some_iff.mp hd).1
        have e := List.getElem?_eq_getElem hlt'
        obtain ⟨g, h1, _, h3, _⟩ := hfac f.var d hd
        have := hg f.var g h1
        rw [h3, hσ _ _ e] at this
        unfold atomicGoals at this
        simp only [List.getElem?_map, Option.map_eq_some_iff] at this
        obtain ⟨x, h4, h5⟩ := this
        have hx := List.getElem?_eq_some_iff.mp h4
        have hxe : x = s[f.var] := by
          obtain ⟨hb, hx⟩ := hx
          rw [List.getElem_range] at hx
          exact hx.symm
        unfold goalValue at h5
        cases hfind : t.goal.find? (fun f' => f'.var == f.var) with
        | none =>
          have := List.find?_eq_none.mp hfind f hf
          simp at this
        | some f' =>
          rw [hfind] at h5
          have hf' := List.mem_of_find?_eq_some hfind
          have hv : f'.var = f.var := by simpa using List.find?_some hfind
          have hff : f' = f := List.inj_on_of_nodup_map hp.goal hf' hf hv
          subst hff
          simp only [Option.map_some, beq_iff_eq] at h5
          unfold Fact.holds
          rw [e, ← hxe, h5]
      | step σ σ' l c k hc ht _ ih =>
        intro s hs hσ
        rw [hlab, createLabels_cost] at hc
        simp only [Option.map_eq_some_iff] at hc
        obtain ⟨o, ho, rfl⟩ := hc
        have hmem := List.mem_of_getElem? ho
        -- in all variables
        have hstep : ∀ v x, s[v]? = some x → (∀ f ∈ o.pre, f.var = v → f.val = x) ∧ σ' v = (o.assigned s v).getD x := by
          intro v x hx
          have hlt : v < t.vars.length := by rw [← hs.1]; exact (List.getElem?_eq_some_iff.mp hx).1
          have hd := List.getElem?_eq_getElem hlt
          obtain ⟨f, h1, _, _, h4⟩ := hfac v _ hd
          obtain ⟨o', h5, h6⟩ := (h4 _ _ _).mp (ht v f h1)
          rw [ho] at h5
          simp only [Option.some.injEq] at h5
          subst h5
          rw [hσ v x hx] at h6
          rcases h6 with ⟨_, h6⟩ | ⟨h6, h7, _⟩
          · exact opTransitions_plain hp hmem h6 hx
          · refine ⟨fun f hf hfv => ?_, ?_⟩
            · unfold relevant at h6
              simp only [Bool.or_eq_false_iff] at h6
              have := List.any_eq_false.mp h6.2 f hf
              simp [hfv] at this
            · rw [irrelevant_assigned h6]
              exact h7.symm
        have happ : o.applicable s := by
          intro f hf
          obtain ⟨d, hd, _⟩ := hwf.pre o hmem f hf
          have hlt' : f.var < s.length := by rw [hs.1]; exact (List.getElem?_eq_some_iff.mp hd).1
          have e := List.getElem?_eq_getElem hlt'
          unfold Fact.holds
          rw [e, (hstep f.var _ e).1 f hf rfl]
        obtain ⟨s', hs', hsu⟩ := exists_succ hwf hs hmem
        obtain ⟨π, h1, h2⟩ := ih s' hs' (fun v x hx => by
          have hlt : v < s.length := by rw [hs.1, ← hs'.1]; exact (List.getElem?_eq_some_iff.mp hx).1
          have e := List.getElem?_eq_getElem hlt
          rw [(hstep v _ e).2]
          have := succ_value hwf hax hsu e
          rw [hx] at this
          simpa using this.symm)
        obtain ⟨u, h3, h4⟩ := h1
        refine ⟨l :: π, ⟨u, .cons s l o s' π u ho happ hsu h3, h4⟩, ?_⟩
        rw [planCost_cons]
        have : t.opCost l = o.cost := by unfold Task.opCost; rw [ho]; rfl
        omega
    exact fun s σ k hs hps hk => main σ k hk s hs (hproj s σ hs hps)

end
end Verif.Mas
