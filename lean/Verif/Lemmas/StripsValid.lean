import Verif.Lemmas.StripsSteps

/-
Translation of a grounded task: the new task is valid.
-/
namespace Verif.StripsToSas
open Verif.SasFile
open Verif.Strips
open Verif.Simplify (lookup mkOperator mkOperator_canonical mem_mkOperator_prePost mem_mkOperator_prevail)

section
variable {α : Type} [DecidableEq α] {t : StripsTask α} {groups mutexGroups : List (List α)} {o : Options} {T : SasTask} {names : List (List (List Char))}

/-- all that is needed about the new task -/
structure Full (o : Options) (groups mutexGroups : List (List α)) (names : List (List (List Char))) (t : StripsTask α) (T : SasTask) : Prop extends Encodes o groups mutexGroups t T where
  mutexesEq : mutexes o groups mutexGroups = some T.mutexes
  namesEq : T.variables.map (·.valueNames) = names
  someGoal : T.goal ≠ []

theorem translateTask_cases (hs : t.Stratified) (hg : t.Groups groups mutexGroups) (hp : o.partialEncoding = true → Partition groups mutexGroups) (hn : Named groups names) :
    ∃ T, translateTask o groups mutexGroups names t = some T ∧
      ((T = trivialTask false ∧ ∀ s, t.Reachable s → ¬ ∀ l ∈ t.goal, l.holds s) ∨ (T = trivialTask true ∧ t.goal = []) ∨ Full o groups mutexGroups names t T) := by
  obtain ⟨x, hx, hxl, hR⟩ := initValues_represents hs hg
  unfold translateTask
  have h1 : ¬ (o.partialEncoding && !(groups.flatten.all (fun p => (pairs groups p).length == 1))) = true := by
    intro h
    simp only [Bool.and_eq_true, Bool.not_eq_true'] at h
    obtain ⟨h1, h2⟩ := h
    rw [← Bool.not_eq_true, List.all_eq_true] at h2
    apply h2
    intro p hpf
    obtain ⟨g, hgm, hpg⟩ := List.mem_flatten.mp hpf
    obtain ⟨f, hf, _⟩ := partition_dictionary (groups_nodup hg) (hp h1) ⟨g, List.mem_append_left _ hgm, hpg⟩
    simp [hf]
  rw [if_neg h1, hx]
  simp only
  rcases conds_spec hg (goal_cov hg) with ⟨h, hno⟩ | ⟨cs, h, hT, hex, hne, hlen⟩
  · rw [h]
    exact ⟨_, rfl, Or.inl ⟨rfl, hno⟩⟩
  · obtain ⟨c, rfl⟩ := List.length_eq_one_iff.mp (hlen hg.negativeGoals)
    cases c with
    | nil =>
      rw [h]
      refine ⟨_, rfl, Or.inr (Or.inl ⟨rfl, ?_⟩)⟩
      by_contra hne
      obtain ⟨l, hl⟩ := List.exists_mem_of_ne_nil _ hne
      have hTc := hT [] (by simp)
      cases hn : l.negated with
      | false =>
        obtain ⟨f, hf⟩ := List.exists_mem_of_ne_nil _ (pairs_ne_nil (goal_cov hg l hl).1)
        have := hTc.pos l hl hn f hf
        cases this
      | true =>
        obtain ⟨_, _, _, _, h⟩ := hTc.neg l hl hn
        cases h
    | cons f fs =>
      obtain ⟨T, hT', hE, hm, hi, hv⟩ := translateRest_spec hs hg hp hn hxl hR h
      rw [h]
      refine ⟨T, hT', Or.inr (Or.inr ⟨hE, hm.symm, hv, ?_⟩)⟩
      obtain ⟨c, hc, hgoal⟩ := hE.goal
      rw [h, Py.ok.injEq, List.cons.injEq] at hc
      obtain ⟨rfl, _⟩ := hc
      rw [hgoal]
      intro h0
      have : f ∈ ([] : List Fact) := h0 ▸ mem_sortFacts.mpr (by simp)
      cases this

theorem Encodes.noKeeping (hE : Encodes o groups mutexGroups t T) : T.NoKeepingEffects := by
  intro op hop e he e' he' hpre
  exfalso
  obtain ⟨a, ha, cs, es, c, hcs, hes, hc, hb⟩ := (hE.ops op).mp hop
  obtain ⟨e0, _, hl, cl, _, _, rfl⟩ := mem_prePosts.mp (((buildOperator_some hb).2.2.2 e).mp he)
  simp only at hpre
  unfold valueBefore at hpre
  cases hlk : lookup c e0.fact.var with
  | some y =>
    rw [hlk] at hpre hl
    exact hl hpre
  | none =>
    rw [hlk] at hpre
    simp only at hpre
    split at hpre
    · rw [Option.some.injEq] at hpre
      omega
    · cases hpre

theorem Encodes.canonical (hs : t.Stratified) (hg : t.Groups groups mutexGroups) (hE : Encodes o groups mutexGroups t T) (ho : o.addImplied = false) (hm : ∀ m ∈ T.mutexes, m.Pairwise (fun a b => a.var < b.var ∨ (a.var = b.var ∧ a.val < b.val))) : T.Canonical where
  goal := by
    obtain ⟨c, hc, hgoal⟩ := hE.goal
    rcases conds_spec hg (goal_cov hg) with ⟨h, _⟩ | ⟨cs, h, hT, _⟩
    · rw [hc] at h
      cases h
    · rw [hc, Py.ok.injEq] at h
      subst h
      rw [hgoal]
      exact sortFacts_sorted (hT c (by simp)).vars
  mutexes := hm
  operators := by
    intro op hop
    obtain ⟨a, ha, cs, es, c, hcs, hes, hc, hb⟩ := (hE.ops op).mp hop
    obtain ⟨es', hes', hval, _⟩ := operatorEffects_spec (groups_nodup hg) (mutexGroups_nodup hg) (action_cov hg ha)
    rw [hes, Option.some.injEq] at hes'
    subst hes'
    have hcv : (c.map (·.var)).Nodup := by
      rcases conds_spec hg (action_cov hg ha).1 with ⟨h, _⟩ | ⟨cs', h, hT, _⟩
      · rw [hcs] at h
        cases h
      · rw [hcs, Py.ok.injEq] at h
        subst h
        exact (hT c hc).vars
    unfold buildOperator at hb
    split at hb
    · cases hb
    · rw [Option.some.injEq] at hb
      subst hb
      refine mkOperator_canonical (List.Nodup.sublist (List.Sublist.map _ List.filter_sublist) hcv) (fun e he => ?_) (fun f hf e he hv => ?_) (fun e he e' he' hv => ?_)
      · obtain ⟨e0, _, _, cl, hcl, _, rfl⟩ := mem_prePosts.mp he
        obtain ⟨e1, he1, _, _, hsort, _⟩ := effectConds_mem hcl
        exact (hsort (hval e1 he1).1).filter _
      · have := (List.mem_filter.mp hf).2
        simp only [Bool.not_eq_true', List.any_eq_false, beq_iff_eq] at this
        exact this e he hv.symm
      · obtain ⟨e0, _, _, cl, _, _, rfl⟩ := mem_prePosts.mp he
        obtain ⟨e1, _, _, cl', _, _, rfl⟩ := mem_prePosts.mp he'
        simp only at hv ⊢
        unfold valueBefore impliedPre
        simp [hv, ho]
  axioms := by
    intro ax hax
    obtain ⟨r, hr, cs, c, v, hcs, hc, hv, rfl⟩ := (hE.axs ax).mp hax
    rcases conds_spec hg (rule_cov hg hr) with ⟨h, _⟩ | ⟨cs', h, hT, _⟩
    · rw [hcs] at h
      cases h
    · rw [hcs, Py.ok.injEq] at h
      subst h
      exact sortFacts_sorted (hT c hc).vars

theorem mutexKey_nodup (hn : ∀ g ∈ groups, g.Nodup) : ∀ {ps : List α} {r : List Fact}, ps.Nodup → mutexKey groups ps = some r → r.Nodup
  | [], r, _, h => by
    rw [mutexKey, Option.some.injEq] at h
    subst h
    exact List.nodup_nil
  | p :: ps, r, hnd, h => by
    rw [mutexKey] at h
    split at h
    · rename_i f hf
      split at h
      · cases h
      · rename_i r' hr'
        rw [Option.some.injEq] at h
        subst h
        rw [List.nodup_cons] at hnd ⊢
        refine ⟨fun hmem => ?_, mutexKey_nodup hn hnd.2 hr'⟩
        have key : ∀ {ps : List α} {r : List Fact}, mutexKey groups ps = some r → ∀ f ∈ r, ∃ q ∈ ps, dictionary groups q = some [f] := by
          intro ps
          induction ps with
          | nil =>
            intro r h f hf
            rw [mutexKey, Option.some.injEq] at h
            subst h
            cases hf
          | cons q ps ih =>
            intro r h f hf
            rw [mutexKey] at h
            split at h
            · rename_i f' hf'
              split at h
              · cases h
              · rename_i r'' hr''
                rw [Option.some.injEq] at h
                subst h
                rcases List.mem_cons.mp hf with rfl | hf
                · exact ⟨q, by simp, hf'⟩
                · obtain ⟨q', hq', h'⟩ := ih hr'' f hf
                  exact ⟨q', List.mem_cons_of_mem _ hq', h'⟩
            · cases h
        obtain ⟨q, hq, hqf⟩ := key hr' f hmem
        have hpair : ∀ {q : α}, dictionary groups q = some [f] → f ∈ pairs groups q := by
          intro q h
          unfold dictionary at h
          split at h
          · cases h
          · rw [Option.some.injEq] at h
            rw [h]
            simp
        obtain ⟨g, hg, hp1⟩ := mem_pairs.mp (hpair hf)
        obtain ⟨g', hg', hp2⟩ := mem_pairs.mp (hpair hqf)
        rw [hg, Option.some.injEq] at hg'
        subst hg'
        rw [hp1, Option.some.injEq] at hp2
        exact hnd.1 (hp2 ▸ hq)
    · cases h

theorem Full.mutexes_sorted (hg : t.Groups groups mutexGroups) (hp : o.partialEncoding = true → Partition groups mutexGroups) (hF : Full o groups mutexGroups names t T) :
    ∀ m ∈ T.mutexes, m.Pairwise (fun a b => a.var < b.var ∨ (a.var = b.var ∧ a.val < b.val)) := by
  intro m hm
  obtain ⟨ms, hms, hall⟩ := mutexes_spec (o := o) (groups_nodup hg) hp
  have h0 := hF.mutexesEq
  rw [hms, Option.some.injEq] at h0
  subst h0
  obtain ⟨g, hgm, r, hr, _, rfl⟩ := hall m hm
  have a1 : (r.insertionSort (fun a b => toLex (a.var, a.val) ≤ toLex (b.var, b.val))).Pairwise (fun a b => toLex (a.var, a.val) ≤ toLex (b.var, b.val)) := by
    haveI : Std.Total (fun a b : Fact => toLex (a.var, a.val) ≤ toLex (b.var, b.val)) := ⟨fun a b => le_total _ _⟩
    haveI : IsTrans Fact (fun a b : Fact => toLex (a.var, a.val) ≤ toLex (b.var, b.val)) := ⟨fun a b c h1 h2 => le_trans h1 h2⟩
    exact List.pairwise_insertionSort _ _
  have a2 : (r.insertionSort (fun a b => toLex (a.var, a.val) ≤ toLex (b.var, b.val))).Nodup := (List.perm_insertionSort _ r).nodup_iff.mpr (mutexKey_nodup (groups_nodup hg) (mutexGroups_nodup hg g hgm) hr)
  refine (a1.and a2).imp (fun {a b} ⟨h1, h2⟩ => ?_)
  rw [Prod.Lex.toLex_le_toLex] at h1
  rcases h1 with h | ⟨h, h'⟩
  · exact Or.inl h
  · refine Or.inr ⟨h, lt_of_le_of_ne h' (fun he => h2 ?_)⟩
    cases a; cases b; simp_all

theorem Full.factOk (hn : Named groups names) (hF : Full o groups mutexGroups names t T) {f : Fact} (h : f.val < rangeOf groups f.var) : FactOk T f := by
  have hlt : f.var < T.variables.length := by
    rw [hF.vars]
    unfold rangeOf at h
    cases hg : groups[f.var]? with
    | none => rw [hg] at h; cases h
    | some g => exact (List.getElem?_eq_some_iff.mp hg).1
  have hv := List.getElem?_eq_getElem hlt
  refine ⟨_, hv, ?_⟩
  have h1 := congrArg (fun l => l[f.var]?) hn
  rw [← hF.namesEq] at h1
  simp only [List.getElem?_map, List.map_map, Function.comp_apply, hv, Option.map_some] at h1
  unfold rangeOf at h
  cases hg : groups[f.var]? with
  | none => rw [hg] at h; cases h
  | some g =>
    rw [hg] at h h1
    simp only [Option.map_some, Option.some.injEq] at h1
    rw [h1]
    exact h

theorem Full.valid (hs : t.Stratified) (hg : t.Groups groups mutexGroups) (hp : o.partialEncoding = true → Partition groups mutexGroups) (hn : Named groups names) (hF : Full o groups mutexGroups names t T)
    (ho : o.keepNoOps = false) (hnames : ∀ vs ∈ names, ∀ n ∈ vs, NameOk n) (hact : ∀ a ∈ t.actions, NameOk a.name) (hfit : T.Fits) : T.Valid := by
  have hE := hF.toEncodes
  have hF' : ∀ {f : Fact}, f.val < rangeOf groups f.var → FactOk T f := fun h => hF.factOk hn h
  have hTr : ∀ {conds : List (Literal α)} {cs : List (List Fact)}, CovAll groups mutexGroups conds → translateConds groups mutexGroups conds = .ok cs → ∀ c ∈ cs, Translates groups conds c := by
    intro conds cs hcov hcs c hc
    rcases conds_spec hg hcov with ⟨h, _⟩ | ⟨cs', h, hT, _⟩
    · rw [hcs] at h
      cases h
    · rw [hcs, Py.ok.injEq] at h
      subst h
      exact hT c hc
  obtain ⟨gc, hgc, hgoal⟩ := hE.goal
  have hgT := hTr (goal_cov hg) hgc gc (by simp)
  have hinit : ∀ (v x : Nat), T.init[v]? = some x → FactOk T ⟨v, x⟩ := by
    intro v x hx
    refine hF' ?_
    have hv : v < groups.length := by
      rw [← hE.initLength]
      exact (List.getElem?_eq_some_iff.mp hx).1
    obtain ⟨y, hy, hlt, _⟩ := hE.init v _ (List.getElem?_eq_getElem hv)
    rw [hx, Option.some.injEq] at hy
    subst hy
    rw [rangeOf, List.getElem?_eq_getElem hv]
    exact hlt
  refine
    { someVariable := ?_
      names := ?_
      domain := ?_
      derived := ?_
      layers := hfit.layers
      fewVariables := hfit.vars
      mutexes := ?_
      fewMutexes := hfit.mutexes.1
      init := hE.lengths
      initOk := hinit
      goal := ⟨fun f hf => ?_, hfit.goal⟩
      someGoal := hF.someGoal
      goalOnce := ?_
      operators := ?_
      fewOperators := hfit.operators.1
      axioms := ?_
      fewAxioms := hfit.axioms.1 }
  · intro h0
    obtain ⟨f, hf⟩ := List.exists_mem_of_ne_nil _ hF.someGoal
    rw [hgoal] at hf
    obtain ⟨v, hv, _⟩ := hF' (hgT.valid f (mem_sortFacts.mp hf))
    rw [h0] at hv
    cases hv
  · intro v hv n hnv
    refine hnames v.valueNames ?_ n hnv
    rw [← hF.namesEq]
    exact List.mem_map_of_mem hv
  · intro v hv
    refine ⟨?_, hfit.domains v hv⟩
    obtain ⟨i, hi⟩ := List.getElem?_of_mem hv
    have hlt : i < groups.length := by
      rw [← hE.vars]
      exact (List.getElem?_eq_some_iff.mp hi).1
    obtain ⟨v', hv', h1⟩ := hF' (f := ⟨i, 0⟩) (by rw [rangeOf, List.getElem?_eq_getElem hlt]; simp)
    simp only at hv' h1
    rw [hi, Option.some.injEq] at hv'
    subst hv'
    omega
  · intro v hv hl
    obtain ⟨i, hi⟩ := List.getElem?_of_mem hv
    obtain ⟨n, hn'⟩ := Option.ne_none_iff_exists'.mp hl
    obtain ⟨p, hpv, _⟩ := (hE.layer i n).mp (by simp [layerOf, hi, hn'])
    have h1 := congrArg (fun l => l[i]?) hn
    rw [← hF.namesEq] at h1
    simp only [List.getElem?_map, hi, hpv, Option.map_some, Option.some.injEq] at h1
    exact h1
  · intro m hm
    refine ⟨fun f hf => ?_, hfit.mutexes.2 m hm⟩
    obtain ⟨ms, hms, hall⟩ := mutexes_spec (o := o) (groups_nodup hg) hp
    have h0 := hF.mutexesEq
    rw [hms, Option.some.injEq] at h0
    subst h0
    obtain ⟨g, hgm, r, hr, hmem, rfl⟩ := hall m hm
    obtain ⟨p, hpg, hd⟩ := (hmem f).mp (mem_sortFacts.mp hf)
    refine hF' ?_
    unfold dictionary at hd
    split at hd
    · cases hd
    · rw [Option.some.injEq] at hd
      have := pairs_range (groups := groups) (p := p) (f := f) (by rw [hd]; simp)
      omega
  · rw [hgoal] at hf
    exact hF' (hgT.valid f (mem_sortFacts.mp hf))
  · rw [hgoal]
    exact ((List.perm_insertionSort _ gc).map _).nodup_iff.mpr hgT.vars
  · intro op hop
    obtain ⟨a, ha, cs, es, c, hcs, hes, hc, hb⟩ := (hE.ops op).mp hop
    obtain ⟨es', hes', hval, _⟩ := operatorEffects_spec (groups_nodup hg) (mutexGroups_nodup hg) (action_cov hg ha)
    rw [hes, Option.some.injEq] at hes'
    subst hes'
    have hcT := hTr (action_cov hg ha).1 hcs c hc
    obtain ⟨hname, hcost, hprev, hpp⟩ := buildOperator_some hb
    obtain ⟨f1, f2, f3, f4⟩ := hfit.operators.2 op hop
    have hbasic : ∀ e ∈ es, layerOf T e.fact.var = none := by
      intro e he
      obtain ⟨_, _, _, ef, hef, f, hf, hfv⟩ := hval e he
      by_contra hl
      obtain ⟨n, hn'⟩ := Option.ne_none_iff_exists'.mp hl
      obtain ⟨p, hpv, hpn⟩ := (hE.layer _ n).mp hn'
      obtain ⟨g, hgv, hpf⟩ := mem_pairs.mp hf
      rw [hfv, hpv, Option.some.injEq] at hgv
      subst hgv
      have := List.mem_singleton.mp (List.mem_of_getElem? hpf)
      exact hs.effects a ha ef hef (this ▸ ⟨n, hpn⟩)
    refine ⟨by rw [hname]; exact hact a ha, ⟨fun f hf => hF' (hcT.valid f ((hprev f).mp hf).1), f2⟩, ?_, f3, ?_, ?_, ?_, ?_, f1⟩
    · intro h0
      unfold buildOperator at hb
      split at hb
      · cases hb
      · rename_i hne
        simp only [ho, Bool.not_false, Bool.and_true, List.isEmpty_iff] at hne
        obtain ⟨e, he⟩ := List.exists_mem_of_ne_nil _ hne
        have := (hpp e).mpr he
        rw [h0] at this
        cases this
    · intro e he x hx
      obtain ⟨e0, he0, _, cl, _, _, rfl⟩ := mem_prePosts.mp ((hpp e).mp he)
      simp only at hx ⊢
      unfold valueBefore at hx
      cases hlk : lookup c e0.fact.var with
      | some y =>
        rw [hlk] at hx
        simp only [Option.some.injEq] at hx
        subst hx
        exact hF' (hcT.valid _ (lookup_mem hlk))
      | none =>
        rw [hlk] at hx
        simp only at hx
        split at hx
        · rename_i hr
          rw [Option.some.injEq] at hx
          subst hx
          refine hF' ?_
          simp only [hr.1]
          omega
        · cases hx
    · intro e he
      obtain ⟨e0, he0, _, cl, _, _, rfl⟩ := mem_prePosts.mp ((hpp e).mp he)
      exact hF' (hval e0 he0).2.2.1
    · intro e he
      refine ⟨fun f hf => ?_, f4 e he⟩
      obtain ⟨e0, he0, _, cl, hcl, _, rfl⟩ := mem_prePosts.mp ((hpp e).mp he)
      obtain ⟨e1, he1, _, hsub, _, _⟩ := effectConds_mem hcl
      exact hF' ((hval e1 he1).2.1 f (hsub f (List.mem_of_mem_filter hf)))
    · intro e he
      obtain ⟨e0, he0, _, cl, _, _, rfl⟩ := mem_prePosts.mp ((hpp e).mp he)
      exact hbasic e0 he0
  · intro ax hax
    have hfew := hfit.axioms.2 ax hax
    obtain ⟨r, hr, cs, c, v, hcs, hc, hv, rfl⟩ := (hE.axs ax).mp hax
    have hcT := hTr (rule_cov hg hr) hcs c hc
    have hdef : ∀ {w : Nat} {p : α}, groups[w]? = some [p] → t.Derived p → T.init[w]? = some 1 := by
      intro w p hw hd
      have h : T.init[w]? = some (rangeOf groups w - 1) := hE.init.none hw (fun q hq hi => by
        rw [List.mem_singleton.mp hq] at hi
        exact hs.init p hi hd)
      rw [h]
      simp [rangeOf, hw]
    obtain ⟨n, hn'⟩ := hs.heads r hr
    refine ⟨⟨fun f hf => hF' (hcT.valid f (mem_sortFacts.mp hf)), hfew⟩, hF' (by simp [rangeOf, hv]), ⟨n, (hE.layer v n).mpr ⟨_, hv, hn'⟩, fun f hf m hm => ?_⟩, ?_⟩
    · obtain ⟨p, hpv, hpm⟩ := (hE.layer _ m).mp hm
      rcases derived_fact hcT (mem_sortFacts.mp hf) hpv with ⟨h0, l, hl, hln, rfl⟩ | ⟨h1, l, hl, hln, rfl⟩
      · refine ⟨(hs.layered r hr l hl m n hpm hn').1, fun _ h => ?_⟩
        rw [hdef hpv ⟨m, hpm⟩, h0] at h
        cases h
      · have := hs.layered r hr l hl m n hpm hn'
        have hlt := this.2 hln
        exact ⟨this.1, fun h => by omega⟩
    · rw [hdef hv ⟨n, hn'⟩]
      simp

end
end Verif.StripsToSas
