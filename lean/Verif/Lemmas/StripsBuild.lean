import Verif.Lemmas.StripsOperator
import Verif.Lemmas.SimplifySim

/-
Translation of operators: conditions of effects are simplified without a change of what the operator does.
-/
namespace Verif.StripsToSas
open Verif.SasFile
open Verif.Strips
open Verif.Simplify (lookup mkOperator mem_mkOperator_prevail mem_mkOperator_prePost mkOperator_canonical)

theorem mem_sortFacts {c : List Fact} {f : Fact} : f ∈ c.insertionSort (fun a b => toLex (a.var, a.val) ≤ toLex (b.var, b.val)) ↔ f ∈ c := (List.perm_insertionSort _ _).mem_iff

theorem sortFacts_sorted {c : List Fact} (h : (c.map (·.var)).Nodup) : SortedVars (c.insertionSort (fun a b => toLex (a.var, a.val) ≤ toLex (b.var, b.val))) :=
  (mkOperator_canonical (n := []) (prevail := c) (es := []) (c := 0) h (by simp) (by simp) (by simp)).prevail

theorem effectConds_mem {range : Nat} {es : List Effect} {f : Fact} {cl : List Fact} (h : cl ∈ effectConds range es f) :
    ∃ e ∈ es, e.fact = f ∧ (∀ g ∈ cl, g ∈ e.conds) ∧ ((e.conds.map (·.var)).Nodup → SortedVars cl) ∧
      ∀ g ∈ e.conds, g ∈ cl ∨ (g = ⟨f.var, 1 - f.val⟩ ∧ range = 2 ∧ ∀ e' ∈ es, e'.fact ≠ ⟨f.var, 1 - f.val⟩) := by
  have key : ∀ cl, cl ∈ (es.filter (fun e => e.fact == f)).map (fun e => e.conds.insertionSort (fun a b => toLex (a.var, a.val) ≤ toLex (b.var, b.val))) →
      ∃ e ∈ es, e.fact = f ∧ (∀ g, g ∈ cl ↔ g ∈ e.conds) ∧ ((e.conds.map (·.var)).Nodup → SortedVars cl) := by
    intro cl hcl
    obtain ⟨e, he, rfl⟩ := List.mem_map.mp hcl
    obtain ⟨he, hf⟩ := List.mem_filter.mp he
    exact ⟨e, he, by simpa using hf, fun g => mem_sortFacts, sortFacts_sorted⟩
  have easy : cl ∈ (es.filter (fun e => e.fact == f)).map (fun e => e.conds.insertionSort (fun a b => toLex (a.var, a.val) ≤ toLex (b.var, b.val))) →
      ∃ e ∈ es, e.fact = f ∧ (∀ g ∈ cl, g ∈ e.conds) ∧ ((e.conds.map (·.var)).Nodup → SortedVars cl) ∧
        ∀ g ∈ e.conds, g ∈ cl ∨ (g = ⟨f.var, 1 - f.val⟩ ∧ range = 2 ∧ ∀ e' ∈ es, e'.fact ≠ ⟨f.var, 1 - f.val⟩) := by
    intro h
    obtain ⟨e, he, hf, h1, h2⟩ := key cl h
    exact ⟨e, he, hf, fun g h => (h1 g).mp h, h2, fun g h => Or.inl ((h1 g).mpr h)⟩
  unfold effectConds at h
  by_cases hr : range = 2
  · rw [if_pos hr] at h
    unfold prune at h
    by_cases hd : es.any (fun e => e.fact == ⟨f.var, 1 - f.val⟩) = true
    · rw [if_pos hd] at h
      exact easy h
    · rw [if_neg hd] at h
      have hd' : ∀ e' ∈ es, e'.fact ≠ ⟨f.var, 1 - f.val⟩ := by simpa using hd
      split at h
      · rename_i hany
        obtain ⟨c', hc', hemp⟩ := List.any_eq_true.mp hany
        obtain ⟨c, hc, rfl⟩ := List.mem_map.mp hc'
        obtain ⟨e, he, hf, h1, h2⟩ := key c hc
        rw [List.mem_singleton.mp h]
        refine ⟨e, he, hf, by simp, fun _ => List.Pairwise.nil, fun g hg => Or.inr ⟨?_, hr, hd'⟩⟩
        have := List.filter_eq_nil_iff.mp (List.isEmpty_iff.mp hemp) g ((h1 g).mpr hg)
        simpa using this
      · obtain ⟨c, hc, rfl⟩ := List.mem_map.mp h
        obtain ⟨e, he, hf, h1, h2⟩ := key c hc
        refine ⟨e, he, hf, fun g hg => (h1 g).mp (List.mem_of_mem_filter hg), fun hnd => (h2 hnd).filter _, fun g hg => ?_⟩
        by_cases hgd : g = ⟨f.var, 1 - f.val⟩
        · exact Or.inr ⟨hgd, hr, hd'⟩
        · exact Or.inl (List.mem_filter.mpr ⟨(h1 g).mpr hg, by simpa using hgd⟩)
  · rw [if_neg hr] at h
    exact easy h

theorem effectConds_of {range : Nat} {es : List Effect} {e : Effect} (he : e ∈ es) : ∃ cl ∈ effectConds range es e.fact, ∀ g ∈ cl, g ∈ e.conds := by
  have hm : e.conds.insertionSort (fun a b => toLex (a.var, a.val) ≤ toLex (b.var, b.val)) ∈
      (es.filter (fun e' => e'.fact == e.fact)).map (fun e => e.conds.insertionSort (fun a b => toLex (a.var, a.val) ≤ toLex (b.var, b.val))) :=
    List.mem_map.mpr ⟨e, List.mem_filter.mpr ⟨he, by simp⟩, rfl⟩
  unfold effectConds
  by_cases hr : range = 2
  · rw [if_pos hr]
    unfold prune
    split
    · exact ⟨_, hm, fun g => mem_sortFacts.mp⟩
    · split
      · exact ⟨[], by simp, by simp⟩
      · exact ⟨_, List.mem_map_of_mem hm, fun g hg => mem_sortFacts.mp (List.mem_of_mem_filter hg)⟩
  · rw [if_neg hr]
    exact ⟨_, hm, fun g => mem_sortFacts.mp⟩

theorem mem_prePosts {range : Nat → Nat} {c implied : List Fact} {es : List Effect} {pp : PrePost} :
    pp ∈ prePosts range c implied es ↔ ∃ e ∈ es, lookup c e.fact.var ≠ some e.fact.val ∧ ∃ cl ∈ effectConds (range e.fact.var) es e.fact, (∀ g ∈ cl, clash c g = false) ∧
      pp = ⟨e.fact.var, valueBefore (range e.fact.var) c implied e.fact, e.fact.val, cl.filter (fun g => (lookup c g.var).isNone)⟩ := by
  unfold prePosts
  simp only [List.mem_flatMap, List.mem_dedup, List.mem_map]
  constructor
  · rintro ⟨f, ⟨e, he, rfl⟩, h⟩
    by_cases hl : lookup c e.fact.var = some e.fact.val
    · rw [if_pos hl] at h
      cases h
    · rw [if_neg hl] at h
      obtain ⟨cl, hcl, hp⟩ := List.mem_filterMap.mp h
      unfold prePostOf at hp
      split at hp
      · cases hp
      · rename_i hany
        refine ⟨e, he, hl, cl, hcl, by simpa using hany, (Option.some.inj hp).symm⟩
  · rintro ⟨e, he, hl, cl, hcl, hno, rfl⟩
    refine ⟨e.fact, ⟨e, he, rfl⟩, ?_⟩
    rw [if_neg hl]
    refine List.mem_filterMap.mpr ⟨cl, hcl, ?_⟩
    unfold prePostOf
    rw [if_neg (by simpa using hno)]

/-- the effect of the search component -/
def PrePost.effect (e : PrePost) : Effect := ⟨e.conds, ⟨e.var, e.post⟩⟩

theorem prePosts_on {range : Nat → Nat} {c implied : List Fact} {es : List Effect} (hc : (c.map (·.var)).Nodup) (hval : ∀ e ∈ es, e.fact.val < range e.fact.var) {x x' : State} (hx : allHold c x)
    {v y : Nat} (hy : x[v]? = some y) (hyr : y < range v) (h : EffectsOn es x x' v) : EffectsOn ((prePosts range c implied es).map PrePost.effect) x x' v := by
  refine ⟨fun ef hef hv hfire => ?_, fun hnone => ?_⟩
  · obtain ⟨pp, hpp, rfl⟩ := List.mem_map.mp hef
    obtain ⟨e, he, hl, cl, hcl, hno, rfl⟩ := mem_prePosts.mp hpp
    simp only [PrePost.effect] at hv ⊢
    have hclx : allHold cl x := by
      intro g hg
      cases hlk : lookup c g.var with
      | none => exact hfire g (List.mem_filter.mpr ⟨hg, by simp [hlk]⟩)
      | some z =>
        have := (clash_false hc).mp (hno g hg) _ (lookup_mem hlk) rfl
        rw [← this]
        exact hx _ (lookup_mem hlk)
    obtain ⟨e0, he0, hf0, h1, _, h3⟩ := effectConds_mem hcl
    by_cases hfire0 : e0.fires x
    · have := h.fires e0 he0 (by rw [hf0, hv]) hfire0
      rw [this, hf0]
    · obtain ⟨g, hg, hgx⟩ : ∃ g ∈ e0.conds, ¬ g.holds x := by
        unfold Effect.fires allHold at hfire0
        push Not at hfire0
        exact hfire0
      rcases h3 g hg with hgc | ⟨rfl, hr, hnd⟩
      · exact absurd (hclx g hgc) hgx
      · have he1 := hval e he
        rw [hv] at hr hnd he1 hgx
        unfold Fact.holds at hgx
        simp only [hy, Option.some.injEq] at hgx
        have hyv : y = e.fact.val := by omega
        by_cases hex : ∃ e1 ∈ es, e1.fact.var = v ∧ e1.fires x
        · obtain ⟨e1, he1', hv1, hf1⟩ := hex
          have h4 := hval e1 he1'
          rw [hv1] at h4
          have h5 := hnd e1 he1'
          have h6 : e1.fact.val ≠ 1 - e.fact.val := fun h6 => h5 (by
            rw [← h6, ← hv1])
          have h7 : e1.fact.val = e.fact.val := by omega
          rw [h.fires e1 he1' hv1 hf1, h7]
        · push Not at hex
          rw [h.stays hex, hy, hyv]
  · by_cases hex : ∃ e ∈ es, e.fact.var = v ∧ e.fires x
    · obtain ⟨e, he, hv, hf⟩ := hex
      by_cases hl : lookup c e.fact.var = some e.fact.val
      · have h1 := hx _ (lookup_mem hl)
        unfold Fact.holds at h1
        simp only [hv] at h1
        rw [h.fires e he hv hf, h1]
      · obtain ⟨cl, hcl, hsub⟩ := effectConds_of (range := range e.fact.var) he
        have hclx : allHold cl x := fun g hg => hf g (hsub g hg)
        exact absurd (fun g hg => hclx g (List.mem_of_mem_filter hg))
          (hnone _ (List.mem_map_of_mem (mem_prePosts.mpr ⟨e, he, hl, cl, hcl, fun g hg => holds_clash hc hx (hclx g hg), rfl⟩)) hv)
    · push Not at hex
      exact h.stays hex

/-- the preconditions of an operator of the search component -/
def preFacts (o : SasOperator) : List Fact := o.prevail ++ o.prePost.filterMap (fun e => e.pre.map (fun x => ⟨e.var, x⟩))

theorem buildOperator_some {keep : Bool} {range : Nat → Nat} {name : List Char} {cost : Nat} {c implied : List Fact} {es : List Effect} {o : SasOperator}
    (h : buildOperator keep range name cost c implied es = some o) :
    o.name = name ∧ o.cost = cost ∧ (∀ f, f ∈ o.prevail ↔ f ∈ c ∧ ∀ e ∈ prePosts range c implied es, e.var ≠ f.var) ∧ (∀ e, e ∈ o.prePost ↔ e ∈ prePosts range c implied es) := by
  unfold buildOperator at h
  split at h
  · cases h
  · rw [Option.some.injEq] at h
    subst h
    refine ⟨rfl, rfl, fun f => ?_, fun e => mem_mkOperator_prePost⟩
    rw [mem_mkOperator_prevail, List.mem_filter]
    simp

theorem buildOperator_none {keep : Bool} {range : Nat → Nat} {name : List Char} {cost : Nat} {c implied : List Fact} {es : List Effect}
    (h : buildOperator keep range name cost c implied es = none) : keep = false ∧ prePosts range c implied es = [] := by
  unfold buildOperator at h
  split at h
  · rename_i hh
    simp only [Bool.and_eq_true, List.isEmpty_iff, Bool.not_eq_true'] at hh
    exact ⟨hh.2, hh.1⟩
  · cases h

/-- the preconditions of the new operator are those of the condition and of the implied facts -/
theorem buildOperator_pre {keep : Bool} {range : Nat → Nat} {name : List Char} {cost : Nat} {c implied : List Fact} {es : List Effect} {o : SasOperator} (hc : (c.map (·.var)).Nodup)
    (h : buildOperator keep range name cost c implied es = some o) {x : State} :
    (allHold (preFacts o) x → allHold c x) ∧ (allHold c x → allHold implied x → allHold (preFacts o) x) := by
  obtain ⟨_, _, hprev, hpp⟩ := buildOperator_some h
  constructor
  · intro hx f hf
    by_cases hex : ∃ e ∈ prePosts range c implied es, e.var = f.var
    · obtain ⟨e, he, hv⟩ := hex
      refine hx f (List.mem_append_right _ (List.mem_filterMap.mpr ⟨e, (hpp e).mpr he, ?_⟩))
      obtain ⟨e0, _, _, cl, _, _, rfl⟩ := mem_prePosts.mp he
      simp only at hv ⊢
      unfold valueBefore
      rw [hv, lookup_of_mem hc hf]
      rfl
    · push Not at hex
      exact hx f (List.mem_append_left _ ((hprev f).mpr ⟨hf, hex⟩))
  · intro hx hi f hf
    rcases List.mem_append.mp hf with hf | hf
    · exact hx f ((hprev f).mp hf).1
    · obtain ⟨e, he, hpre⟩ := List.mem_filterMap.mp hf
      obtain ⟨e0, _, _, cl, _, _, rfl⟩ := mem_prePosts.mp ((hpp e).mp he)
      simp only [Option.map_eq_some_iff] at hpre
      obtain ⟨y, hy, rfl⟩ := hpre
      unfold valueBefore at hy
      cases hl : lookup c e0.fact.var with
      | some z =>
        rw [hl] at hy
        simp only [Option.some.injEq] at hy
        subst hy
        exact hx _ (lookup_mem hl)
      | none =>
        rw [hl] at hy
        simp only at hy
        split at hy
        · rename_i hh
          rw [Option.some.injEq] at hy
          subst hy
          exact hi _ hh.2
        · cases hy

/-- the effects of an operator of the search component -/
def effectsOf (o : SasOperator) : List Effect := o.prePost.map PrePost.effect

theorem EffectsOn.congr {es es' : List Effect} {x x' : State} {v : Nat} (h : EffectsOn es x x' v) (he : ∀ e, e ∈ es' ↔ e ∈ es) : EffectsOn es' x x' v :=
  ⟨fun e h1 => h.fires e ((he e).mp h1), fun h1 => h.stays (fun e h2 => h1 e ((he e).mpr h2))⟩

theorem EffectsOn.assigned {pre : List Fact} {es : List Effect} {cost : Nat} {x x' : State} {v y : Nat} (h : EffectsOn es x x' v) (hy : x[v]? = some y) :
    x'[v]? = some (((⟨pre, es, cost⟩ : Operator).assigned x v).getD y) := by
  unfold Operator.assigned
  simp only
  cases hl : (es.filter (fun e => decide (e.fires x) && e.fact.var == v)).getLast? with
  | none =>
    rw [List.getLast?_eq_none_iff, List.filter_eq_nil_iff] at hl
    simp only [Option.map_none, Option.getD_none]
    rw [h.stays (fun e he hv hf => hl e he (by simp [hf, hv])), hy]
  | some e =>
    have hm := List.mem_of_getLast? hl
    obtain ⟨h1, h2⟩ := List.mem_filter.mp hm
    simp only [Bool.and_eq_true, decide_eq_true_eq, beq_iff_eq] at h2
    simp only [Option.map_some, Option.getD_some]
    exact h.fires e h1 h2.2 h2.1

end Verif.StripsToSas
