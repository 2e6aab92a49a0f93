import Verif.Lemmas.RelaxResults
import Verif.Spec.Relaxation
import Mathlib.Data.List.Sort
import Mathlib.Data.Nat.Bitwise

/-
Derivations of the relaxed exploration correspond to the delete relaxation of the task.
-/
namespace Verif.Relax

/-! ### propositions -/

theorem offset_succ {t : Task} {v : Nat} {d : Variable} (h : t.vars[v]? = some d) : offset t (v + 1) = offset t v + d.domain := by
  unfold offset
  rw [List.take_succ, h]
  simp

theorem offset_mono (t : Task) : ∀ (k v : Nat), offset t v ≤ offset t (v + k)
  | 0, v => Nat.le_refl _
  | k + 1, v => by
    refine Nat.le_trans (offset_mono t k v) ?_
    rw [← Nat.add_assoc]
    cases h : t.vars[v + k]? with
    | none =>
      unfold offset
      rw [List.getElem?_eq_none_iff] at h
      rw [List.take_of_length_le h, List.take_of_length_le (by omega)]
    | some d => rw [offset_succ h]; omega

theorem offset_le_count (t : Task) (v : Nat) : offset t v ≤ countFacts t := by
  have := offset_mono t t.vars.length v
  have e : offset t (v + t.vars.length) = countFacts t := by
    unfold offset countFacts
    rw [List.take_of_length_le (by omega)]
  omega

theorem propId_lt {t : Task} {f : Fact} (h : t.ValidFact f) : propId t f < countFacts t := by
  obtain ⟨d, h1, h2⟩ := h
  have := offset_le_count t (f.var + 1)
  rw [offset_succ h1] at this
  unfold propId
  omega

theorem propId_var {t : Task} {f g : Fact} (hf : t.ValidFact f) (h : propId t f = propId t g) : f.var ≥ g.var := by
  obtain ⟨d, h1, h2⟩ := hf
  by_contra hlt
  obtain ⟨k, hk⟩ := Nat.exists_eq_add_of_le (show f.var + 1 ≤ g.var by omega)
  have h3 := offset_mono t k (f.var + 1)
  rw [← hk, offset_succ h1] at h3
  unfold propId at h
  omega

theorem propId_inj {t : Task} {f g : Fact} (hf : t.ValidFact f) (hg : t.ValidFact g) (h : propId t f = propId t g) : f = g := by
  have h1 := propId_var hf h
  have h2 := propId_var hg h.symm
  have h3 : f.var = g.var := by omega
  have h4 : f.val = g.val := by
    unfold propId at h
    rw [h3] at h
    omega
  cases f; cases g; simp_all

theorem mem_factsOf {t : Task} {s : State} {p : Nat} : p ∈ factsOf t s ↔ ∃ f : Fact, f.holds s ∧ propId t f = p := by
  simp only [factsOf, List.mem_map, Prod.exists]
  constructor
  · rintro ⟨x, v, h, rfl⟩
    exact ⟨⟨v, x⟩, by simpa [Fact.holds] using List.mem_zipIdx_iff_getElem?.mp h, rfl⟩
  · rintro ⟨f, h, rfl⟩
    exact ⟨f.val, f.var, List.mem_zipIdx_iff_getElem?.mpr (by simpa [Fact.holds] using h), rfl⟩

theorem valid_of_holds {t : Task} {s : State} (hs : t.ValidState s) {f : Fact} (h : f.holds s) : t.ValidFact f := by
  have hlt : f.var < t.vars.length := by rw [← hs.1]; exact (List.getElem?_eq_some_iff.mp h).1
  exact ⟨t.vars[f.var], List.getElem?_eq_getElem hlt, hs.2 f.var f.val _ h (List.getElem?_eq_getElem hlt)⟩

theorem factsOf_lt {t : Task} {s : State} (hs : t.ValidState s) : ∀ q ∈ factsOf t s, q < countFacts t := by
  intro q hq
  obtain ⟨f, h1, rfl⟩ := mem_factsOf.mp hq
  exact propId_lt (valid_of_holds hs h1)

/-! ### sort_unique -/

theorem mem_unique : ∀ (l : List Nat) (x : Nat), x ∈ unique l ↔ x ∈ l
  | [], x => by simp [unique]
  | [a], x => by simp [unique]
  | a :: b :: l, x => by
    unfold unique
    have := mem_unique (b :: l) x
    split
    · rename_i h; subst h; rw [this]; simp
    · simp only [List.mem_cons] at this ⊢
      rw [this]

theorem unique_sorted : ∀ (l : List Nat), l.Pairwise (· ≤ ·) → (unique l).Pairwise (· < ·)
  | [], _ => by simp [unique]
  | [a], _ => by simp [unique]
  | a :: b :: l, h => by
    unfold unique
    have ih := unique_sorted (b :: l) (List.pairwise_cons.mp h).2
    split
    · exact ih
    · rename_i hne
      refine List.pairwise_cons.mpr ⟨fun x hx => ?_, ih⟩
      rw [mem_unique] at hx
      have h1 := (List.pairwise_cons.mp h).1 b (by simp)
      rcases List.mem_cons.mp hx with rfl | hx
      · omega
      · have := (List.pairwise_cons.mp (List.pairwise_cons.mp h).2).1 x hx
        omega

theorem mem_sortUnique {l : List Nat} {x : Nat} : x ∈ sortUnique l ↔ x ∈ l := by
  unfold sortUnique
  rw [mem_unique]
  exact (List.perm_insertionSort (· ≤ ·) l).mem_iff

theorem sortUnique_sorted (l : List Nat) : (sortUnique l).Pairwise (· < ·) := unique_sorted _ (List.pairwise_insertionSort (· ≤ ·) l)

theorem sortUnique_nodup (l : List Nat) : (sortUnique l).Nodup := (sortUnique_sorted l).imp (fun h => by omega)

/-! ### simplification -/

theorem pairLt_iff {a b : Nat × Nat} : pairLt a b = true ↔ a.1 < b.1 ∨ (a.1 = b.1 ∧ a.2 < b.2) := by
  simp [pairLt]

/-- the entry `v` of the index belongs to an operator with the key -/
def Entry.Of (os : List UnaryOp) (k : List Nat × Nat) (v : Nat × Nat) : Prop := ∃ o, os[v.2]? = some o ∧ o.pre = k.1 ∧ o.eff = k.2 ∧ o.base = v.1

theorem buildIndex_inv (all : List UnaryOp) : ∀ (os : List UnaryOp) (n : Nat) (m : List Nat × Nat → Option (Nat × Nat)), all.drop n = os →
    (∀ k v, m k = some v → Entry.Of all k v) → (∀ i o, i < n → all[i]? = some o → ∃ v, m (o.pre, o.eff) = some v ∧ v.1 ≤ o.base) →
    (∀ k v, buildIndex os n m k = some v → Entry.Of all k v) ∧ (∀ (i : Nat) (o : UnaryOp), all[i]? = some o → ∃ v, buildIndex os n m (o.pre, o.eff) = some v ∧ v.1 ≤ o.base)
  | [], n, m, he, h1, h2 => by
    refine ⟨h1, fun i o ho => h2 i o ?_ ho⟩
    have : all.length ≤ n := by simpa using he
    have := (List.getElem?_eq_some_iff.mp ho).1
    omega
  | o :: os, n, m, he, h1, h2 => by
    have ho : all[n]? = some o := by
      have := congrArg List.head? he
      rw [List.head?_drop] at this
      simpa using this
    have hdrop : all.drop (n + 1) = os := by rw [← List.tail_drop, he]; rfl
    unfold buildIndex
    refine buildIndex_inv all os (n + 1) _ hdrop ?_ ?_
    · intro k v hv
      split at hv
      · rename_i hk
        have hnew : Entry.Of all k (o.base, n) := ⟨o, ho, by rw [hk], by rw [hk], rfl⟩
        cases hm : m k with
        | none => rw [hm] at hv; simp only [Option.some.injEq] at hv; rw [← hv]; exact hnew
        | some old =>
          rw [hm] at hv
          simp only at hv
          split at hv
          · simp only [Option.some.injEq] at hv; rw [← hv]; exact hnew
          · simp only [Option.some.injEq] at hv; rw [← hv]; exact h1 k old hm
      · exact h1 k v hv
    · intro i o' hi ho'
      split
      · rename_i hk
        have hbase : i < n ∨ o' = o := by
          rcases Nat.lt_or_eq_of_le (Nat.lt_succ_iff.mp hi) with h | h
          · exact Or.inl h
          · subst h; rw [ho] at ho'; exact Or.inr (Option.some.inj ho').symm
        cases hm : m (o'.pre, o'.eff) with
        | none =>
          rcases hbase with h | h
          · obtain ⟨v, h3, _⟩ := h2 i o' h ho'; rw [hm] at h3; simp at h3
          · exact ⟨_, rfl, by rw [h]⟩
        | some old =>
          simp only
          split
          · rename_i hlt
            rw [pairLt_iff] at hlt
            refine ⟨_, rfl, ?_⟩
            rcases hbase with h | h
            · obtain ⟨v, h3, h4⟩ := h2 i o' h ho'
              rw [hm] at h3
              simp only [Option.some.injEq] at h3
              subst h3
              simp only at hlt ⊢
              omega
            · rw [h]
          · rename_i hlt
            rw [pairLt_iff] at hlt
            refine ⟨old, rfl, ?_⟩
            rcases hbase with h | h
            · obtain ⟨v, h3, h4⟩ := h2 i o' h ho'
              rw [hm] at h3
              simp only [Option.some.injEq] at h3
              subst h3
              exact h4
            · rw [h]
              simp only at hlt
              omega
      · rename_i hk
        rcases Nat.lt_or_eq_of_le (Nat.lt_succ_iff.mp hi) with h | h
        · exact h2 i o' h ho'
        · subst h
          rw [ho] at ho'
          simp only [Option.some.injEq] at ho'
          subst ho'
          simp at hk

theorem subset_sublist (mask : Nat) (pre : List Nat) : (subset mask pre).Sublist pre := by
  unfold subset
  have h : ((pre.zipIdx.filter (fun p => mask.testBit p.2)).map (·.1)).Sublist (pre.zipIdx.map (·.1)) := List.Sublist.map _ List.filter_sublist
  have e : pre.zipIdx.map (·.1) = pre := by simp
  rw [e] at h
  exact h

theorem subset_lt {mask : Nat} {pre : List Nat} (h : mask < 2 ^ pre.length - 1) : (subset mask pre).length < pre.length := by
  have hbit : ∃ j, j < pre.length ∧ mask.testBit j = false := by
    by_contra hn
    have hall : ∀ j, j < pre.length → mask.testBit j = true := by
      intro j hj
      by_contra hf
      exact hn ⟨j, hj, by simpa using hf⟩
    have : mask = 2 ^ pre.length - 1 := by
      apply Nat.eq_of_testBit_eq
      intro i
      rw [Nat.testBit_two_pow_sub_one]
      by_cases hi : i < pre.length
      · simp [hall i hi, hi]
      · simp only [hi, decide_false]
        refine Nat.testBit_lt_two_pow ?_
        have : 2 ^ pre.length ≤ 2 ^ i := Nat.pow_le_pow_right (by omega) (by omega)
        omega
    omega
  obtain ⟨j, hj, hb⟩ := hbit
  unfold subset
  rw [List.length_map]
  rcases Nat.lt_or_eq_of_le (List.length_filter_le (fun p : Nat × Nat => mask.testBit p.2) pre.zipIdx) with h1 | h1
  · simpa using h1
  · exfalso
    rw [List.length_filter_eq_length_iff] at h1
    have hin : (pre[j], j) ∈ pre.zipIdx := List.mem_zipIdx_iff_getElem?.mpr (by simp)
    have := h1 _ hin
    simp [hb] at this

/-- what simplification keeps: for every unary operator one which is at least as good -/
theorem simplify_keeps (os : List UnaryOp) : ∀ (n : Nat) (o : UnaryOp), o ∈ os → o.pre.length = n → ∃ o' ∈ simplify os, o'.eff = o.eff ∧ o'.pre.Sublist o.pre ∧ o'.base ≤ o.base := by
  obtain ⟨h1, h2⟩ := buildIndex_inv os os 0 (fun _ => none) (by simp) (by simp) (by simp)
  intro n
  induction n using Nat.strong_induction_on with
  | _ n ih =>
    intro o ho hn
    obtain ⟨i, hi, rfl⟩ := List.getElem_of_mem ho
    obtain ⟨⟨c, j⟩, k1, k2⟩ := h2 i _ (List.getElem?_eq_getElem hi)
    obtain ⟨oj, j1, j2, j3, j4⟩ := h1 _ _ k1
    simp only at j1 j2 j3 j4 k2
    by_cases hd : isDominated (buildIndex os 0 (fun _ => none)) oj j = true
    · unfold isDominated at hd
      rw [if_neg (by rw [j2, j3, k1]; simp)] at hd
      split at hd
      · simp at hd
      · simp only [List.any_eq_true, List.mem_range] at hd
        obtain ⟨mask, m1, m2⟩ := hd
        split at m2
        · simp at m2
        · rename_i v hv
          simp only [decide_eq_true_eq] at m2
          obtain ⟨o2, q1, q2, q3, q4⟩ := h1 _ _ hv
          simp only at q2 q3
          have hlen := subset_lt m1
          obtain ⟨o', r1, r2, r3, r4⟩ := ih o2.pre.length (by rw [q2]; rw [j2] at hlen ⊢; omega) o2 (List.mem_of_getElem? q1) rfl
          refine ⟨o', r1, by rw [r2, q3, j3], ?_, by omega⟩
          rw [q2] at r3
          rw [← j2]
          exact r3.trans (subset_sublist _ _)
    · refine ⟨oj, ?_, j3, by rw [j2], by omega⟩
      unfold simplify
      refine List.mem_map.mpr ⟨(oj, j), List.mem_filter.mpr ⟨List.mem_zipIdx_iff_getElem?.mpr (by simpa using j1), by simp [hd]⟩, rfl⟩

theorem simplify_subset (os : List UnaryOp) : ∀ o ∈ simplify os, o ∈ os := by
  intro o ho
  unfold simplify at ho
  obtain ⟨⟨o', i⟩, h1, rfl⟩ := List.mem_map.mp ho
  exact List.mem_of_getElem? (by simpa using List.mem_zipIdx_iff_getElem?.mp (List.mem_filter.mp h1).1)

theorem der_mono {K : Kind} {ops ops' : List UnaryOp} {S : Nat → Prop} (h : ∀ o ∈ ops, o ∈ ops') {p n : Nat} (hd : Der K ops S p n) : Der K ops' S p n := by
  induction hd with
  | state p hp => exact .state p hp
  | op o m ho _ ih => exact .op o m (h o ho) ih

theorem der_simplify {K : Kind} {os : List UnaryOp} {S : Nat → Prop} {p n : Nat} (hd : Der K os S p n) : ∃ n' ≤ n, Der K (simplify os) S p n' := by
  induction hd with
  | state p hp => exact ⟨0, Nat.le_refl _, .state p hp⟩
  | op o m ho _ ih =>
    obtain ⟨o', h1, h2, h3, h4⟩ := simplify_keeps os _ o ho rfl
    have : ∀ q, ∃ k, q ∈ o.pre → k ≤ m q ∧ Der K (simplify os) S q k := by
      intro q
      by_cases hq : q ∈ o.pre
      · obtain ⟨k, hk1, hk2⟩ := ih q hq
        exact ⟨k, fun _ => ⟨hk1, hk2⟩⟩
      · exact ⟨0, fun h => absurd h hq⟩
    choose m' hm' using this
    rw [← h2]
    exact ⟨_, comb_mono h4 h3.subperm (fun q hq => (hm' q (h3.subset hq)).1), .op o' m' h1 (fun q hq => (hm' q (h3.subset hq)).2)⟩

/-! ### unary operators and the effects of the delete relaxation -/

theorem mem_allUnary {t : Task} {o : UnaryOp} : o ∈ allUnaryOperators t ↔ ∃ i cs f c, t.RelEffect i cs f c ∧ o = ⟨sortUnique (cs.map (propId t)), propId t f, i, c⟩ := by
  simp only [allUnaryOperators, buildUnaryOperators, List.mem_append, List.mem_flatMap, List.mem_map, Prod.exists]
  constructor
  · rintro (⟨op, i, h1, e, h2, rfl⟩ | ⟨a, h1, e, h2, rfl⟩)
    · exact ⟨some i, op.pre ++ e.conds, e.fact, op.cost, .op i op e (by simpa using List.mem_zipIdx_iff_getElem?.mp h1) h2, by simp⟩
    · exact ⟨none, a.pre ++ e.conds, e.fact, 0, .ax a e h1 h2, by simp⟩
  · rintro ⟨i, cs, f, c, h, rfl⟩
    cases h with
    | op i op e h1 h2 => exact Or.inl ⟨op, i, List.mem_zipIdx_iff_getElem?.mpr (by simpa using h1), e, h2, by simp⟩
    | ax a e h1 h2 => exact Or.inr ⟨a, h1, e, h2, by simp⟩

theorem ofTask_ok {t : Task} (hv : t.FactsValid) {K : Kind} (hb : K = .add → ∀ o ∈ t.ops, o.cost ≤ maxCost) : ROk K (RTask.ofTask t) := by
  refine ⟨?_, ?_, ?_⟩
  · intro o ho
    obtain ⟨i, cs, f, c, h, rfl⟩ := mem_allUnary.mp (simplify_subset _ _ ho)
    exact propId_lt (hv.effect _ _ _ _ h).1
  · intro o ho
    obtain ⟨i, cs, f, c, h, rfl⟩ := mem_allUnary.mp (simplify_subset _ _ ho)
    exact sortUnique_nodup _
  · intro o ho hK
    obtain ⟨i, cs, f, c, h, rfl⟩ := mem_allUnary.mp (simplify_subset _ _ ho)
    cases h with
    | op i op e h1 h2 => exact hb hK op (List.mem_of_getElem? h1)
    | ax a e h1 h2 => exact Nat.zero_le _

theorem ofTask_goals {t : Task} (hv : t.FactsValid) : ∀ g ∈ (RTask.ofTask t).goals, g < (RTask.ofTask t).numProps := by
  intro g hg
  obtain ⟨f, h1, rfl⟩ := List.mem_map.mp hg
  exact propId_lt (hv.goal f h1)

/-! ### h^max -/

theorem hmaxLe_mono {t : Task} {s : State} {f : Fact} {n : Nat} (h : t.HmaxLe s f n) : ∀ {k : Nat}, n ≤ k → t.HmaxLe s f k := by
  intro k hk
  cases h with
  | state _ _ h => exact .state f k h
  | effect i cs _ c m _ h1 h2 h3 => exact .effect i cs f c m k h1 h2 (by omega)

theorem hmax_of_der {t : Task} (hv : t.FactsValid) {s : State} (hs : t.ValidState s) {p n : Nat} (h : Der .max (allUnaryOperators t) (· ∈ factsOf t s) p n) :
    ∃ f, t.ValidFact f ∧ propId t f = p ∧ t.HmaxLe s f n := by
  induction h with
  | state p hp =>
    obtain ⟨f, h1, h2⟩ := mem_factsOf.mp hp
    exact ⟨f, valid_of_holds hs h1, h2, .state f 0 h1⟩
  | op o m ho _ ih =>
    obtain ⟨i, cs, f, c, h, rfl⟩ := mem_allUnary.mp ho
    obtain ⟨hf, hcs⟩ := hv.effect _ _ _ _ h
    refine ⟨f, hf, rfl, .effect i cs f c (((sortUnique (cs.map (propId t))).map m).foldr Nat.max 0) _ h ?_ (by simp only [comb]; omega)⟩
    intro q hq
    have hin : propId t q ∈ sortUnique (cs.map (propId t)) := mem_sortUnique.mpr (List.mem_map_of_mem hq)
    obtain ⟨f', k1, k2, k3⟩ := ih _ hin
    rw [propId_inj k1 (hcs q hq) k2] at k3
    exact hmaxLe_mono k3 (foldr_max_le.mp (Nat.le_refl _) _ (List.mem_map_of_mem hin))

theorem der_of_hmax {t : Task} {s : State} {f : Fact} {n : Nat} (h : t.HmaxLe s f n) : ∃ n' ≤ n, Der .max (allUnaryOperators t) (· ∈ factsOf t s) (propId t f) n' := by
  induction h with
  | state f n h => exact ⟨0, Nat.zero_le _, .state _ (mem_factsOf.mpr ⟨f, h, rfl⟩)⟩
  | effect i cs f c m n h _ hle ih =>
    have ho : (⟨sortUnique (cs.map (propId t)), propId t f, i, c⟩ : UnaryOp) ∈ allUnaryOperators t := mem_allUnary.mpr ⟨i, cs, f, c, h, rfl⟩
    have : ∀ p, ∃ k, p ∈ sortUnique (cs.map (propId t)) → k ≤ m ∧ Der .max (allUnaryOperators t) (· ∈ factsOf t s) p k := by
      intro p
      by_cases hp : p ∈ sortUnique (cs.map (propId t))
      · obtain ⟨q, hq, rfl⟩ := List.mem_map.mp (mem_sortUnique.mp hp)
        obtain ⟨k, h1, h2⟩ := ih q hq
        exact ⟨k, fun _ => ⟨h1, h2⟩⟩
      · exact ⟨0, fun h => absurd h hp⟩
    choose mm hmm using this
    refine ⟨_, ?_, .op _ mm ho (fun q hq => (hmm q hq).2)⟩
    simp only [comb]
    have : ((sortUnique (cs.map (propId t))).map mm).foldr Nat.max 0 ≤ m := by
      refine foldr_max_le.mpr ?_
      intro x hx
      obtain ⟨q, hq, rfl⟩ := List.mem_map.mp hx
      exact (hmm q hq).1
    omega

/-! ### h^add -/

theorem haddLe_mono {t : Task} {s : State} {f : Fact} {n : Nat} (h : t.HaddLe s f n) : ∀ {k : Nat}, n ≤ k → t.HaddLe s f k := by
  intro k hk
  cases h with
  | state _ _ h => exact .state f k h
  | effect i cs _ c _ m h1 h2 h3 => exact .effect i cs f c k m h1 h2 (by omega)

theorem min_sum {α : Type} (M b : Nat) (k : α → Nat) : ∀ l : List α, Nat.min M (b + (l.map (fun a => Nat.min M (k a))).sum) = Nat.min M (b + (l.map k).sum)
  | [] => rfl
  | a :: l => by
    have ih := min_sum M b k l
    simp only [List.map_cons, List.sum_cons]
    show min _ _ = min _ _
    change min _ _ = min _ _ at ih
    have : Nat.min M (k a) = min M (k a) := rfl
    rw [this]
    omega

theorem sortUnique_perm {t : Task} {cs : List Fact} (hcs : ∀ q ∈ cs, t.ValidFact q) : (sortUnique (cs.map (propId t))).Perm (cs.dedup.map (propId t)) := by
  rw [List.perm_ext_iff_of_nodup (sortUnique_nodup _)]
  · intro x
    rw [mem_sortUnique]
    simp
  · refine List.Nodup.map_on ?_ (List.nodup_dedup cs)
    intro a ha b hb e
    exact propId_inj (hcs a (List.mem_dedup.mp ha)) (hcs b (List.mem_dedup.mp hb)) e

theorem hadd_of_der {t : Task} (hv : t.FactsValid) {s : State} (hs : t.ValidState s) {p n : Nat} (h : Der .add (allUnaryOperators t) (· ∈ factsOf t s) p n) :
    ∃ f k, t.ValidFact f ∧ propId t f = p ∧ t.HaddLe s f k ∧ n = Nat.min maxCost k := by
  induction h with
  | state p hp =>
    obtain ⟨f, h1, h2⟩ := mem_factsOf.mp hp
    exact ⟨f, 0, valid_of_holds hs h1, h2, .state f 0 h1, rfl⟩
  | op o m ho _ ih =>
    obtain ⟨i, cs, f, c, h, rfl⟩ := mem_allUnary.mp ho
    obtain ⟨hf, hcs⟩ := hv.effect _ _ _ _ h
    have : ∀ q, ∃ k, q ∈ cs → t.HaddLe s q k ∧ m (propId t q) = Nat.min maxCost k := by
      intro q
      by_cases hq : q ∈ cs
      · have hin : propId t q ∈ sortUnique (cs.map (propId t)) := mem_sortUnique.mpr (List.mem_map_of_mem hq)
        obtain ⟨f', k, k1, k2, k3, k4⟩ := ih _ hin
        rw [propId_inj k1 (hcs q hq) k2] at k3
        exact ⟨k, fun _ => ⟨k3, k4⟩⟩
      · exact ⟨0, fun h => absurd h hq⟩
    choose k hk using this
    refine ⟨f, (cs.dedup.map k).sum + c, hf, rfl, .effect i cs f c _ k h (fun q hq => (hk q hq).1) (Nat.le_refl _), ?_⟩
    simp only [comb]
    rw [((sortUnique_perm hcs).map m).sum_eq, List.map_map]
    have e : cs.dedup.map (m ∘ propId t) = cs.dedup.map (fun q => Nat.min maxCost (k q)) := List.map_congr_left (fun q hq => (hk q (List.mem_dedup.mp hq)).2)
    rw [e, min_sum, Nat.add_comm]

theorem der_of_hadd {t : Task} (hv : t.FactsValid) {s : State} {f : Fact} {n : Nat} (h : t.HaddLe s f n) : ∃ n' ≤ n, Der .add (allUnaryOperators t) (· ∈ factsOf t s) (propId t f) n' := by
  induction h with
  | state f n h => exact ⟨0, Nat.zero_le _, .state _ (mem_factsOf.mpr ⟨f, h, rfl⟩)⟩
  | effect i cs f c n m h _ hle ih =>
    have ho : (⟨sortUnique (cs.map (propId t)), propId t f, i, c⟩ : UnaryOp) ∈ allUnaryOperators t := mem_allUnary.mpr ⟨i, cs, f, c, h, rfl⟩
    obtain ⟨hf, hcs⟩ := hv.effect _ _ _ _ h
    have : ∀ p, ∃ k, ∀ q ∈ cs, propId t q = p → k ≤ m q ∧ Der .add (allUnaryOperators t) (· ∈ factsOf t s) p k := by
      intro p
      by_cases hp : p ∈ cs.map (propId t)
      · obtain ⟨q, hq, rfl⟩ := List.mem_map.mp hp
        obtain ⟨k, h1, h2⟩ := ih q hq
        refine ⟨k, fun q' hq' e => ?_⟩
        rw [propId_inj (hcs q' hq') (hcs q hq) e]
        exact ⟨h1, h2⟩
      · exact ⟨0, fun q hq e => absurd (List.mem_map.mpr ⟨q, hq, e⟩) hp⟩
    choose mm hmm using this
    refine ⟨_, ?_, .op _ mm ho ?_⟩
    · simp only [comb]
      rw [((sortUnique_perm hcs).map mm).sum_eq, List.map_map]
      have : (cs.dedup.map (mm ∘ propId t)).sum ≤ (cs.dedup.map m).sum := List.sum_le_sum (fun q hq => (hmm _ q (List.mem_dedup.mp hq) rfl).1)
      show min _ _ ≤ _
      omega
    · intro p hp
      obtain ⟨q, hq, e⟩ := List.mem_map.mp (mem_sortUnique.mp hp)
      exact (hmm p q hq e).2

/-! ### relaxed reachability -/

theorem reach_of_hmax {t : Task} {s : State} {f : Fact} {n : Nat} (h : t.HmaxLe s f n) : t.RelReach (fun _ => True) s f := by
  induction h with
  | state f n h => exact .state f h
  | effect i cs f c m n h _ _ ih => exact .effect i cs f c h (fun _ _ => trivial) ih

theorem bound_list {α : Type} {P : α → Nat → Prop} (hm : ∀ a n k, P a n → n ≤ k → P a k) : ∀ (l : List α), (∀ a ∈ l, ∃ n, P a n) → ∃ n, ∀ a ∈ l, P a n
  | [], _ => ⟨0, by simp⟩
  | a :: l, h => by
    obtain ⟨n, h1⟩ := bound_list hm l (fun b hb => h b (by simp [hb]))
    obtain ⟨k, h2⟩ := h a (by simp)
    refine ⟨n + k, fun b hb => ?_⟩
    rcases List.mem_cons.mp hb with e | e
    · rw [e]; exact hm a k _ h2 (by omega)
    · exact hm b n _ (h1 b e) (by omega)

theorem hmax_of_reach {t : Task} {R : Nat → Prop} {s : State} {f : Fact} (h : t.RelReach R s f) : ∃ n, t.HmaxLe s f n := by
  induction h with
  | state f h => exact ⟨0, .state f 0 h⟩
  | effect i cs f c h _ _ ih =>
    obtain ⟨m, hm⟩ := bound_list (P := fun q n => t.HmaxLe s q n) (fun a n k h1 h2 => hmaxLe_mono h1 h2) cs ih
    exact ⟨m + c, .effect i cs f c m _ h hm (Nat.le_refl _)⟩

theorem reach_of_hadd {t : Task} {s : State} {f : Fact} {n : Nat} (h : t.HaddLe s f n) : t.RelReach (fun _ => True) s f := by
  induction h with
  | state f n h => exact .state f h
  | effect i cs f c n m h _ _ ih => exact .effect i cs f c h (fun _ _ => trivial) ih

theorem hadd_of_reach {t : Task} {R : Nat → Prop} {s : State} {f : Fact} (h : t.RelReach R s f) : ∃ n, t.HaddLe s f n := by
  induction h with
  | state f h => exact ⟨0, .state f 0 h⟩
  | effect i cs f c h _ _ ih =>
    obtain ⟨m, hm⟩ := bound_list (P := fun q n => t.HaddLe s q n) (fun a n k h1 h2 => haddLe_mono h1 h2) cs ih
    exact ⟨(cs.dedup.map (fun _ => m)).sum + c, .effect i cs f c _ _ h hm (Nat.le_refl _)⟩

end Verif.Relax
