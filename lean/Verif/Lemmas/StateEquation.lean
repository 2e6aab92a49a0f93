import Verif.Model.OperatorCounting
import Verif.Spec.OperatorCounting
import Verif.Lemmas.MasAtomic
import Mathlib.Algebra.BigOperators.Group.Finset.Basic
import Mathlib.Algebra.Order.BigOperators.Group.Finset
import Mathlib.Algebra.BigOperators.Group.Finset.Piecewise
import Mathlib.Tactic.Linarith
import Mathlib.Tactic.NormNum
import Mathlib.Tactic.Ring

/-
The state equation: the rows that are built, and why plans satisfy them.
-/
namespace Verif.Counting
open Verif.LP

/-! ### Sums -/

theorem zipIdx_sum {α : Type} (g : α → Nat → Rat) : ∀ (l : List α) (k : Nat),
    ((l.zipIdx k).map (fun o => g o.1 o.2)).sum = ∑ i ∈ Finset.range l.length, ((l[i]?).map (fun o => g o (k + i))).getD 0
  | [], k => by simp
  | a :: l, k => by
    simp only [List.zipIdx_cons, List.map_cons, List.sum_cons, List.length_cons]
    rw [Finset.sum_range_succ', zipIdx_sum g l (k + 1)]
    simp only [List.getElem?_cons_zero, Option.map_some, Option.getD_some, List.getElem?_cons_succ, Nat.add_zero]
    rw [add_comm]
    congr 1
    refine Finset.sum_congr rfl (fun i _ => ?_)
    rw [Nat.add_assoc, Nat.add_comm 1 i]

theorem zipIdx_sum0 {α : Type} (g : α → Nat → Rat) (l : List α) : (l.zipIdx.map (fun o => g o.1 o.2)).sum = ∑ i ∈ Finset.range l.length, ((l[i]?).map (fun o => g o i)).getD 0 := by
  rw [zipIdx_sum g l 0]
  simp

theorem entries_sum {l : List (Nat × Rat)} {n : Nat} {c : Nat → Rat} (x : Nat → Rat) (hn : (l.map (·.1)).Nodup) (h1 : ∀ e ∈ l, c e.1 = e.2 ∧ e.1 < n) (h2 : ∀ i < n, i ∉ l.map (·.1) → c i = 0) :
    (l.map (fun e => e.2 * x e.1)).sum = ∑ i ∈ Finset.range n, c i * x i := by
  have e1 : (l.map (fun e => e.2 * x e.1)).sum = ((l.map (·.1)).map (fun i => c i * x i)).sum := by
    rw [List.map_map]
    congr 1
    refine List.map_congr_left (fun e he => ?_)
    simp only [Function.comp, (h1 e he).1]
  rw [e1, ← List.sum_toFinset _ hn]
  refine Finset.sum_subset ?_ ?_
  · intro i hi
    rw [List.mem_toFinset] at hi
    obtain ⟨e, he, rfl⟩ := List.mem_map.mp hi
    exact Finset.mem_range.mpr (h1 e he).2
  · intro i hi hni
    rw [List.mem_toFinset] at hni
    rw [h2 i (Finset.mem_range.mp hi) hni]
    simp

/-! ### The table -/

theorem preOf_iff {o : Operator} (h : (o.pre.map (·.var)).Nodup) {v a : Nat} : preOf o v = some a ↔ (⟨v, a⟩ : Fact) ∈ o.pre := by
  unfold preOf
  constructor
  · intro hp
    obtain ⟨f, h1, h2⟩ := Option.map_eq_some_iff.mp hp
    have := List.mem_of_getLast? h1
    rw [List.mem_filter] at this
    simp only [beq_iff_eq] at this
    obtain ⟨h3, rfl⟩ := this
    subst h2
    exact h3
  · intro hm
    cases hl : (o.pre.filter (fun f => f.var == v)).getLast? with
    | none =>
      rw [List.getLast?_eq_none_iff] at hl
      have : (⟨v, a⟩ : Fact) ∈ o.pre.filter (fun f => f.var == v) := List.mem_filter.mpr ⟨hm, by simp⟩
      rw [hl] at this
      simp at this
    | some f =>
      have := List.mem_of_getLast? hl
      rw [List.mem_filter] at this
      simp only [beq_iff_eq] at this
      have hf : f = ⟨v, a⟩ := List.inj_on_of_nodup_map h this.1 hm this.2
      rw [hf]
      rfl

theorem insertId_mem {l : List Nat} {i j : Nat} : j ∈ insertId l i ↔ j ∈ l ∨ j = i := by
  unfold insertId
  split
  · constructor
    · exact .inl
    · rintro (h | rfl)
      · exact h
      · assumption
  · simp

theorem insertId_nodup {l : List Nat} {i : Nat} (h : l.Nodup) : (insertId l i).Nodup := by
  unfold insertId
  split
  · exact h
  · rename_i hn
    rw [List.nodup_append]
    refine ⟨h, by simp, ?_⟩
    intro a ha b hb
    simp only [List.mem_singleton] at hb
    subst hb
    rintro rfl
    exact hn ha

/-- what the table contains after the triples of operator, number and effect in `proc` -/
structure Inv (proc : List (Operator × Nat × Effect)) (T : Table) : Prop where
  always : ∀ v a i, i ∈ (T v a).alwaysProduced ↔ ∃ o e, (o, i, e) ∈ proc ∧ e.fact = ⟨v, a⟩ ∧ (preOf o v).isSome
  sometimes : ∀ v a i, i ∈ (T v a).sometimesProduced ↔ ∃ o e, (o, i, e) ∈ proc ∧ e.fact = ⟨v, a⟩ ∧ preOf o v = none
  consumed : ∀ v a i, i ∈ (T v a).alwaysConsumed ↔ ∃ o e, (o, i, e) ∈ proc ∧ e.fact.var = v ∧ preOf o v = some a
  nodup : ∀ v a, (T v a).alwaysProduced.Nodup ∧ (T v a).sometimesProduced.Nodup ∧ (T v a).alwaysConsumed.Nodup

theorem inTable_iff {t : Task} {v a : Nat} : inTable t v a = true ↔ t.ValidFact ⟨v, a⟩ := by
  unfold inTable Task.ValidFact
  split
  · rename_i h; simp [h]
  · rename_i d h; simp [h]

theorem update_apply (T : Table) (var value : Nat) (f : Proposition → Proposition) (v a : Nat) : T.update var value f v a = if v = var ∧ a = value then f (T v a) else T v a := rfl

theorem buildEffect_spec {t : Task} (ht : t.CountingOk) {o : Operator} (ho : o ∈ t.ops) {e : Effect} (he : e ∈ o.effects) {id : Nat} {proc : List (Operator × Nat × Effect)} {T : Table} (h : Inv proc T) :
    ∃ T', buildEffect t o id T e = some T' ∧ Inv (proc ++ [(o, id, e)]) T' := by
  obtain ⟨v0, a0, hf⟩ : ∃ v0 a0, e.fact = ⟨v0, a0⟩ := ⟨_, _, rfl⟩
  have hv := ht.wf.effFact o ho e he
  rw [hf] at hv
  unfold buildEffect
  simp only [hf]
  rw [if_pos (inTable_iff.mpr hv)]
  cases hp : preOf o v0 with
  | some b =>
    have hb := (preOf_iff (ht.once.pre o ho)).mp hp
    have hne : b ≠ a0 := by
      rintro rfl
      exact ht.change o ho e he (hf ▸ hb)
    simp only
    rw [if_neg hne, if_pos (inTable_iff.mpr (ht.wf.pre o ho _ hb))]
    refine ⟨_, rfl, fun v a i => ?_, fun v a i => ?_, fun v a i => ?_, fun v a => ?_⟩
    · have := h.always v a i
      rw [update_apply, update_apply]
      by_cases h1 : v = v0 ∧ a = a0
      · obtain ⟨rfl, rfl⟩ := h1
        rw [if_neg (by rintro ⟨_, h⟩; exact hne h.symm), if_pos ⟨rfl, rfl⟩]
        simp only [insertId_mem, this]
        constructor
        · rintro (⟨o', e', m1, m2, m3⟩ | rfl)
          · exact ⟨o', e', by simp [m1], m2, m3⟩
          · exact ⟨o, e, by simp, hf, by simp [hp]⟩
        · rintro ⟨o', e', m1, m2, m3⟩
          rcases List.mem_append.mp m1 with m1 | m1
          · exact .inl ⟨o', e', m1, m2, m3⟩
          · simp only [List.mem_singleton, Prod.mk.injEq] at m1
            exact .inr m1.2.1
      · have e2 : (if v = v0 ∧ a = b then { (if v = v0 ∧ a = a0 then { T v a with alwaysProduced := insertId (T v a).alwaysProduced id } else T v a) with alwaysConsumed := insertId (if v = v0 ∧ a = a0 then { T v a with alwaysProduced := insertId (T v a).alwaysProduced id } else T v a).alwaysConsumed id } else if v = v0 ∧ a = a0 then { T v a with alwaysProduced := insertId (T v a).alwaysProduced id } else T v a).alwaysProduced = (T v a).alwaysProduced := by
          rw [if_neg h1]
          split <;> rfl
        rw [e2, this]
        constructor
        · rintro ⟨o', e', m1, m2, m3⟩
          exact ⟨o', e', by simp [m1], m2, m3⟩
        · rintro ⟨o', e', m1, m2, m3⟩
          rcases List.mem_append.mp m1 with m1 | m1
          · exact ⟨o', e', m1, m2, m3⟩
          · simp only [List.mem_singleton, Prod.mk.injEq] at m1
            obtain ⟨rfl, rfl, rfl⟩ := m1
            rw [hf] at m2
            simp only [Fact.mk.injEq] at m2
            exact absurd ⟨m2.1.symm, m2.2.symm⟩ h1
    · have := h.sometimes v a i
      have e2 : ((T.update v0 a0 (fun p => { p with alwaysProduced := insertId p.alwaysProduced id })).update v0 b (fun p => { p with alwaysConsumed := insertId p.alwaysConsumed id }) v a).sometimesProduced = (T v a).sometimesProduced := by
        rw [update_apply, update_apply]
        split <;> split <;> rfl
      rw [e2, this]
      constructor
      · rintro ⟨o', e', m1, m2, m3⟩
        exact ⟨o', e', by simp [m1], m2, m3⟩
      · rintro ⟨o', e', m1, m2, m3⟩
        rcases List.mem_append.mp m1 with m1 | m1
        · exact ⟨o', e', m1, m2, m3⟩
        · simp only [List.mem_singleton, Prod.mk.injEq] at m1
          obtain ⟨rfl, rfl, rfl⟩ := m1
          rw [hf] at m2
          simp only [Fact.mk.injEq] at m2
          rw [← m2.1, hp] at m3
          simp at m3
    · have := h.consumed v a i
      by_cases h1 : v = v0 ∧ a = b
      · obtain ⟨rfl, rfl⟩ := h1
        have e2 : ((T.update v a0 (fun p => { p with alwaysProduced := insertId p.alwaysProduced id })).update v a (fun p => { p with alwaysConsumed := insertId p.alwaysConsumed id }) v a).alwaysConsumed = insertId (T v a).alwaysConsumed id := by
          rw [update_apply, update_apply, if_pos ⟨rfl, rfl⟩]
          split <;> rfl
        rw [e2, insertId_mem, this]
        constructor
        · rintro (⟨o', e', m1, m2, m3⟩ | rfl)
          · exact ⟨o', e', by simp [m1], m2, m3⟩
          · exact ⟨o, e, by simp, by rw [hf], hp⟩
        · rintro ⟨o', e', m1, m2, m3⟩
          rcases List.mem_append.mp m1 with m1 | m1
          · exact .inl ⟨o', e', m1, m2, m3⟩
          · simp only [List.mem_singleton, Prod.mk.injEq] at m1
            exact .inr m1.2.1
      · have e2 : ((T.update v0 a0 (fun p => { p with alwaysProduced := insertId p.alwaysProduced id })).update v0 b (fun p => { p with alwaysConsumed := insertId p.alwaysConsumed id }) v a).alwaysConsumed = (T v a).alwaysConsumed := by
          rw [update_apply, update_apply, if_neg h1]
          split <;> rfl
        rw [e2, this]
        constructor
        · rintro ⟨o', e', m1, m2, m3⟩
          exact ⟨o', e', by simp [m1], m2, m3⟩
        · rintro ⟨o', e', m1, m2, m3⟩
          rcases List.mem_append.mp m1 with m1 | m1
          · exact ⟨o', e', m1, m2, m3⟩
          · simp only [List.mem_singleton, Prod.mk.injEq] at m1
            obtain ⟨rfl, rfl, rfl⟩ := m1
            rw [hf] at m2
            simp only at m2
            subst m2
            rw [hp] at m3
            simp only [Option.some.injEq] at m3
            exact absurd ⟨rfl, m3.symm⟩ h1
    · obtain ⟨n1, n2, n3⟩ := h.nodup v a
      rw [update_apply, update_apply]
      split <;> split <;> exact ⟨by first | exact insertId_nodup n1 | exact n1, n2, by first | exact insertId_nodup n3 | exact n3⟩
  | none =>
    refine ⟨_, rfl, fun v a i => ?_, fun v a i => ?_, fun v a i => ?_, fun v a => ?_⟩
    · have := h.always v a i
      have e2 : (T.update v0 a0 (fun p => { p with sometimesProduced := insertId p.sometimesProduced id }) v a).alwaysProduced = (T v a).alwaysProduced := by
        rw [update_apply]
        split <;> rfl
      rw [e2, this]
      constructor
      · rintro ⟨o', e', m1, m2, m3⟩
        exact ⟨o', e', by simp [m1], m2, m3⟩
      · rintro ⟨o', e', m1, m2, m3⟩
        rcases List.mem_append.mp m1 with m1 | m1
        · exact ⟨o', e', m1, m2, m3⟩
        · simp only [List.mem_singleton, Prod.mk.injEq] at m1
          obtain ⟨rfl, rfl, rfl⟩ := m1
          rw [hf] at m2
          simp only [Fact.mk.injEq] at m2
          rw [← m2.1, hp] at m3
          simp at m3
    · have := h.sometimes v a i
      by_cases h1 : v = v0 ∧ a = a0
      · obtain ⟨rfl, rfl⟩ := h1
        rw [update_apply, if_pos ⟨rfl, rfl⟩]
        simp only [insertId_mem, this]
        constructor
        · rintro (⟨o', e', m1, m2, m3⟩ | rfl)
          · exact ⟨o', e', by simp [m1], m2, m3⟩
          · exact ⟨o, e, by simp, hf, hp⟩
        · rintro ⟨o', e', m1, m2, m3⟩
          rcases List.mem_append.mp m1 with m1 | m1
          · exact .inl ⟨o', e', m1, m2, m3⟩
          · simp only [List.mem_singleton, Prod.mk.injEq] at m1
            exact .inr m1.2.1
      · rw [update_apply, if_neg h1, this]
        constructor
        · rintro ⟨o', e', m1, m2, m3⟩
          exact ⟨o', e', by simp [m1], m2, m3⟩
        · rintro ⟨o', e', m1, m2, m3⟩
          rcases List.mem_append.mp m1 with m1 | m1
          · exact ⟨o', e', m1, m2, m3⟩
          · simp only [List.mem_singleton, Prod.mk.injEq] at m1
            obtain ⟨rfl, rfl, rfl⟩ := m1
            rw [hf] at m2
            simp only [Fact.mk.injEq] at m2
            exact absurd ⟨m2.1.symm, m2.2.symm⟩ h1
    · have := h.consumed v a i
      have e2 : (T.update v0 a0 (fun p => { p with sometimesProduced := insertId p.sometimesProduced id }) v a).alwaysConsumed = (T v a).alwaysConsumed := by
        rw [update_apply]
        split <;> rfl
      rw [e2, this]
      constructor
      · rintro ⟨o', e', m1, m2, m3⟩
        exact ⟨o', e', by simp [m1], m2, m3⟩
      · rintro ⟨o', e', m1, m2, m3⟩
        rcases List.mem_append.mp m1 with m1 | m1
        · exact ⟨o', e', m1, m2, m3⟩
        · simp only [List.mem_singleton, Prod.mk.injEq] at m1
          obtain ⟨rfl, rfl, rfl⟩ := m1
          rw [hf] at m2
          simp only at m2
          subst m2
          rw [hp] at m3
          simp at m3
    · obtain ⟨n1, n2, n3⟩ := h.nodup v a
      rw [update_apply]
      split <;> exact ⟨n1, by first | exact insertId_nodup n2 | exact n2, n3⟩

theorem buildEffects_spec {t : Task} (ht : t.CountingOk) {o : Operator} (ho : o ∈ t.ops) (id : Nat) : ∀ (es : List Effect) (proc : List (Operator × Nat × Effect)) (T : Table), (∀ e ∈ es, e ∈ o.effects) → Inv proc T →
    ∃ T', es.foldlM (buildEffect t o id) T = some T' ∧ Inv (proc ++ es.map (fun e => (o, id, e))) T'
  | [], proc, T, _, h => ⟨T, rfl, by simpa using h⟩
  | e :: es, proc, T, hes, h => by
    obtain ⟨T1, k1, k2⟩ := buildEffect_spec ht ho (hes e (by simp)) (id := id) h
    obtain ⟨T2, k3, k4⟩ := buildEffects_spec ht ho id es _ T1 (fun e he => hes e (by simp [he])) k2
    refine ⟨T2, ?_, by simpa using k4⟩
    rw [List.foldlM_cons, k1]
    exact k3

theorem buildOps_spec {t : Task} (ht : t.CountingOk) : ∀ (l : List (Operator × Nat)) (proc : List (Operator × Nat × Effect)) (T : Table), (∀ o ∈ l, o.1 ∈ t.ops) → Inv proc T →
    ∃ T', l.foldlM (fun T o => o.1.effects.foldlM (buildEffect t o.1 o.2) T) T = some T' ∧ Inv (proc ++ l.flatMap (fun o => o.1.effects.map (fun e => (o.1, o.2, e)))) T'
  | [], proc, T, _, h => ⟨T, rfl, by simpa using h⟩
  | o :: l, proc, T, hl, h => by
    obtain ⟨T1, k1, k2⟩ := buildEffects_spec ht (hl o (by simp)) o.2 o.1.effects proc T (fun _ h => h) h
    obtain ⟨T2, k3, k4⟩ := buildOps_spec ht l _ T1 (fun o ho => hl o (by simp [ho])) k2
    refine ⟨T2, ?_, by simpa using k4⟩
    rw [List.foldlM_cons, k1]
    exact k3

/-- the coefficient of operator `i` in the row for a fact -/
def coef (t : Task) (f : Fact) (i : Nat) : Rat := ((t.ops[i]?).map (fun o => if o.produces f then (1 : Rat) else if o.consumes f then -1 else 0)).getD 0

theorem netChange_eq (t : Task) (f : Fact) (x : Nat → Rat) : t.netChange f x = ∑ i ∈ Finset.range t.ops.length, coef t f i * x i := by
  unfold Task.netChange
  rw [zipIdx_sum0 (fun (o : Operator) i => if o.produces f then x i else if o.consumes f then -x i else 0)]
  refine Finset.sum_congr rfl (fun i _ => ?_)
  unfold coef
  cases t.ops[i]? with
  | none => simp
  | some o =>
    simp only [Option.map_some, Option.getD_some]
    split
    · ring
    · split <;> ring

theorem not_both {t : Task} (ht : t.CountingOk) {o : Operator} (ho : o ∈ t.ops) {f : Fact} : ¬(o.produces f ∧ o.consumes f) := by
  rintro ⟨⟨e, he, rfl⟩, h, _⟩
  exact ht.change o ho e he h

/-- the table after all operators -/
theorem buildPropositions_spec {t : Task} (ht : t.CountingOk) : ∃ T, buildPropositions t = some T ∧ ∀ v a,
    ((entries (T v a)).map (·.1)).Nodup ∧ (∀ e ∈ entries (T v a), coef t ⟨v, a⟩ e.1 = e.2 ∧ e.1 < t.ops.length) ∧ (∀ i, i ∉ (entries (T v a)).map (·.1) → coef t ⟨v, a⟩ i = 0) ∧
      ((entries (T v a)).isEmpty = true ↔ ¬∃ o ∈ t.ops, o.produces ⟨v, a⟩ ∨ o.consumes ⟨v, a⟩) := by
  obtain ⟨T, h1, h2⟩ := buildOps_spec ht t.ops.zipIdx [] (fun _ _ => ⟨[], [], []⟩) (fun o ho => by
    obtain ⟨k, hk⟩ := List.mem_iff_getElem?.mp ho
    rw [List.getElem?_zipIdx] at hk
    obtain ⟨o', h1, rfl⟩ := Option.map_eq_some_iff.mp hk
    exact List.mem_of_getElem? h1) ⟨by simp, by simp, by simp, by simp⟩
  refine ⟨T, h1, fun v a => ?_⟩
  simp only [List.nil_append] at h2
  have hproc : ∀ {o : Operator} {i : Nat} {e : Effect}, (o, i, e) ∈ t.ops.zipIdx.flatMap (fun o => o.1.effects.map (fun e => (o.1, o.2, e))) ↔ t.ops[i]? = some o ∧ e ∈ o.effects := by
    intro o i e
    simp only [List.mem_flatMap, List.mem_map, Prod.mk.injEq]
    constructor
    · rintro ⟨⟨o', i'⟩, hm, e', he', rfl, rfl, rfl⟩
      obtain ⟨_, h2, h3⟩ := List.mem_zipIdx hm
      simp only [Nat.zero_add, Nat.sub_zero] at h2 h3
      exact ⟨by rw [List.getElem?_eq_getElem h2, h3], he'⟩
    · rintro ⟨h1, h2⟩
      refine ⟨(o, i), ?_, e, h2, rfl, rfl, rfl⟩
      rw [List.mem_iff_getElem?]
      exact ⟨i, by rw [List.getElem?_zipIdx, h1]; simp⟩
  have hprod : ∀ i, (i ∈ (T v a).alwaysProduced ∨ i ∈ (T v a).sometimesProduced) ↔ ∃ o, t.ops[i]? = some o ∧ o.produces ⟨v, a⟩ := by
    intro i
    rw [h2.always, h2.sometimes]
    constructor
    · rintro (⟨o, e, m1, m2, _⟩ | ⟨o, e, m1, m2, _⟩) <;> exact ⟨o, (hproc.mp m1).1, e, (hproc.mp m1).2, m2⟩
    · rintro ⟨o, m1, e, m2, m3⟩
      cases hp : preOf o v with
      | none => exact .inr ⟨o, e, hproc.mpr ⟨m1, m2⟩, m3, hp⟩
      | some b => exact .inl ⟨o, e, hproc.mpr ⟨m1, m2⟩, m3, by simp [hp]⟩
  have hcons : ∀ i, i ∈ (T v a).alwaysConsumed ↔ ∃ o, t.ops[i]? = some o ∧ o.consumes ⟨v, a⟩ := by
    intro i
    rw [h2.consumed]
    constructor
    · rintro ⟨o, e, m1, m2, m3⟩
      have m4 := hproc.mp m1
      exact ⟨o, m4.1, (preOf_iff (ht.once.pre o (List.mem_of_getElem? m4.1))).mp m3, e, m4.2, m2⟩
    · rintro ⟨o, m1, m2, e, m3, m4⟩
      exact ⟨o, e, hproc.mpr ⟨m1, m3⟩, m4, (preOf_iff (ht.once.pre o (List.mem_of_getElem? m1))).mpr m2⟩
  have hkeys : (entries (T v a)).map (·.1) = (T v a).alwaysProduced ++ (T v a).sometimesProduced ++ (T v a).alwaysConsumed := by
    simp [entries, Function.comp_def]
  have hdis1 : ∀ i, i ∈ (T v a).alwaysProduced → i ∈ (T v a).sometimesProduced → False := by
    intro i k1 k2
    rw [h2.always] at k1
    rw [h2.sometimes] at k2
    obtain ⟨o, e, m1, m2, m3⟩ := k1
    obtain ⟨o', e', m1', m2', m3'⟩ := k2
    have := (hproc.mp m1).1.symm.trans (hproc.mp m1').1
    simp only [Option.some.injEq] at this
    rw [this, m3'] at m3
    simp at m3
  have hdis2 : ∀ i, (i ∈ (T v a).alwaysProduced ∨ i ∈ (T v a).sometimesProduced) → i ∈ (T v a).alwaysConsumed → False := by
    intro i k1 k2
    obtain ⟨o, m1, m2⟩ := (hprod i).mp k1
    obtain ⟨o', m1', m2'⟩ := (hcons i).mp k2
    rw [m1] at m1'
    simp only [Option.some.injEq] at m1'
    subst m1'
    exact not_both ht (List.mem_of_getElem? m1) ⟨m2, m2'⟩
  have hcp : ∀ i, (i ∈ (T v a).alwaysProduced ∨ i ∈ (T v a).sometimesProduced) → coef t ⟨v, a⟩ i = 1 ∧ i < t.ops.length := by
    intro i k
    obtain ⟨o, m1, m2⟩ := (hprod i).mp k
    exact ⟨by simp [coef, m1, m2], (List.getElem?_eq_some_iff.mp m1).1⟩
  have hcc : ∀ i, i ∈ (T v a).alwaysConsumed → coef t ⟨v, a⟩ i = -1 ∧ i < t.ops.length := by
    intro i k
    obtain ⟨o, m1, m2⟩ := (hcons i).mp k
    have : ¬o.produces ⟨v, a⟩ := fun h => not_both ht (List.mem_of_getElem? m1) ⟨h, m2⟩
    exact ⟨by simp [coef, m1, m2, this], (List.getElem?_eq_some_iff.mp m1).1⟩
  obtain ⟨n1, n2, n3⟩ := h2.nodup v a
  refine ⟨?_, fun e he => ?_, fun i hi => ?_, ?_⟩
  · rw [hkeys, List.nodup_append, List.nodup_append]
    refine ⟨⟨n1, n2, ?_⟩, n3, ?_⟩
    · rintro i hi j hj rfl
      exact hdis1 i hi hj
    · rintro i hi j hj rfl
      exact hdis2 i (List.mem_append.mp hi) hj
  · unfold entries at he
    rcases List.mem_append.mp he with he | he
    · rcases List.mem_append.mp he with he | he
      · obtain ⟨i, hi, rfl⟩ := List.mem_map.mp he
        exact hcp i (.inl hi)
      · obtain ⟨i, hi, rfl⟩ := List.mem_map.mp he
        exact hcp i (.inr hi)
    · obtain ⟨i, hi, rfl⟩ := List.mem_map.mp he
      exact hcc i hi
  · rw [hkeys, List.mem_append, List.mem_append, not_or] at hi
    unfold coef
    cases hio : t.ops[i]? with
    | none => rfl
    | some o =>
      have k1 : ¬o.produces ⟨v, a⟩ := fun h => hi.1 ((hprod i).mpr ⟨o, hio, h⟩)
      have k2 : ¬o.consumes ⟨v, a⟩ := fun h => hi.2 ((hcons i).mpr ⟨o, hio, h⟩)
      simp [k1, k2]
  · rw [List.isEmpty_iff]
    constructor
    · intro he
      have hk : ∀ i, i ∉ (T v a).alwaysProduced ++ (T v a).sometimesProduced ++ (T v a).alwaysConsumed := by
        rw [← hkeys, he]
        simp
      rintro ⟨o, ho, h⟩
      obtain ⟨i, hi⟩ := List.mem_iff_getElem?.mp ho
      rcases h with h | h
      · exact hk i (List.mem_append.mpr (.inl (List.mem_append.mpr ((hprod i).mpr ⟨o, hi, h⟩))))
      · exact hk i (List.mem_append.mpr (.inr ((hcons i).mpr ⟨o, hi, h⟩)))
    · intro hn
      rw [← List.map_eq_nil_iff (f := (·.1)), hkeys, List.eq_nil_iff_forall_not_mem]
      intro i hi
      rcases List.mem_append.mp hi with hi | hi
      · obtain ⟨o, m1, m2⟩ := (hprod i).mp (List.mem_append.mp hi)
        exact hn ⟨o, List.mem_of_getElem? m1, .inl m2⟩
      · obtain ⟨o, m1, m2⟩ := (hcons i).mp hi
        exact hn ⟨o, List.mem_of_getElem? m1, .inr m2⟩

/-! ### Plans satisfy the state equation -/

theorem assigned_cases {o : Operator} {s : State} {v : Nat} : (∃ e ∈ o.effects, e.fact.var = v ∧ o.assigned s v = some e.fact.val) ∨ o.assigned s v = none := by
  unfold Operator.assigned
  cases hl : (o.effects.filter (fun e => decide (e.fires s) && e.fact.var == v)).getLast? with
  | none => exact .inr rfl
  | some e =>
    have := List.mem_of_getLast? hl
    rw [List.mem_filter] at this
    simp only [Bool.and_eq_true, beq_iff_eq] at this
    exact .inl ⟨e, this.1, this.2.2, rfl⟩

theorem assigned_some {o : Operator} {s : State} {v : Nat} (hc : ∀ e ∈ o.effects, e.conds = []) (h : ∃ e ∈ o.effects, e.fact.var = v) : o.assigned s v ≠ none := by
  obtain ⟨e, he, hv⟩ := h
  unfold Operator.assigned
  rw [ne_eq, Option.map_eq_none_iff, List.getLast?_eq_none_iff, List.filter_eq_nil_iff]
  intro h
  exact h e he (by simp [hv, Effect.fires, hc e he, allHold])

/-- the change of a fact by one operator -/
theorem step_change {t : Task} (ht : t.CountingOk) {s s' : State} (hs : t.ValidState s) {i : Nat} {o : Operator} (ho : t.ops[i]? = some o) (ha : o.applicable s) (hsu : t.SuccRel o s s') {f : Fact} (hf : t.ValidFact f) :
    (if f.holds s' then (1 : Rat) else 0) - (if f.holds s then 1 else 0) ≤ coef t f i := by
  have hmem := List.mem_of_getElem? ho
  obtain ⟨d, hd, _⟩ := hf
  have hlt : f.var < s.length := by rw [hs.1]; exact (List.getElem?_eq_some_iff.mp hd).1
  have hx : s[f.var]? = some s[f.var] := List.getElem?_eq_getElem hlt
  have hx' := Mas.succ_value ht.wf ht.axioms hsu hx
  have hcoef : coef t f i = if o.produces f then (1 : Rat) else if o.consumes f then -1 else 0 := by simp [coef, ho]
  rw [hcoef]
  by_cases hp : o.produces f
  · rw [if_pos hp]
    split <;> split <;> norm_num
  · rw [if_neg hp]
    by_cases hc : o.consumes f
    · rw [if_pos hc]
      have h1 : f.holds s := ha f hc.1
      have h2 : ¬f.holds s' := by
        intro h2
        have h2 : s'[f.var]? = some f.val := h2
        rw [hx', Option.some.injEq] at h2
        rcases assigned_cases (o := o) (s := s) (v := f.var) with ⟨e, he, hv, hass⟩ | hass
        · rw [hass] at h2
          exact hp ⟨e, he, by cases hef : e.fact; rw [hef] at hv h2; simp only [Option.getD_some] at hv h2; rw [hv, h2]⟩
        · exact assigned_some (ht.conds o hmem) hc.2 hass
      rw [if_neg h2, if_pos h1]
      norm_num
    · rw [if_neg hc]
      by_cases h2 : f.holds s'
      · have h1 : f.holds s := by
          have h2' : s'[f.var]? = some f.val := h2
          rw [hx', Option.some.injEq] at h2'
          rcases assigned_cases (o := o) (s := s) (v := f.var) with ⟨e, he, hv, hass⟩ | hass
          · rw [hass] at h2'
            exact absurd ⟨e, he, by cases hef : e.fact; rw [hef] at hv h2'; simp only [Option.getD_some] at hv h2'; rw [hv, h2']⟩ hp
          · rw [hass] at h2'
            simp only [Option.getD_none] at h2'
            show s[f.var]? = some f.val
            rw [hx, h2']
        rw [if_pos h1, if_pos h2]
        norm_num
      · rw [if_neg h2]
        split <;> norm_num

theorem sum_occurrences_cons {n i : Nat} (hi : i < n) (c : Nat → Rat) (π : List Nat) : ∑ j ∈ Finset.range n, c j * occurrences (i :: π) j = c i + ∑ j ∈ Finset.range n, c j * occurrences π j := by
  have h1 : ∀ j, c j * occurrences (i :: π) j = (if j = i then c j else 0) + c j * occurrences π j := by
    intro j
    unfold occurrences
    rw [List.count_cons]
    by_cases h : i = j
    · subst h
      simp
      ring
    · rw [if_neg (by simpa using h), if_neg (fun h' => h h'.symm)]
      simp
  rw [Finset.sum_congr rfl (fun j _ => h1 j), Finset.sum_add_distrib, Finset.sum_ite_eq', if_pos (Finset.mem_range.mpr hi)]

theorem exec_change {t : Task} (ht : t.CountingOk) {f : Fact} (hf : t.ValidFact f) {s u : State} {π : List Nat} (h : t.Exec s π u) (hs : t.ValidState s) :
    (if f.holds u then (1 : Rat) else 0) - (if f.holds s then 1 else 0) ≤ t.netChange f (occurrences π) := by
  rw [netChange_eq]
  induction h with
  | nil s =>
    simp [occurrences]
  | cons s i o s' π u k1 k2 k3 k4 ih =>
    rw [sum_occurrences_cons (List.getElem?_eq_some_iff.mp k1).1]
    have h1 := step_change ht hs k1 k2 k3 hf
    have h2 := ih (succ_valid ht.wf hs k1 k2 k3)
    linarith

theorem plan_stateEquation {t : Task} (ht : t.CountingOk) {s : State} (hs : t.ValidState s) {π : List Nat} (h : t.SolvesFrom s π) : t.StateEquation s (occurrences π) := by
  obtain ⟨u, h1, h2⟩ := h
  intro f hf _
  have h3 := exec_change ht hf h1 hs
  by_cases hg : f ∈ t.goal
  · rw [if_pos hg]
    rw [if_pos (h2 f hg)] at h3
    exact h3
  · rw [if_neg hg]
    have : (0 : Rat) ≤ (if f.holds u then (1 : Rat) else 0) := by split <;> norm_num
    linarith

theorem planCost_eq (t : Task) {s u : State} {π : List Nat} (h : t.Exec s π u) : ((t.planCost π : Nat) : Rat) = t.countCost (occurrences π) := by
  unfold Task.countCost
  rw [zipIdx_sum0 (fun (o : Operator) i => (o.cost : Rat) * occurrences π i)]
  have h1 : ∀ i, ((t.ops[i]?).map (fun o => (o.cost : Rat) * occurrences π i)).getD 0 = (t.opCost i : Rat) * occurrences π i := by
    intro i
    unfold Task.opCost
    cases t.ops[i]? <;> simp
  rw [Finset.sum_congr rfl (fun i _ => h1 i)]
  induction h with
  | nil s => simp [Task.planCost, occurrences]
  | cons s i o s' π u k1 k2 k3 k4 ih =>
    rw [sum_occurrences_cons (List.getElem?_eq_some_iff.mp k1).1 (fun i => (t.opCost i : Rat))]
    rw [← ih (fun i => by unfold Task.opCost; cases t.ops[i]? <;> simp)]
    simp [Task.planCost]

end Verif.Counting
