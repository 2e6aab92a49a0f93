import Verif.Lemmas.MasInvariant

/-
The atomic factors are abstractions of the task.
-/
namespace Verif.Mas
open Verif.AdaptiveQueue

theorem createLabels_cost {t : Task} {l : Nat} : (createLabels t).cost l = (t.ops[l]?).map (·.cost) := by
  simp only [Labels.cost, createLabels, List.getElem?_map]
  cases t.ops[l]? <;> rfl

/-- the local labels after the operators with numbers less than `n` -/
structure AInv (t : Task) (v d n : Nat) (st : List (Option Nat) × List LocalLabel) : Prop where
  pcons : PCons (createLabels t) st.1 st.2
  srt : Srt st.2
  desc : ∀ i ∈ st.2, i.labels ≠ [] ∧ ∀ l ∈ i.labels, l < n ∧ ∃ o, t.ops[l]? = some o ∧ relevant o v = true ∧ ∀ p, p ∈ i.transitions ↔ p ∈ opTransitions o v d
  has : ∀ l o, l < n → t.ops[l]? = some o → relevant o v = true → Has st.2 l
  len : st.1.length = (createLabels t).maxNum

theorem addLabel_inv {t : Task} {v d n : Nat} {o : Operator} {ts : List (Nat × Nat)} {st st' : List (Option Nat) × List LocalLabel} (h : AInv t v d n st) (ho : t.ops[n]? = some o) (hrel : relevant o v = true)
    (hts : ∀ p, p ∈ ts ↔ p ∈ opTransitions o v d) (hst : addLabel n o.cost ts st = some st') : AInv t v d (n + 1) st' := by
  have hcost : (createLabels t).cost n = some o.cost := by rw [createLabels_cost, ho]; rfl
  have hfresh : ∀ i ∈ st.2, n ∉ i.labels := fun i hi hn => by have := ((h.desc i hi).2 n hn).1; omega
  have hhas : ∀ l o', l < n + 1 → t.ops[l]? = some o' → relevant o' v = true → ∀ infos : List LocalLabel, (∀ l, Has st.2 l → Has infos l) → Has infos n → Has infos l := by
    intro l o' hl ho' hr infos h1 h2
    by_cases e : l = n
    · exact e ▸ h2
    · exact h1 l (h.has l o' (by omega) ho' hr)
  unfold addLabel at hst
  cases hf : findLocal ts st.2 with
  | some k =>
    rw [hf] at hst
    simp only at hst
    unfold findLocal at hf
    obtain ⟨hk, hk2, _⟩ := List.findIdx?_eq_some_iff_getElem.mp hf
    have e := List.getElem?_eq_getElem hk
    rw [e] at hst
    cases hm : setAll (some k) [n] st.1 with
    | none => rw [hm] at hst; simp at hst
    | some m =>
      rw [hm] at hst
      simp only [Option.some.injEq] at hst
      subst hst
      obtain ⟨s1, s2, s3⟩ := setAll_spec hm
      have htr : st.2[k].transitions = ts := by simpa using hk2
      have hmemk : st.2[k] ∈ st.2 := List.getElem_mem hk
      have hmem : ∀ i : LocalLabel, i ∈ st.2.set k { st.2[k] with labels := st.2[k].labels ++ [n], cost := min st.2[k].cost o.cost } → i = { st.2[k] with labels := st.2[k].labels ++ [n], cost := min st.2[k].cost o.cost } ∨ i ∈ st.2 := by
        intro i hi
        rcases List.mem_or_eq_of_mem_set hi with h | h
        · exact Or.inr h
        · exact Or.inl h
      refine ⟨⟨?_, ?_, ?_⟩, ?_, ?_, ?_, s1.trans h.len⟩
      · intro k' i l hk' hl
        simp only [List.getElem?_set] at hk'
        split at hk'
        · rename_i e'
          subst e'
          simp only [if_pos hk, Option.some.injEq] at hk'
          subst hk'
          simp only [List.mem_append, List.mem_singleton] at hl
          rcases hl with hl | rfl
          · simp only
            rw [s3 l (by simp only [List.mem_singleton]; exact fun e' => hfresh _ hmemk (e' ▸ hl))]
            exact h.pcons.mapped k _ l e hl
          · exact s2 l (by simp)
        · rename_i e'
          have hi := List.mem_of_getElem? hk'
          simp only
          rw [s3 l (by simp only [List.mem_singleton]; exact fun e' => hfresh _ hi (e' ▸ hl))]
          exact h.pcons.mapped k' _ l hk' hl
      · intro i hi l hl
        rcases hmem i hi with rfl | hi
        · simp only [List.mem_append, List.mem_singleton] at hl ⊢
          rcases hl with hl | rfl
          · obtain ⟨c, h1, h2⟩ := h.pcons.live _ hmemk l hl
            exact ⟨c, h1, by omega⟩
          · exact ⟨_, hcost, by omega⟩
        · exact h.pcons.live i hi l hl
      · intro i hi hne
        rcases hmem i hi with rfl | hi
        · simp only [List.mem_append, List.mem_singleton]
          by_cases hle : o.cost ≤ st.2[k].cost
          · exact ⟨n, Or.inr rfl, by rw [hcost]; congr 1; omega⟩
          · obtain ⟨l, h1, h2⟩ := h.pcons.least _ hmemk (h.desc _ hmemk).1
            exact ⟨l, Or.inl h1, by rw [h2]; congr 1; omega⟩
        · exact h.pcons.least i hi hne
      · intro i hi
        rcases hmem i hi with rfl | hi
        · rw [List.pairwise_append]
          refine ⟨h.srt _ hmemk, by simp, fun a ha b hb => ?_⟩
          simp only [List.mem_singleton] at hb
          subst hb
          exact ((h.desc _ hmemk).2 a ha).1
        · exact h.srt i hi
      · intro i hi
        rcases hmem i hi with rfl | hi
        · refine ⟨by simp, fun l hl => ?_⟩
          simp only [List.mem_append, List.mem_singleton] at hl
          rcases hl with hl | rfl
          · obtain ⟨h1, h2⟩ := (h.desc _ hmemk).2 l hl
            exact ⟨by omega, h2⟩
          · exact ⟨by omega, o, ho, hrel, fun p => by simp only [htr]; exact hts p⟩
        · obtain ⟨h1, h2⟩ := h.desc i hi
          exact ⟨h1, fun l hl => ⟨by have := (h2 l hl).1; omega, (h2 l hl).2⟩⟩
      · intro l o' hl ho' hr
        refine hhas l o' hl ho' hr _ (fun x hx => ?_) ⟨_, List.mem_set hk _, by simp⟩
        obtain ⟨i, hi, hx⟩ := hx
        obtain ⟨j, hj⟩ := List.getElem?_of_mem hi
        by_cases ej : k = j
        · subst ej
          rw [e] at hj
          simp only [Option.some.injEq] at hj
          subst hj
          exact ⟨_, List.mem_set hk _, by simp [hx]⟩
        · exact ⟨i, List.mem_of_getElem? (i := j) (by simp only [List.getElem?_set, if_neg ej]; exact hj), hx⟩
  | none =>
    rw [hf] at hst
    simp only at hst
    cases hm : setAll (some st.2.length) [n] st.1 with
    | none => rw [hm] at hst; simp at hst
    | some m =>
      rw [hm] at hst
      simp only [Option.some.injEq] at hst
      subst hst
      obtain ⟨s1, s2, s3⟩ := setAll_spec hm
      have hmem : ∀ i : LocalLabel, i ∈ st.2 ++ [⟨[n], ts, o.cost⟩] → i = ⟨[n], ts, o.cost⟩ ∨ i ∈ st.2 := by
        intro i hi
        simp only [List.mem_append, List.mem_singleton] at hi
        exact hi.symm
      refine ⟨⟨?_, ?_, ?_⟩, ?_, ?_, ?_, s1.trans h.len⟩
      · intro k' i l hk' hl
        rw [List.getElem?_append] at hk'
        split at hk'
        · have hi := List.mem_of_getElem? hk'
          simp only
          rw [s3 l (by simp only [List.mem_singleton]; exact fun e' => hfresh _ hi (e' ▸ hl))]
          exact h.pcons.mapped k' _ l hk' hl
        · rename_i hlt
          rw [List.getElem?_singleton] at hk'
          split at hk'
          · rename_i hz
            simp only [Option.some.injEq] at hk'
            subst hk'
            simp only [List.mem_singleton] at hl
            subst hl
            simp only
            rw [s2 l (by simp), show k' = st.2.length by omega]
          · simp at hk'
      · intro i hi l hl
        rcases hmem i hi with rfl | hi
        · simp only [List.mem_singleton] at hl
          subst hl
          exact ⟨_, hcost, Nat.le_refl _⟩
        · exact h.pcons.live i hi l hl
      · intro i hi hne
        rcases hmem i hi with rfl | hi
        · exact ⟨n, by simp, hcost⟩
        · exact h.pcons.least i hi hne
      · intro i hi
        rcases hmem i hi with rfl | hi
        · simp
        · exact h.srt i hi
      · intro i hi
        rcases hmem i hi with rfl | hi
        · refine ⟨by simp, fun l hl => ?_⟩
          simp only [List.mem_singleton] at hl
          subst hl
          exact ⟨by omega, o, ho, hrel, hts⟩
        · obtain ⟨h1, h2⟩ := h.desc i hi
          exact ⟨h1, fun l hl => ⟨by have := (h2 l hl).1; omega, (h2 l hl).2⟩⟩
      · intro l o' hl ho' hr
        refine hhas l o' hl ho' hr _ (fun x hx => ?_) ⟨_, List.mem_append_right _ (List.mem_singleton.mpr rfl), by simp⟩
        obtain ⟨i, hi, hx⟩ := hx
        exact ⟨i, List.mem_append_left _ hi, hx⟩

theorem atomicLoop_inv {t : Task} {v d : Nat} : ∀ {os : List Operator} {n : Nat} {cond : Bool} {st st' : List (Option Nat) × List LocalLabel}, (∀ k : Nat, t.ops[n + k]? = os[k]?) → AInv t v d n st → atomicLoop v d os n cond st = some st' →
    AInv t v d (n + os.length) st'
  | [], n, cond, st, st', _, h, hst => by
    simp only [atomicLoop, Option.some.injEq] at hst
    exact hst ▸ h
  | o :: os, n, cond, st, st', hos, h, hst => by
    have ho : t.ops[n]? = some o := by simpa using hos 0
    have hos' : ∀ k : Nat, t.ops[n + 1 + k]? = os[k]? := fun k => by
      have := hos (k + 1)
      rw [List.getElem?_cons_succ] at this
      rw [← this]
      congr 1
      omega
    have hlen : n + (o :: os).length = n + 1 + os.length := by simp only [List.length_cons]; omega
    rw [hlen]
    simp only [atomicLoop] at hst
    split at hst
    · rename_i hrel
      split at hst
      · simp at hst
      · rename_i st1 h1
        refine atomicLoop_inv hos' (addLabel_inv h ho hrel (fun p => ?_) h1) hst
        split
        · exact mem_sortUniqueTrans
        · exact Iff.rfl
    · rename_i hrel
      refine atomicLoop_inv hos' ⟨h.pcons, h.srt, fun i hi => ⟨(h.desc i hi).1, fun l hl => ⟨by have := ((h.desc i hi).2 l hl).1; omega, ((h.desc i hi).2 l hl).2⟩⟩, fun l o' hl ho' hr => ?_, h.len⟩ hst
      by_cases e : l = n
      · subst e
        rw [ho] at ho'
        simp only [Option.some.injEq] at ho'
        subst ho'
        exact absurd hr hrel
      · exact h.has l o' (by omega) ho' hr

theorem mem_preValues {o : Operator} {v d x : Nat} : x ∈ preValues o v d ↔ match preValue o v with | none => x < d | some y => x = y := by
  unfold preValues
  cases preValue o v <;> simp

theorem preValue_some {o : Operator} {v y : Nat} (h : preValue o v = some y) : ∃ f ∈ o.pre, f.var = v ∧ f.val = y := by
  unfold preValue at h
  simp only [Option.map_eq_some_iff] at h
  obtain ⟨f, h1, h2⟩ := h
  have := List.mem_of_getLast? h1
  simp only [List.mem_filter, beq_iff_eq] at this
  exact ⟨f, this.1, this.2, h2⟩

theorem condValue_some {e : Effect} {y : Nat} (h : condValue e = some y) : ∃ f ∈ e.conds, f.var = e.fact.var ∧ f.val = y := by
  unfold condValue at h
  simp only [Option.map_eq_some_iff] at h
  obtain ⟨f, h1, h2⟩ := h
  have := List.mem_of_getLast? h1
  simp only [List.mem_filter, beq_iff_eq] at this
  exact ⟨f, this.1, this.2, h2⟩

theorem validFact_lt {t : Task} {f : Fact} (h : t.ValidFact f) {d : Variable} (hd : t.vars[f.var]? = some d) : f.val < d.domain := by
  obtain ⟨d', h1, h2⟩ := h
  rw [hd] at h1
  simp only [Option.some.injEq] at h1
  exact h1 ▸ h2

theorem opTransitions_range {t : Task} (hwf : t.WF) {o : Operator} (ho : o ∈ t.ops) {v : Nat} {d : Variable} (hd : t.vars[v]? = some d) {a b : Nat} (h : (a, b) ∈ opTransitions o v d.domain) : a < d.domain ∧ b < d.domain := by
  have hpre : ∀ x, x ∈ preValues o v d.domain → x < d.domain := by
    intro x hx
    rw [mem_preValues] at hx
    cases hp : preValue o v with
    | none => rw [hp] at hx; exact hx
    | some y =>
      rw [hp] at hx
      subst hx
      obtain ⟨f, h1, h2, h3⟩ := preValue_some hp
      subst h2 h3
      exact validFact_lt (hwf.pre o ho f h1) hd
  unfold opTransitions at h
  rw [List.mem_append] at h
  rcases h with h | h
  · simp only [List.mem_flatMap, List.mem_filter, beq_iff_eq] at h
    obtain ⟨e, ⟨he, hv⟩, h⟩ := h
    subst hv
    have heff := validFact_lt (hwf.effFact o ho e he) hd
    unfold effectTransitions at h
    rw [List.mem_append] at h
    rcases h with h | h
    · simp only [List.mem_map, List.mem_filter, Prod.mk.injEq] at h
      obtain ⟨x, ⟨hx, _⟩, rfl, rfl⟩ := h
      exact ⟨hpre _ hx, heff⟩
    · split at h
      · simp at h
      · simp only [List.mem_map, List.mem_filter, Prod.mk.injEq] at h
        obtain ⟨x, ⟨hx, _⟩, rfl, rfl⟩ := h
        exact ⟨hpre _ hx, hpre _ hx⟩
  · split at h
    · simp at h
    · simp only [List.mem_map, List.mem_filter, beq_iff_eq, Prod.mk.injEq] at h
      obtain ⟨f, ⟨hf, rfl⟩, rfl, rfl⟩ := h
      have := validFact_lt (hwf.pre o ho f hf) hd
      exact ⟨this, this⟩

/-- the value of a variable before and after an operator: a transition of the operator -/
theorem opTransitions_mem {t : Task} (hwf : t.WF) {o : Operator} (hsingle : ∀ e ∈ o.effects, (e.conds.map (·.var)).Nodup) {v : Nat} {d : Variable} (hd : t.vars[v]? = some d) {s : State} (hs : t.ValidState s) (ha : o.applicable s)
    {x : Nat} (hx : s[v]? = some x) (hrel : relevant o v = true) : (x, (o.assigned s v).getD x) ∈ opTransitions o v d.domain := by
  have hpre : x ∈ preValues o v d.domain := by
    rw [mem_preValues]
    cases hp : preValue o v with
    | none => exact hs.2 v x d hx hd
    | some y =>
      obtain ⟨f, h1, h2, h3⟩ := preValue_some hp
      have := ha f h1
      unfold Fact.holds at this
      rw [h2, hx, h3] at this
      simpa using this
  unfold opTransitions
  rw [List.mem_append]
  by_cases heff : o.effects.any (fun e => e.fact.var == v) = true
  · left
    simp only [List.mem_flatMap, List.mem_filter, beq_iff_eq]
    cases has : o.assigned s v with
    | some y =>
      unfold Operator.assigned at has
      simp only [Option.map_eq_some_iff] at has
      obtain ⟨e, h1, h2⟩ := has
      have := List.mem_of_getLast? h1
      simp only [List.mem_filter, Bool.and_eq_true, decide_eq_true_eq, beq_iff_eq] at this
      obtain ⟨he, hfire, hv⟩ := this
      refine ⟨e, ⟨he, hv⟩, ?_⟩
      unfold effectTransitions
      rw [List.mem_append]
      left
      simp only [List.mem_map, List.mem_filter, Option.getD_some, Prod.mk.injEq]
      refine ⟨x, ⟨hv.symm ▸ hpre, ?_⟩, rfl, h2⟩
      cases hc : condValue e with
      | none => rfl
      | some z =>
        obtain ⟨f, h3, h4, h5⟩ := condValue_some hc
        have := hfire f h3
        unfold Fact.holds at this
        rw [h4, hv, hx, h5] at this
        simp only [Option.some.injEq] at this
        rw [this]
        simp
    | none =>
      obtain ⟨e, he, hv⟩ := List.any_eq_true.mp heff
      simp only [beq_iff_eq] at hv
      refine ⟨e, ⟨he, hv⟩, ?_⟩
      have hnf : ¬e.fires s := by
        intro hfire
        unfold Operator.assigned at has
        simp only [Option.map_eq_none_iff, List.getLast?_eq_none_iff, List.filter_eq_nil_iff, Bool.and_eq_true, decide_eq_true_eq, beq_iff_eq, not_and] at has
        exact has e he hfire hv
      have hne : e.conds ≠ [] := by
        intro h0
        apply hnf
        intro f hf
        rw [h0] at hf
        simp at hf
      unfold effectTransitions
      rw [List.mem_append]
      right
      rw [if_neg (by simpa [List.isEmpty_iff] using hne)]
      simp only [List.mem_map, List.mem_filter, Option.getD_none, Prod.mk.injEq]
      refine ⟨x, ⟨hv.symm ▸ hpre, ?_⟩, rfl, rfl⟩
      by_contra hc
      simp only [Bool.or_eq_true, bne_iff_ne, ne_eq, not_or, Decidable.not_not, Bool.not_eq_true] at hc
      obtain ⟨hoth, hcv⟩ := hc
      apply hnf
      obtain ⟨f, h3, h4, h5⟩ := condValue_some hcv
      intro g hg
      have hgv : g.var = e.fact.var := by
        unfold hasOther at hoth
        have := List.any_eq_false.mp hoth g hg
        simpa using this
      have hfg : f = g := List.inj_on_of_nodup_map (hsingle e he) h3 hg (by rw [h4, hgv])
      subst hfg
      unfold Fact.holds
      rw [h4, hv, hx, h5]
  · right
    have hnone : o.assigned s v = none := by
      unfold Operator.assigned
      simp only [Option.map_eq_none_iff, List.getLast?_eq_none_iff, List.filter_eq_nil_iff, Bool.and_eq_true, decide_eq_true_eq, beq_iff_eq, not_and]
      intro e he _ hv
      exact heff (List.any_eq_true.mpr ⟨e, he, by simpa using hv⟩)
    rw [if_neg heff, hnone]
    unfold relevant at hrel
    simp only [Bool.or_eq_true] at hrel
    rcases hrel with h | h
    · exact absurd h heff
    · obtain ⟨f, hf, hv⟩ := List.any_eq_true.mp h
      simp only [beq_iff_eq] at hv
      simp only [List.mem_map, List.mem_filter, beq_iff_eq, Option.getD_none, Prod.mk.injEq]
      have := ha f hf
      unfold Fact.holds at this
      rw [hv, hx] at this
      simp only [Option.some.injEq] at this
      exact ⟨f, ⟨hf, hv⟩, this.symm, this.symm⟩

/-- the value of a variable in the successor state -/
theorem succ_value {t : Task} (hwf : t.WF) (hax : t.axioms = []) {o : Operator} {s s' : State} (h : t.SuccRel o s s') {v x : Nat} (hx : s[v]? = some x) : s'[v]? = some ((o.assigned s v).getD x) := by
  obtain ⟨m, h1, h2⟩ := h
  rw [h2.base v (hwf.ax.someAxioms hax v)]
  exact h1.2 v x hx

theorem irrelevant_assigned {o : Operator} {v : Nat} (h : relevant o v = false) (s : State) : o.assigned s v = none := by
  unfold relevant at h
  simp only [Bool.or_eq_false_iff] at h
  unfold Operator.assigned
  simp only [Option.map_eq_none_iff, List.getLast?_eq_none_iff, List.filter_eq_nil_iff, Bool.and_eq_true, decide_eq_true_eq, beq_iff_eq, not_and]
  intro e he _ hv
  have := List.any_eq_false.mp h.1 e he
  simp [hv] at this

theorem mem_irrelevant {t : Task} {v l : Nat} : l ∈ irrelevantLabels t v ↔ ∃ o, t.ops[l]? = some o ∧ relevant o v = false := by
  unfold irrelevantLabels
  rw [List.mem_filter, mem_active, createLabels_cost]
  cases ho : t.ops[l]? with
  | none => simp
  | some o => simp

/-- the atomic transition system: exactly the transitions of the operators -/
theorem atomic_spec {t : Task} (hwf : t.WF) (hcosts : ∀ o ∈ t.ops, o.cost ≤ inf) {v : Nat} {T : TS} (h : atomic t v = some T) :
    ∃ d : Variable, t.vars[v]? = some d ∧ TSOk (createLabels t) T ∧ Srt T.infos ∧ T.size = d.domain ∧ T.init = t.init[v]? ∧ T.goals = atomicGoals t v d.domain ∧
      T.labelTo.length = (createLabels t).maxNum ∧
      ∀ (l a b : Nat), Tr T.infos l a b ↔ ∃ o, t.ops[l]? = some o ∧ ((relevant o v = true ∧ (a, b) ∈ opTransitions o v d.domain) ∨ (relevant o v = false ∧ a = b ∧ a < d.domain)) := by
  have hL : (createLabels t).Ok := by
    intro l c hc
    rw [createLabels_cost] at hc
    simp only [Option.map_eq_some_iff] at hc
    obtain ⟨o, h1, rfl⟩ := hc
    exact hcosts o (List.mem_of_getElem? h1)
  unfold atomic at h
  cases hd : t.vars[v]? with
  | none => rw [hd] at h; simp at h
  | some d =>
    cases hx : t.init[v]? with
    | none => rw [hd, hx] at h; simp at h
    | some x =>
      rw [hd, hx] at h
      simp only at h
      cases hl : atomicLoop v d.domain t.ops 0 false (List.replicate (createLabels t).maxNum none, []) with
      | none => rw [hl] at h; simp at h
      | some st =>
        rw [hl] at h
        simp only at h
        have hinv := atomicLoop_inv (t := t) (v := v) (d := d.domain) (n := 0) (fun k => by simp) ⟨⟨by simp, by simp, by simp⟩, fun i hi => by simp at hi, by simp, by simp, by simp⟩ hl
        simp only [Nat.zero_add] at hinv
        have htr0 : ∀ (l a b : Nat), Tr st.2 l a b ↔ ∃ o, t.ops[l]? = some o ∧ relevant o v = true ∧ (a, b) ∈ opTransitions o v d.domain := by
          intro l a b
          constructor
          · rintro ⟨i, h1, h2, h3⟩
            obtain ⟨_, o, h5, h6, h7⟩ := (hinv.desc i h1).2 l h2
            exact ⟨o, h5, h6, (h7 _).mp h3⟩
          · rintro ⟨o, h1, h2, h3⟩
            obtain ⟨i, h4, h5⟩ := hinv.has l o (op_lt h1) h1 h2
            obtain ⟨_, o', h6, _, h7⟩ := (hinv.desc i h4).2 l h5
            rw [h1] at h6
            simp only [Option.some.injEq] at h6
            subst h6
            exact ⟨i, h4, h5, (h7 _).mpr h3⟩
        have hhas0 : ∀ l, Has st.2 l ↔ ∃ o, t.ops[l]? = some o ∧ relevant o v = true := by
          intro l
          constructor
          · rintro ⟨i, h1, h2⟩
            obtain ⟨_, o, h5, h6, _⟩ := (hinv.desc i h1).2 l h2
            exact ⟨o, h5, h6⟩
          · rintro ⟨o, h1, h2⟩
            exact hinv.has l o (op_lt h1) h1 h2
        have hrange0 : ∀ i ∈ st.2, ∀ p ∈ i.transitions, p.1 < d.domain ∧ p.2 < d.domain := by
          intro i hi p hp
          obtain ⟨hne, hdesc⟩ := hinv.desc i hi
          obtain ⟨l, hl'⟩ := List.exists_mem_of_ne_nil _ hne
          obtain ⟨_, o, h5, _, h7⟩ := hdesc l hl'
          exact opTransitions_range hwf (List.mem_of_getElem? h5) hd ((h7 _).mp hp)
        have hinit : ∀ i, some x = some i → i < (atomicGoals t v d.domain).length := by
          intro i e
          simp only [Option.some.injEq] at e
          subst e
          simp only [atomicGoals, List.length_map, List.length_range]
          exact hwf.init.2 v x d hx hd
        have hsz : (atomicGoals t v d.domain).length = d.domain := by simp [atomicGoals]
        cases hi : addIrrelevant t v d.domain st with
        | none => rw [hi] at h; simp at h
        | some st' =>
          rw [hi] at h
          simp only [Option.some.injEq] at h
          subst h
          unfold addIrrelevant at hi
          split at hi
          · rename_i hemp
            simp only [Option.some.injEq] at hi
            subst hi
            have hno : ∀ (l : Nat) (o : Operator), t.ops[l]? = some o → relevant o v = true := by
              intro l o ho
              by_contra hr
              simp only [Bool.not_eq_true] at hr
              have := mem_irrelevant.mpr ⟨o, ho, hr⟩
              rw [List.isEmpty_iff.mp hemp] at this
              simp at this
            refine ⟨d, rfl, ⟨⟨hinv.pcons, fun l c hc => ?_⟩, hinit, fun i hi' p hp => by simp only [TS.size, hsz]; exact hrange0 i hi' p hp⟩, hinv.srt, hsz, rfl, rfl, hinv.len, fun l a b => ?_⟩
            · rw [createLabels_cost] at hc
              simp only [Option.map_eq_some_iff] at hc
              obtain ⟨o, h1, _⟩ := hc
              exact (hhas0 l).mpr ⟨o, h1, hno l o h1⟩
            · simp only
              rw [htr0]
              constructor
              · rintro ⟨o, h1, h2⟩
                exact ⟨o, h1, Or.inl h2⟩
              · rintro ⟨o, h1, h2 | ⟨h2, _⟩⟩
                · exact ⟨o, h1, h2⟩
                · rw [hno l o h1] at h2
                  simp at h2
          · obtain ⟨m', infos'⟩ := st'
            have hdis : ∀ l ∈ irrelevantLabels t v, ¬Has st.2 l := by
              intro l hl' hh
              obtain ⟨o, h1, h2⟩ := mem_irrelevant.mp hl'
              obtain ⟨o', h3, h4⟩ := (hhas0 l).mp hh
              rw [h1] at h3
              simp only [Option.some.injEq] at h3
              subst h3
              rw [h2] at h4
              simp at h4
            obtain ⟨k1, k2, k3, k4, k5⟩ := addGroup_spec hL hi hinv.pcons hdis
            have hsorted : (irrelevantLabels t v).Pairwise (· < ·) := by
              unfold irrelevantLabels Labels.active
              exact List.Pairwise.filter _ (List.Pairwise.filter _ List.pairwise_lt_range)
            refine ⟨d, rfl, ⟨⟨k1, fun l c hc => ?_⟩, hinit, fun i hi' p hp => ?_⟩, addGroup_srt hi hinv.srt hsorted, hsz, rfl, rfl, k4.trans hinv.len, fun l a b => ?_⟩
            · rw [createLabels_cost] at hc
              simp only [Option.map_eq_some_iff] at hc
              obtain ⟨o, h1, _⟩ := hc
              rw [k3]
              by_cases hr : relevant o v = true
              · exact Or.inl ((hhas0 l).mpr ⟨o, h1, hr⟩)
              · exact Or.inr (mem_irrelevant.mpr ⟨o, h1, by simpa using hr⟩)
            · simp only [TS.size, hsz]
              rcases k5 i hi' with h | h
              · exact hrange0 i h p hp
              · rw [h] at hp
                simp only [List.mem_map, List.mem_range] at hp
                obtain ⟨y, hy, rfl⟩ := hp
                exact ⟨hy, hy⟩
            · simp only
              rw [k2, htr0, mem_irrelevant]
              simp only [List.mem_map, List.mem_range, Prod.mk.injEq]
              constructor
              · rintro (⟨o, h1, h2⟩ | ⟨⟨o, h1, h2⟩, y, hy, rfl, rfl⟩)
                · exact ⟨o, h1, Or.inl h2⟩
                · exact ⟨o, h1, Or.inr ⟨h2, rfl, hy⟩⟩
              · rintro ⟨o, h1, h2 | ⟨h2, rfl, hy⟩⟩
                · exact Or.inl ⟨o, h1, h2⟩
                · exact Or.inr ⟨⟨o, h1, h2⟩, a, hy, rfl, rfl⟩

theorem atomicGoals_mem {t : Task} {v d : Nat} {s : State} (hg : allHold t.goal s) {x : Nat} (hx : s[v]? = some x) (hlt : x < d) : (atomicGoals t v d)[x]? = some true := by
  unfold atomicGoals
  rw [List.getElem?_map, List.getElem?_range hlt]
  simp only [Option.map_some, Option.some.injEq]
  cases hgv : goalValue t v with
  | none => rfl
  | some g =>
    unfold goalValue at hgv
    simp only [Option.map_eq_some_iff] at hgv
    obtain ⟨f, h1, rfl⟩ := hgv
    have h2 := hg f (List.mem_of_find?_eq_some h1)
    have h3 := List.find?_some h1
    simp only [beq_iff_eq] at h3
    unfold Fact.holds at h2
    rw [h3, hx] at h2
    simpa using h2

/-- the atomic factor of a variable -/
theorem atomicFactor_inv {t : Task} (hwf : t.WF) (hax : t.axioms = []) (hcosts : ∀ o ∈ t.ops, o.cost ≤ inf) (hsingle : ∀ o ∈ t.ops, ∀ e ∈ o.effects, (e.conds.map (·.var)).Nodup) {H : StdHeap Nat} {U ci cg : Bool} {v : Nat} {f : Factor} (h : atomicFactor H t ci cg v = some (some f)) :
    FInv t U id (createLabels t) f ∧ f.Flags ci cg := by
  unfold atomicFactor at h
  cases hd : t.vars[v]? with
  | none => rw [hd] at h; simp at h
  | some d =>
    cases hT : atomic t v with
    | none => rw [hd, hT] at h; simp at h
    | some T =>
      rw [hd, hT] at h
      simp only at h
      cases hc : computeBoth H T ci cg with
      | none => rw [hc] at h; simp at h
      | some dist =>
        rw [hc] at h
        simp only [Option.some.injEq] at h
        subst h
        obtain ⟨d', h0, h1, h2, h3, h4, h5, _, h6⟩ := atomic_spec hwf hcosts hT
        rw [hd] at h0
        simp only [Option.some.injEq] at h0
        subst h0
        obtain ⟨k1, k2⟩ := newLeaf_ok hd
        have hval : ∀ s, t.ValidState s → ∃ x, s[v]? = some x ∧ x < d.domain ∧ (Repr.newLeaf v d.domain).value s = some (some x) := by
          intro s hs
          have hv : v < s.length := by rw [hs.1]; exact (List.getElem?_eq_some_iff.mp hd).1
          have e : s[v]? = some s[v] := List.getElem?_eq_getElem hv
          have hlt := hs.2 v _ d e hd
          exact ⟨_, e, hlt, k2 s _ e hlt⟩
        refine ⟨⟨h1, h2, k1, h3.symm, computeBoth_ok h1 hc, ?_, ?_, ?_, ?_⟩, fun hb => ?_⟩
        · intro i o s s' a b hs ho ha hsu hva hvb
          obtain ⟨x, e1, e2, e3⟩ := hval s hs
          obtain ⟨y, e4, e5, e6⟩ := hval s' (succ_valid hwf hs ho ha hsu)
          simp only at hva hvb
          rw [e3] at hva
          rw [e6] at hvb
          simp only [Option.some.injEq] at hva hvb
          subst hva hvb
          rw [succ_value hwf hax hsu e1] at e4
          simp only [Option.some.injEq] at e4
          simp only [id]
          rw [h6]
          refine ⟨o, ho, ?_⟩
          by_cases hr : relevant o v = true
          · left
            refine ⟨hr, ?_⟩
            rw [← e4]
            exact opTransitions_mem hwf (hsingle o (List.mem_of_getElem? ho)) hd hs ha e1 hr
          · right
            simp only [Bool.not_eq_true] at hr
            rw [irrelevant_assigned hr] at e4
            exact ⟨hr, e4, e2⟩
        · intro s a hs hg hv
          obtain ⟨x, e1, e2, e3⟩ := hval s hs
          simp only at hv
          rw [e3] at hv
          simp only [Option.some.injEq] at hv
          subst hv
          simp only [h5]
          exact atomicGoals_mem hg e1 e2
        · obtain ⟨x, e1, e2, e3⟩ := hval t.init hwf.init
          simp only
          rw [e3, h4, e1]
        · intro s hs
          obtain ⟨x, e1, e2, e3⟩ := hval s hs.1
          exact ⟨x, e3⟩
        · simp only [computeBoth, hb, if_neg Bool.false_ne_true, Option.some.injEq] at hc
          subst hc
          exact ⟨rfl, rfl⟩

/-- the initial factored transition system -/
theorem createFts_inv {t : Task} (hwf : t.WF) (hax : t.axioms = []) (hcosts : ∀ o ∈ t.ops, o.cost ≤ inf) (hsingle : ∀ o ∈ t.ops, ∀ e ∈ o.effects, (e.conds.map (·.var)).Nodup) {H : StdHeap Nat} {U ci cg : Bool} {F : FTS} (h : createFts H t ci cg = some F) : FtsInv t U F := by
  unfold createFts at h
  cases hm : mapAll (atomicFactor H t ci cg) (List.range t.vars.length) with
  | none => rw [hm] at h; simp at h
  | some fs =>
    rw [hm] at h
    simp only [Option.some.injEq] at h
    subst h
    refine ⟨id, ⟨fun l c hc => ?_, fun i hi => ?_⟩, fun j f hf => ?_⟩
    · simp only [createLabels_cost, Option.map_eq_some_iff] at hc
      obtain ⟨o, h1, rfl⟩ := hc
      exact hcosts o (List.mem_of_getElem? h1)
    · simp only [createLabels_cost, id, Task.opCost, List.getElem?_eq_getElem hi]
      rfl
    · unfold FTS.factor at hf
      simp only [Option.join_eq_some_iff] at hf
      obtain ⟨v, _, h2⟩ := mapAll_getElem?' hm hf
      exact atomicFactor_inv hwf hax hcosts hsingle h2

end Verif.Mas
