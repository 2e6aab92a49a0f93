import Verif.Lemmas.BuildRules

/-
Lemmas about the unifier of the exploration, and about the assertions.
-/
namespace Verif.BuildModel
open Verif.Datalog

section
variable {O R : Type} [DecidableEq O]

/-- the given positions have the given objects -/
def Fits (cs : List (Nat × O)) (args : List O) : Prop := ∀ p ∈ cs, args[p.1]? = some p.2

theorem fits_nil (args : List O) : Fits [] args := by
  intro p hp
  simp at hp

theorem fits_cons {i : Nat} {a : O} {cs : List (Nat × O)} {args : List O} : Fits ((i, a) :: cs) args ↔ args[i]? = some a ∧ Fits cs args := by
  unfold Fits
  simp

theorem chain_spec {args : List O} {v : R} : ∀ {cs : List (Nat × O)}, (∀ p ∈ cs, p.1 < args.length) → ∃ l, generate (chain cs v) args = some l ∧ ∀ x, x ∈ l ↔ x = v ∧ Fits cs args
  | [], _ => ⟨[v], by rw [chain, generate], fun x => by simp [fits_nil]⟩
  | (i, a) :: cs, h => by
    obtain ⟨l, h1, h2⟩ := chain_spec (cs := cs) (v := v) (fun p hp => h p (by simp [hp]))
    have hi : i < args.length := h (i, a) (by simp)
    rw [chain, generate, List.getElem?_eq_getElem hi]
    simp only [generateIn, generate]
    by_cases ha : a = args[i]
    · rw [if_pos ha, h1]
      refine ⟨l, by simp, fun x => ?_⟩
      rw [h2, fits_cons, List.getElem?_eq_getElem hi, ha]
      simp
    · rw [if_neg ha]
      refine ⟨[], by simp, fun x => ?_⟩
      rw [fits_cons, List.getElem?_eq_getElem hi, Option.some.injEq]
      simp [Ne.symm ha]

theorem leafInsert_spec {args : List O} {v : R} {ms : List R} {cs : List (Nat × O)} (h : ∀ p ∈ cs, p.1 < args.length) : ∃ l, generate (leafInsert ms cs v) args = some l ∧ ∀ x, x ∈ l ↔ x ∈ ms ∨ x = v ∧ Fits cs args := by
  match cs, h with
  | [], _ => exact ⟨ms ++ [v], by rw [leafInsert, generate], fun x => by simp [fits_nil]⟩
  | (i, a) :: cs, h =>
    obtain ⟨l, h1, h2⟩ := chain_spec (cs := cs) (v := v) (args := args) (fun p hp => h p (by simp [hp]))
    have hi : i < args.length := h (i, a) (by simp)
    rw [leafInsert, generate, List.getElem?_eq_getElem hi]
    simp only [generateIn, generate]
    by_cases ha : a = args[i]
    · rw [if_pos ha, h1]
      refine ⟨ms ++ l, by simp, fun x => ?_⟩
      rw [List.mem_append, h2, fits_cons, List.getElem?_eq_getElem hi, ha]
      simp
    · rw [if_neg ha]
      refine ⟨ms, by simp, fun x => ?_⟩
      rw [fits_cons, List.getElem?_eq_getElem hi, Option.some.injEq]
      simp [Ne.symm ha]

mutual
theorem insert_spec {args : List O} {v : R} : ∀ (g : Gen O R) {cs : List (Nat × O)} {l : List R}, (∀ p ∈ cs, p.1 < args.length) → generate g args = some l →
    ∃ l', generate (insert g cs v) args = some l' ∧ ∀ x, x ∈ l' ↔ x ∈ l ∨ x = v ∧ Fits cs args
  | .leaf ms, cs, l, h, hg => by
    rw [generate, Option.some.injEq] at hg
    subst hg
    rw [insert]
    exact leafInsert_spec h
  | .node i ms br next, [], l, h, hg => by
    rw [generate] at hg
    rw [insert, generate]
    cases hi : args[i]? with
    | none => rw [hi] at hg; simp at hg
    | some o =>
      rw [hi] at hg
      simp only at hg ⊢
      cases h1 : generateIn br o args with
      | none => rw [h1] at hg; simp at hg
      | some l1 =>
        cases h2 : generate next args with
        | none => rw [h1, h2] at hg; simp at hg
        | some l2 =>
          rw [h1, h2] at hg
          simp only [Option.some.injEq] at hg
          subst hg
          refine ⟨_, rfl, fun x => ?_⟩
          simp only [List.mem_append, List.mem_singleton, fits_nil, and_true]
          tauto
  | .node i ms br next, (j, a) :: cs, l, h, hg => by
    have hj : j < args.length := h (j, a) (by simp)
    have hcs : ∀ p ∈ cs, p.1 < args.length := fun p hp => h p (by simp [hp])
    have hg0 := hg
    rw [generate] at hg
    rw [insert]
    cases hi : args[i]? with
    | none => rw [hi] at hg; simp at hg
    | some o =>
      rw [hi] at hg
      simp only at hg
      cases h1 : generateIn br o args with
      | none => rw [h1] at hg; simp at hg
      | some l1 =>
        cases h2 : generate next args with
        | none => rw [h1, h2] at hg; simp at hg
        | some l2 =>
          rw [h1, h2] at hg
          simp only [Option.some.injEq] at hg
          split
          · obtain ⟨l', h3, h4⟩ := insert_spec next h h2
            rw [generate, hi]
            simp only []
            rw [h1, h3]
            refine ⟨_, rfl, fun x => ?_⟩
            subst hg
            simp only [List.mem_append, h4]
            tauto
          · split
            · obtain ⟨l', h3, h4⟩ := leafInsert_spec (ms := []) (v := v) hcs
              rw [generate, List.getElem?_eq_getElem hj]
              simp only [generateIn, hg0]
              by_cases ha : a = args[j]
              · rw [if_pos ha, h3]
                refine ⟨_, rfl, fun x => ?_⟩
                rw [fits_cons, List.getElem?_eq_getElem hj, ha]
                simp only [List.mem_append, h4, List.not_mem_nil, false_or, true_and]
                tauto
              · rw [if_neg ha]
                refine ⟨_, rfl, fun x => ?_⟩
                rw [fits_cons, List.getElem?_eq_getElem hj, Option.some.injEq]
                simp [Ne.symm ha]
            · have hij : i = j := by omega
              subst hij
              obtain ⟨l', h3, h4⟩ := insertIn_spec br (a := a) hcs h1
              rw [generate, hi]
              simp only []
              rw [h3, h2]
              refine ⟨_, rfl, fun x => ?_⟩
              subst hg
              rw [fits_cons, hi, Option.some.injEq]
              simp only [List.mem_append, h4]
              tauto
theorem insertIn_spec {args : List O} {v : R} {a : O} : ∀ (br : Branches O R) {cs : List (Nat × O)} {o : O} {l : List R}, (∀ p ∈ cs, p.1 < args.length) → generateIn br o args = some l →
    ∃ l', generateIn (insertIn br a cs v) o args = some l' ∧ ∀ x, x ∈ l' ↔ x ∈ l ∨ x = v ∧ o = a ∧ Fits cs args
  | .nil, cs, o, l, h, hg => by
    rw [generateIn, Option.some.injEq] at hg
    subst hg
    rw [insertIn, generateIn]
    by_cases ha : a = o
    · rw [if_pos ha]
      obtain ⟨l', h3, h4⟩ := leafInsert_spec (ms := []) (v := v) h
      refine ⟨l', h3, fun x => ?_⟩
      rw [h4]
      simp [ha]
    · rw [if_neg ha, generateIn]
      exact ⟨[], rfl, fun x => by simp [Ne.symm ha]⟩
  | .cons b g more, cs, o, l, h, hg => by
    rw [generateIn] at hg
    rw [insertIn]
    by_cases hba : b = a
    · rw [if_pos hba, generateIn]
      by_cases hbo : b = o
      · rw [if_pos hbo] at hg ⊢
        obtain ⟨l', h3, h4⟩ := insert_spec (v := v) g h hg
        refine ⟨l', h3, fun x => ?_⟩
        rw [h4, ← hba, hbo]
        simp
      · rw [if_neg hbo] at hg ⊢
        refine ⟨l, hg, fun x => ?_⟩
        rw [← hba]
        simp [Ne.symm hbo]
    · rw [if_neg hba, generateIn]
      by_cases hbo : b = o
      · rw [if_pos hbo] at hg ⊢
        refine ⟨l, hg, fun x => ?_⟩
        rw [← hbo]
        simp [hba]
      · rw [if_neg hbo] at hg ⊢
        exact insertIn_spec more h hg
end
end

variable {P V O : Type} [DecidableEq P] [DecidableEq V] [DecidableEq O]

theorem foldl_spec {args : List O} : ∀ (cs : List (CAtom P V O × (Nat × Nat))) {g : Gen O (Nat × Nat)} {l : List (Nat × Nat)}, (∀ x ∈ cs, ∀ p ∈ constants x.1, p.1 < args.length) → generate g args = some l →
    ∃ l', generate (cs.foldl (fun g x => insert g (constants x.1) x.2) g) args = some l' ∧ ∀ y, y ∈ l' ↔ y ∈ l ∨ ∃ x ∈ cs, x.2 = y ∧ Fits (constants x.1) args
  | [], g, l, _, hg => ⟨l, hg, fun y => by simp⟩
  | x :: cs, g, l, h, hg => by
    obtain ⟨l1, h1, h2⟩ := insert_spec (v := x.2) g (h x (by simp)) hg
    obtain ⟨l2, h3, h4⟩ := foldl_spec cs (fun x hx => h x (by simp [hx])) h1
    refine ⟨l2, h3, fun y => ?_⟩
    rw [h4, h2]
    constructor
    · rintro ((h5 | ⟨rfl, h5⟩) | ⟨z, hz, h5⟩)
      · exact .inl h5
      · exact .inr ⟨x, by simp, rfl, h5⟩
      · exact .inr ⟨z, by simp [hz], h5⟩
    · rintro (h5 | ⟨z, hz, h5, h6⟩)
      · exact .inl (.inl h5)
      · rcases List.mem_cons.mp hz with rfl | hz
        · exact .inl (.inr ⟨h5.symm, h6⟩)
        · exact .inr ⟨z, hz, h5, h6⟩

theorem mem_constants {e c : SymAtom P V O} {p : Nat × O} : p ∈ constants (conv e c) ↔ c.args[p.1]? = some (.const p.2) := by
  unfold constants
  rw [List.mem_filterMap]
  constructor
  · rintro ⟨⟨x, n⟩, hx, h⟩
    rw [List.mem_zipIdx_iff_getElem?] at hx
    simp only [conv, List.getElem?_map, Option.map_eq_some_iff] at hx
    obtain ⟨t, ht, rfl⟩ := hx
    cases t with
    | const o =>
      simp only [convertArg, Option.some.injEq] at h
      subst h
      exact ht
    | var v =>
      simp only [convertArg] at h
      split at h
      · rename_i h'
        split at h' <;> simp at h'
      · simp at h
  · intro h
    refine ⟨(.const p.2, p.1), ?_, rfl⟩
    rw [List.mem_zipIdx_iff_getElem?]
    simp only [conv, List.getElem?_map, h]
    rfl

theorem fits_iff [Nonempty O] {e c : SymAtom P V O} (hc : c.vars.Nodup) {a : GAtom P O} (hp : c.pred = a.pred) (hl : c.args.length = a.args.length) : Fits (constants (conv e c)) a.args ↔ ∃ τ : V → O, c.inst τ = a := by
  classical
  constructor
  · intro h
    refine ⟨fun v => if hv : ∃ o, ∃ n : Nat, c.args[n]? = some (.var v) ∧ a.args[n]? = some o then hv.choose else Classical.arbitrary O, ?_⟩
    obtain ⟨ap, aargs⟩ := a
    simp only at hp hl h ⊢
    unfold SymAtom.inst
    rw [hp]
    congr 1
    refine List.ext_getElem? fun n => ?_
    rw [List.getElem?_map]
    cases hn : c.args[n]? with
    | none =>
      rw [Option.map_none]
      rw [List.getElem?_eq_none_iff] at hn
      rw [eq_comm, List.getElem?_eq_none_iff]
      omega
    | some t =>
      have hlt := (List.getElem?_eq_some_iff.mp hn).1
      rw [Option.map_some]
      cases t with
      | const o => exact (h (n, o) (mem_constants.mpr hn)).symm
      | var v =>
        rw [hl] at hlt
        have hv : ∃ o, ∃ n : Nat, c.args[n]? = some (.var v) ∧ aargs[n]? = some o := ⟨aargs[n], n, hn, List.getElem?_eq_getElem hlt⟩
        simp only [Term.value]
        rw [dif_pos hv]
        obtain ⟨n', h1, h2⟩ := hv.choose_spec
        rw [var_unique hc hn h1]
        exact h2.symm
  · rintro ⟨τ, rfl⟩ p hp
    have := mem_constants.mp hp
    simp only [SymAtom.inst, List.getElem?_map, this]
    rfl

theorem mem_allConditions {rules : List (Datalog.Rule P V O)} {x : CAtom P V O × (Nat × Nat)} : x ∈ allConditions (rules.map convert) ↔ ∃ r c, rules[x.2.1]? = some r ∧ r.conditions[x.2.2]? = some c ∧ x.1 = conv r.effect c := by
  obtain ⟨x1, i, j⟩ := x
  unfold allConditions
  rw [List.mem_flatMap]
  constructor
  · rintro ⟨⟨r', i'⟩, hr, hx⟩
    rw [List.mem_zipIdx_iff_getElem?] at hr
    simp only [List.getElem?_map, Option.map_eq_some_iff] at hr
    obtain ⟨r, hr, rfl⟩ := hr
    obtain ⟨⟨c', j'⟩, hc, h⟩ := List.mem_map.mp hx
    rw [List.mem_zipIdx_iff_getElem?] at hc
    simp only [convert_conditions, List.getElem?_map, Option.map_eq_some_iff] at hc
    obtain ⟨c, hc, rfl⟩ := hc
    simp only [Prod.mk.injEq] at h
    obtain ⟨rfl, rfl, rfl⟩ := h
    exact ⟨r, c, hr, hc, rfl⟩
  · rintro ⟨r, c, hr, hc, rfl⟩
    simp only at hr hc
    refine ⟨(convert r, i), ?_, List.mem_map.mpr ⟨(conv r.effect c, j), ?_, rfl⟩⟩
    · rw [List.mem_zipIdx_iff_getElem?]
      simp [hr]
    · rw [List.mem_zipIdx_iff_getElem?]
      simp [convert_conditions, hc]

theorem unify_spec [Nonempty O] {ar : P → Nat} {facts : List (GAtom P O)} {rules : List (Datalog.Rule P V O)} (har : Arity ar facts rules) (hn : ∀ r ∈ rules, r.Normal) {a : GAtom P O} (ha : a.args.length = ar a.pred) :
    ∃ ms, unify (rules.map convert) a = some ms ∧ ∀ (i j : Nat), (i, j) ∈ ms ↔ ∃ r c, rules[i]? = some r ∧ r.conditions[j]? = some c ∧ ∃ τ : V → O, c.inst τ = a := by
  have hlen : ∀ (i j : Nat) r c, rules[i]? = some r → r.conditions[j]? = some c → c.args.length = ar c.pred := fun i j r c hr hc => (har.2 r (List.mem_of_getElem? hr)).2 c (List.mem_of_getElem? hc)
  obtain ⟨ms, h1, h2⟩ := foldl_spec (args := a.args) ((allConditions (rules.map convert)).filter (fun x => x.1.pred == a.pred)) (g := .leaf []) (l := []) (by
    intro x hx p hp
    obtain ⟨hx1, hx2⟩ := List.mem_filter.mp hx
    obtain ⟨r, c, hr, hc, he⟩ := mem_allConditions.mp hx1
    rw [he] at hp hx2
    rw [beq_iff_eq] at hx2
    have := (List.getElem?_eq_some_iff.mp (mem_constants.mp hp)).1
    rw [hlen _ _ r c hr hc, show c.pred = a.pred from hx2] at this
    rw [ha]
    exact this) (by rw [generate])
  refine ⟨ms, h1, fun i j => ?_⟩
  rw [h2]
  constructor
  · rintro (h | ⟨x, hx, h3, h4⟩)
    · simp at h
    · obtain ⟨hx1, hx2⟩ := List.mem_filter.mp hx
      obtain ⟨r, c, hr, hc, he⟩ := mem_allConditions.mp hx1
      rw [h3] at hr hc
      rw [he] at hx2 h4
      rw [beq_iff_eq] at hx2
      have hp : c.pred = a.pred := hx2
      exact ⟨r, c, hr, hc, (fits_iff ((hn r (List.mem_of_getElem? hr)).conditions c (List.mem_of_getElem? hc)) hp (by rw [hlen _ _ r c hr hc, ha, hp])).mp h4⟩
  · rintro ⟨r, c, hr, hc, τ, hτ⟩
    have hp : c.pred = a.pred := by rw [← hτ]; rfl
    refine .inr ⟨(conv r.effect c, (i, j)), List.mem_filter.mpr ⟨mem_allConditions.mpr ⟨r, c, hr, hc, rfl⟩, ?_⟩, rfl, ?_⟩
    · rw [beq_iff_eq]
      exact hp
    · exact (fits_iff ((hn r (List.mem_of_getElem? hr)).conditions c (List.mem_of_getElem? hc)) hp (by rw [hlen _ _ r c hr hc, ha, hp])).mpr ⟨τ, hτ⟩

end Verif.BuildModel
