import Verif.Model.StubbornSets
import Verif.Lemmas.StubbornCore

/-
Lemmas about the parts shared by the stubborn set implementations.
-/
namespace Verif.Stubborn
open Verif.Search

/-! ### Sorted facts -/

theorem mem_insertFact {a b : Fact} {l : List Fact} : b ∈ insertFact a l ↔ b = a ∨ b ∈ l := by
  induction l with
  | nil => simp [insertFact]
  | cons c l ih =>
    unfold insertFact
    split
    · simp
    · simp [ih]; tauto

theorem mem_sortFacts {b : Fact} {l : List Fact} : b ∈ sortFacts l ↔ b ∈ l := by
  induction l with
  | nil => simp [sortFacts]
  | cons c l ih => simp [sortFacts, mem_insertFact, ih]

/-- strictly sorted by variable -/
abbrev Sorted (l : List Fact) : Prop := l.Pairwise (fun a b => a.var < b.var)

theorem sorted_insert {a : Fact} {l : List Fact} (h : Sorted l) (ha : ∀ b ∈ l, b.var ≠ a.var) : Sorted (insertFact a l) := by
  induction l with
  | nil => simp [insertFact, Sorted]
  | cons c l ih =>
    have hc : ∀ b ∈ l, c.var < b.var := fun b hb => List.rel_of_pairwise_cons h hb
    have hl := h.of_cons
    have hac := ha c (by simp)
    unfold insertFact
    split
    · rename_i hle
      simp only [factLe, decide_eq_true_eq] at hle
      have : a.var < c.var := by omega
      refine List.pairwise_cons.mpr ⟨?_, h⟩
      intro b hb
      rcases List.mem_cons.mp hb with rfl | hb
      · exact this
      · exact this.trans (hc b hb)
    · rename_i hle
      simp only [factLe, decide_eq_true_eq] at hle
      refine List.pairwise_cons.mpr ⟨?_, ih hl (fun b hb => ha b (by simp [hb]))⟩
      intro b hb
      rcases mem_insertFact.mp hb with rfl | hb
      · omega
      · exact hc b hb

theorem sorted_sort {l : List Fact} (h : (l.map (·.var)).Nodup) : Sorted (sortFacts l) := by
  induction l with
  | nil => simp [sortFacts, Sorted]
  | cons a l ih =>
    simp only [List.map_cons, List.nodup_cons, List.mem_map, not_exists, not_and] at h
    exact sorted_insert (ih h.2) (fun b hb => h.1 b (mem_sortFacts.mp hb))

theorem conflictGo_iff {a : Fact} {as : List Fact} (next : List Fact → Bool) (hs : Sorted (a :: as)) (hn : ∀ l, Sorted l → (next l = true ↔ ∃ x ∈ as, ∃ y ∈ l, x.var = y.var ∧ x.val ≠ y.val)) {l : List Fact} (hl : Sorted l) :
    conflictGo next a l = true ↔ ∃ x ∈ a :: as, ∃ y ∈ l, x.var = y.var ∧ x.val ≠ y.val := by
  have ha := fun x hx => List.rel_of_pairwise_cons hs (a' := x) hx
  induction l with
  | nil => simp [conflictGo]
  | cons b bs ih =>
    have hb := fun y hy => List.rel_of_pairwise_cons hl (a' := y) hy
    unfold conflictGo
    by_cases h1 : a.var < b.var
    · rw [if_pos h1, hn _ hl]
      constructor
      · rintro ⟨x, hx, y, hy, h⟩
        exact ⟨x, by simp [hx], y, hy, h⟩
      · rintro ⟨x, hx, y, hy, h⟩
        rcases List.mem_cons.mp hx with rfl | hx
        · rcases List.mem_cons.mp hy with rfl | hy
          · omega
          · have := hb y hy; omega
        · exact ⟨x, hx, y, hy, h⟩
    · rw [if_neg h1]
      by_cases h2 : a.var > b.var
      · rw [if_pos h2]
        refine (ih hl.of_cons).trans ?_
        constructor
        · rintro ⟨x, hx, y, hy, h⟩
          exact ⟨x, hx, y, by simp [hy], h⟩
        · rintro ⟨x, hx, y, hy, h⟩
          rcases List.mem_cons.mp hy with rfl | hy
          · rcases List.mem_cons.mp hx with rfl | hx
            · omega
            · have := ha x hx; omega
          · exact ⟨x, hx, y, hy, h⟩
      · rw [if_neg h2]
        have hv : a.var = b.var := by omega
        by_cases h3 : a.val ≠ b.val
        · rw [if_pos h3]
          exact ⟨fun _ => ⟨a, by simp, b, by simp, hv, h3⟩, fun _ => rfl⟩
        · rw [if_neg h3, hn _ hl.of_cons]
          constructor
          · rintro ⟨x, hx, y, hy, h⟩
            exact ⟨x, by simp [hx], y, by simp [hy], h⟩
          · rintro ⟨x, hx, y, hy, h, h'⟩
            rcases List.mem_cons.mp hx with rfl | hx
            · rcases List.mem_cons.mp hy with rfl | hy
              · exact absurd h' h3
              · have := hb y hy; omega
            · rcases List.mem_cons.mp hy with rfl | hy
              · have := ha x hx; omega
              · exact ⟨x, hx, y, hy, h, h'⟩

theorem containConflicting_iff {l l' : List Fact} (h : Sorted l) (h' : Sorted l') : containConflicting l l' = true ↔ ∃ x ∈ l, ∃ y ∈ l', x.var = y.var ∧ x.val ≠ y.val := by
  induction l generalizing l' with
  | nil => simp [containConflicting]
  | cons a as ih => exact conflictGo_iff _ h (fun l hl => ih h.of_cons hl) h'

theorem conflictVars_go {a : Fact} (next : List Fact → List Nat) (nextB : List Fact → Bool) (hn : ∀ l, next l ≠ [] ↔ nextB l = true) (l : List Fact) : conflictVarsGo next a l ≠ [] ↔ conflictGo nextB a l = true := by
  induction l with
  | nil => simp [conflictVarsGo, conflictGo]
  | cons b bs ih =>
    unfold conflictVarsGo conflictGo
    split
    · exact hn _
    · split
      · exact ih
      · by_cases h3 : a.val = b.val
        · rw [if_neg (by simp [h3]), if_neg (by simp [h3])]
          exact hn _
        · rw [if_pos (fun h => h3 h.symm), if_pos h3]
          simp

theorem conflictVars_iff (l l' : List Fact) : conflictVars l l' ≠ [] ↔ containConflicting l l' = true := by
  induction l generalizing l' with
  | nil => simp [conflictVars, containConflicting]
  | cons a as ih => exact conflictVars_go _ _ ih l'

theorem conflictVars_mem {l l' : List Fact} {v : Nat} (h : v ∈ conflictVars l l') : ∃ f ∈ l', f.var = v := by
  induction l generalizing l' with
  | nil => simp [conflictVars] at h
  | cons a as ih =>
    simp only [conflictVars] at h
    induction l' with
    | nil => simp [conflictVarsGo] at h
    | cons b bs ihb =>
      unfold conflictVarsGo at h
      split at h
      · exact ih h
      · split at h
        · obtain ⟨f, hf, hv⟩ := ihb h
          exact ⟨f, by simp [hf], hv⟩
        · split at h
          · rcases List.mem_cons.mp h with rfl | h
            · exact ⟨b, by simp, rfl⟩
            · obtain ⟨f, hf, hv⟩ := ih h
              exact ⟨f, by simp [hf], hv⟩
          · obtain ⟨f, hf, hv⟩ := ih h
            exact ⟨f, by simp [hf], hv⟩

/-! ### Operators -/

theorem mem_pre {t : Task} {i : Nat} {o : Operator} (ho : t.ops[i]? = some o) {f : Fact} : f ∈ pre t i ↔ f ∈ o.pre := by
  simp [pre, ho, mem_sortFacts]

theorem mem_eff {t : Task} {i : Nat} {o : Operator} (ho : t.ops[i]? = some o) {f : Fact} : f ∈ eff t i ↔ ∃ e ∈ o.effects, e.fact = f := by
  simp [eff, ho, mem_sortFacts]

theorem sorted_pre {t : Task} (ht : StubbornTask t) (i : Nat) : Sorted (pre t i) := by
  unfold pre
  cases ho : t.ops[i]? with
  | none => simp [sortFacts, Sorted]
  | some o => exact sorted_sort (ht.pre o (List.mem_of_getElem? ho))

theorem sorted_eff {t : Task} (ht : StubbornTask t) (i : Nat) : Sorted (eff t i) := by
  unfold eff
  cases ho : t.ops[i]? with
  | none => simp [sortFacts, Sorted]
  | some o =>
    refine sorted_sort ?_
    have := ht.eff o (List.mem_of_getElem? ho)
    simpa [List.map_map, Function.comp_def] using this

theorem canDisable_iff {t : Task} (ht : StubbornTask t) {i j : Nat} {o o' : Operator} (ho : t.ops[i]? = some o) (ho' : t.ops[j]? = some o') : canDisable t i j = true ↔ o.Disables o' := by
  unfold canDisable Operator.Disables
  rw [containConflicting_iff (sorted_eff ht i) (sorted_pre ht j)]
  constructor
  · rintro ⟨x, hx, y, hy, h⟩
    obtain ⟨e, he, rfl⟩ := (mem_eff ho).mp hx
    exact ⟨e, he, y, (mem_pre ho').mp hy, h⟩
  · rintro ⟨e, he, y, hy, h⟩
    exact ⟨e.fact, (mem_eff ho).mpr ⟨e, he, rfl⟩, y, (mem_pre ho').mpr hy, h⟩

theorem canConflict_iff {t : Task} (ht : StubbornTask t) {i j : Nat} {o o' : Operator} (ho : t.ops[i]? = some o) (ho' : t.ops[j]? = some o') : canConflict t i j = true ↔ o.Conflicts o' := by
  unfold canConflict Operator.Conflicts
  rw [containConflicting_iff (sorted_eff ht i) (sorted_eff ht j)]
  constructor
  · rintro ⟨x, hx, y, hy, h⟩
    obtain ⟨e, he, rfl⟩ := (mem_eff ho).mp hx
    obtain ⟨e', he', rfl⟩ := (mem_eff ho').mp hy
    exact ⟨e, he, e', he', h⟩
  · rintro ⟨e, he, e', he', h⟩
    exact ⟨e.fact, (mem_eff ho).mpr ⟨e, he, rfl⟩, e'.fact, (mem_eff ho').mpr ⟨e', he', rfl⟩, h⟩

theorem mem_achieversFrom {f : Fact} {i k : Nat} {os : List Operator} : i ∈ achieversFrom f k os ↔ ∃ o : Operator, k ≤ i ∧ os[i - k]? = some o ∧ o.Achieves f := by
  induction os generalizing k with
  | nil => simp [achieversFrom]
  | cons o os ih =>
    simp only [achieversFrom, List.mem_append, List.mem_map, List.mem_filter, decide_eq_true_eq, ih]
    constructor
    · rintro (⟨e, ⟨he, hf⟩, rfl⟩ | ⟨o', hk, h1, h2⟩)
      · exact ⟨o, Nat.le_refl _, by simp, e, he, hf⟩
      · refine ⟨o', by omega, ?_, h2⟩
        have : i - k = (i - (k + 1)) + 1 := by omega
        rw [this]; simpa using h1
    · rintro ⟨o', hk, h1, h2⟩
      by_cases hik : i = k
      · subst hik
        simp at h1
        subst h1
        obtain ⟨e, he, hf⟩ := h2
        exact Or.inl ⟨e, ⟨he, hf⟩, rfl⟩
      · right
        refine ⟨o', by omega, ?_, h2⟩
        have : i - k = (i - (k + 1)) + 1 := by omega
        rw [this] at h1; simpa using h1

theorem mem_achievers {t : Task} {f : Fact} {i : Nat} : i ∈ achievers t f ↔ ∃ o : Operator, t.ops[i]? = some o ∧ o.Achieves f := by
  simp [achievers, mem_achieversFrom]

theorem mem_consumersFrom {f : Fact} {i k : Nat} {os : List Operator} : i ∈ consumersFrom f k os ↔ ∃ o : Operator, k ≤ i ∧ os[i - k]? = some o ∧ f ∈ o.pre := by
  induction os generalizing k with
  | nil => simp [consumersFrom]
  | cons o os ih =>
    simp only [consumersFrom, List.mem_append, List.mem_map, List.mem_filter, decide_eq_true_eq, ih]
    constructor
    · rintro (⟨e, ⟨he, rfl⟩, rfl⟩ | ⟨o', hk, h1, h2⟩)
      · exact ⟨o, Nat.le_refl _, by simp, he⟩
      · refine ⟨o', by omega, ?_, h2⟩
        have : i - k = (i - (k + 1)) + 1 := by omega
        rw [this]; simpa using h1
    · rintro ⟨o', hk, h1, h2⟩
      by_cases hik : i = k
      · subst hik
        simp at h1
        subst h1
        exact Or.inl ⟨f, ⟨h2, rfl⟩, rfl⟩
      · right
        refine ⟨o', by omega, ?_, h2⟩
        have : i - k = (i - (k + 1)) + 1 := by omega
        rw [this] at h1; simpa using h1

theorem mem_consumers {t : Task} {f : Fact} {i : Nat} : i ∈ consumers t f ↔ ∃ o : Operator, t.ops[i]? = some o ∧ f ∈ o.pre := by
  simp [consumers, mem_consumersFrom]

theorem lt_of_op {t : Task} {i : Nat} {o : Operator} (h : t.ops[i]? = some o) : i < t.ops.length := (List.getElem?_eq_some_iff.mp h).1

/-! ### Unsatisfied conditions -/

theorem valid_lt {t : Task} {s : State} (hs : t.ValidState s) {f : Fact} (hf : t.ValidFact f) : ∃ x, s[f.var]? = some x := by
  obtain ⟨d, hd, _⟩ := hf
  have : f.var < s.length := by rw [hs.1]; exact (List.getElem?_eq_some_iff.mp hd).1
  exact ⟨s[f.var], by simp [this]⟩

theorem findUnsatisfied_none {s : State} {fs : List Fact} (h : findUnsatisfied s fs = some none) : allHold fs s := by
  induction fs with
  | nil => intro f hf; simp at hf
  | cons f fs ih =>
    unfold findUnsatisfied at h
    split at h
    · simp at h
    · rename_i x hx
      split at h
      · simp at h
      · rename_i hne
        intro g hg
        rcases List.mem_cons.mp hg with rfl | hg
        · have : x = g.val := by simpa using hne
          unfold Fact.holds; rw [← this]; exact hx
        · exact ih h g hg

theorem findUnsatisfied_some {s : State} {fs : List Fact} {f : Fact} (h : findUnsatisfied s fs = some (some f)) : f ∈ fs ∧ ¬ f.holds s := by
  induction fs with
  | nil => simp [findUnsatisfied] at h
  | cons g fs ih =>
    unfold findUnsatisfied at h
    split at h
    · simp at h
    · rename_i x hx
      split at h
      · rename_i hne
        simp only [Option.some.injEq] at h
        subst h
        refine ⟨by simp, ?_⟩
        unfold Fact.holds
        rw [hx]
        simpa using hne
      · obtain ⟨h1, h2⟩ := ih h
        exact ⟨by simp [h1], h2⟩

theorem findUnsatisfied_defined {t : Task} {s : State} (hs : t.ValidState s) {fs : List Fact} (h : ∀ f ∈ fs, t.ValidFact f) : ∃ r, findUnsatisfied s fs = some r := by
  induction fs with
  | nil => exact ⟨none, rfl⟩
  | cons f fs ih =>
    obtain ⟨x, hx⟩ := valid_lt hs (h f (by simp))
    obtain ⟨r, hr⟩ := ih (fun g hg => h g (by simp [hg]))
    unfold findUnsatisfied
    rw [hx]
    by_cases hne : x ≠ f.val
    · exact ⟨some f, by simp [hne]⟩
    · exact ⟨r, by simpa [hne] using hr⟩

theorem findUnsatisfied_exists {t : Task} {s : State} (hs : t.ValidState s) {fs : List Fact} (h : ∀ f ∈ fs, t.ValidFact f) (hn : ¬ allHold fs s) : ∃ f, findUnsatisfied s fs = some (some f) := by
  obtain ⟨r, hr⟩ := findUnsatisfied_defined hs h
  cases r with
  | none => exact absurd (findUnsatisfied_none hr) hn
  | some f => exact ⟨f, hr⟩

theorem pre_valid {t : Task} (hwf : t.WF) {i : Nat} {f : Fact} (h : f ∈ pre t i) : t.ValidFact f := by
  unfold pre at h
  cases ho : t.ops[i]? with
  | none => simp [ho, sortFacts] at h
  | some o =>
    rw [ho] at h
    exact hwf.pre o (List.mem_of_getElem? ho) f (mem_sortFacts.mp h)

theorem eff_valid {t : Task} (hwf : t.WF) {i : Nat} {f : Fact} (h : f ∈ eff t i) : t.ValidFact f := by
  cases ho : t.ops[i]? with
  | none => simp [eff, ho, sortFacts] at h
  | some o =>
    obtain ⟨e, he, rfl⟩ := (mem_eff ho).mp h
    exact hwf.effFact o (List.mem_of_getElem? ho) e he

/-! ### The loop -/

theorem loop_spec {W α : Type} {pop : W → Option (α × W)} {handle : W → α → Option W} {Inv : W → Prop}
    (hstep : ∀ w a w' w'', Inv w → pop w = some (a, w') → handle w' a = some w'' → Inv w'') {w w' : W} (h : loop pop handle w = some w') (hw : Inv w) : Inv w' ∧ pop w' = none := by
  refine loop.partial_correctness pop handle (fun w w' => Inv w → Inv w' ∧ pop w' = none) ?_ w w' h hw
  intro rec ih w w' h hw
  split at h
  · rename_i hp
    simp only [Option.some.injEq] at h
    subst h
    exact ⟨hw, hp⟩
  · rename_i a w1 hp
    split at h
    · simp at h
    · rename_i w2 hh
      exact ih _ _ h (hstep w a w1 w2 hw hp hh)

theorem loop_defined {W α : Type} {pop : W → Option (α × W)} {handle : W → α → Option W} {Inv : W → Prop} (μ : W → Nat)
    (hstep : ∀ w a w', Inv w → pop w = some (a, w') → ∃ w'', handle w' a = some w'' ∧ Inv w'' ∧ μ w'' < μ w) {w : W} (hw : Inv w) : ∃ w', loop pop handle w = some w' := by
  generalize hn : μ w = n
  induction n using Nat.strongRecOn generalizing w with
  | _ n ih =>
    rw [loop]
    cases hp : pop w with
    | none => exact ⟨w, rfl⟩
    | some x =>
      obtain ⟨a, w1⟩ := x
      obtain ⟨w2, h1, h2, h3⟩ := hstep w a w1 hw hp
      simp only [h1]
      exact ih (μ w2) (by omega) h2 rfl

/-! ### Counting marks -/

/-- number of operators without a mark -/
def unmarked (n : Nat) (m : Nat → Bool) : Nat := ((List.range n).filter (fun i => !m i)).length

theorem filter_mark {α : Type} [DecidableEq α] {l : List α} (hl : l.Nodup) {m : α → Bool} {a : α} (ha : a ∈ l) (hm : m a = false) :
    (l.filter (fun i => !mark m a i)).length + 1 = (l.filter (fun i => !m i)).length := by
  induction l with
  | nil => simp at ha
  | cons b l ih =>
    have hnd := List.nodup_cons.mp hl
    by_cases hb : b = a
    · subst hb
      have hrest : l.filter (fun i => !mark m b i) = l.filter (fun i => !m i) := by
        refine List.filter_congr ?_
        intro x hx
        have : x ≠ b := fun h => hnd.1 (h ▸ hx)
        simp [mark, this]
      have h1 : mark m b b = true := by simp [mark]
      simp only [List.filter_cons, h1, hm, hrest]
      simp
    · have ha' : a ∈ l := by
        rcases List.mem_cons.mp ha with h | h
        · exact absurd h.symm hb
        · exact h
      have := ih hnd.2 ha'
      have hmb : mark m a b = m b := by simp [mark, hb]
      simp only [List.filter_cons, hmb]
      split
      · simp only [List.length_cons]; omega
      · exact this

theorem unmarked_mark {n : Nat} {m : Nat → Bool} {i : Nat} (hi : i < n) (hm : m i = false) : unmarked n (mark m i) + 1 = unmarked n m :=
  filter_mark List.nodup_range (by simpa using hi) hm

end Verif.Stubborn
