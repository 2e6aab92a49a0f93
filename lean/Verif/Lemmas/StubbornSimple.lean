import Verif.Lemmas.StubbornBasic

/-
Simple stubborn sets.
-/
namespace Verif.Stubborn
open Verif.Search

/-- `w'` results from `w` by marking operators and adding them to the queue -/
structure Work.Grow (n : Nat) (w w' : Work) : Prop where
  mono : ∀ i, w.stubborn i = true → w'.stubborn i = true
  new : ∀ i, w'.stubborn i = true → w.stubborn i = true ∨ i ∈ w'.queue
  queue : ∀ i ∈ w.queue, i ∈ w'.queue
  measure : 2 * unmarked n w'.stubborn + w'.queue.length ≤ 2 * unmarked n w.stubborn + w.queue.length

theorem Work.Grow.refl {n : Nat} (w : Work) : Work.Grow n w w := ⟨fun _ h => h, fun _ h => Or.inl h, fun _ h => h, Nat.le_refl _⟩

theorem Work.Grow.trans {n : Nat} {w w' w'' : Work} (h : Work.Grow n w w') (h' : Work.Grow n w' w'') : Work.Grow n w w'' where
  mono i hi := h'.mono i (h.mono i hi)
  new i hi := by
    rcases h'.new i hi with h1 | h1
    · exact (h.new i h1).imp id (h'.queue i)
    · exact Or.inr h1
  queue i hi := h'.queue i (h.queue i hi)
  measure := h'.measure.trans h.measure

theorem Work.enqueue_grow {n : Nat} {w : Work} {i : Nat} (hi : i < n) : Work.Grow n w (w.enqueue i) ∧ (w.enqueue i).stubborn i = true := by
  unfold Work.enqueue
  cases h : w.stubborn i with
  | true => exact ⟨by simpa [h] using Work.Grow.refl w, by simpa using h⟩
  | false =>
    have hm := unmarked_mark hi h
    refine ⟨⟨?_, ?_, ?_, ?_⟩, by simp [mark]⟩
    · intro j hj
      simp only [Bool.false_eq_true, if_false, mark]
      split
      · rfl
      · exact hj
    · intro j hj
      simp only [Bool.false_eq_true, if_false, mark] at hj ⊢
      split at hj
      · rename_i hji; exact Or.inr (by simp [hji])
      · exact Or.inl hj
    · intro j hj
      simp [hj]
    · simp only [Bool.false_eq_true, if_false, List.length_cons]
      omega

theorem Work.foldl_grow {n : Nat} {l : List Nat} {w : Work} (hl : ∀ i ∈ l, i < n) : Work.Grow n w (l.foldl Work.enqueue w) ∧ ∀ i ∈ l, (l.foldl Work.enqueue w).stubborn i = true := by
  induction l generalizing w with
  | nil => exact ⟨.refl w, by simp⟩
  | cons i l ih =>
    obtain ⟨h1, h2⟩ := Work.enqueue_grow (w := w) (hl i (by simp))
    obtain ⟨h3, h4⟩ := ih (w := w.enqueue i) (fun j hj => hl j (by simp [hj]))
    refine ⟨h1.trans h3, ?_⟩
    intro j hj
    rcases List.mem_cons.mp hj with rfl | hj
    · exact h3.mono _ h2
    · exact h4 j hj

/-- what handling operator `i` achieves -/
def HandledSimple (t : Task) (s : State) (T : Nat → Bool) (i : Nat) : Prop :=
  (findUnsatisfied s (pre t i) = some none ∧ ∀ j ∈ interfering t i, T j = true) ∨ ∃ f, findUnsatisfied s (pre t i) = some (some f) ∧ ∀ j ∈ achievers t f, T j = true

/-- the invariant of the main loop -/
structure InvSimple (t : Task) (s : State) (w : Work) : Prop where
  goal : ∃ g, findUnsatisfied s (sortFacts t.goal) = some (some g) ∧ ∀ j ∈ achievers t g, w.stubborn j = true
  handled : ∀ i, w.stubborn i = true → i ∉ w.queue → HandledSimple t s w.stubborn i

theorem achievers_lt {t : Task} {f : Fact} : ∀ i ∈ achievers t f, i < t.ops.length := by
  intro i hi
  obtain ⟨o, ho, _⟩ := mem_achievers.mp hi
  exact lt_of_op ho

theorem interfering_lt {t : Task} {i : Nat} : ∀ j ∈ interfering t i, j < t.ops.length := by
  intro j hj
  simp only [interfering, List.mem_filter, List.mem_range] at hj
  exact hj.1

theorem HandledSimple.mono {t : Task} {s : State} {T T' : Nat → Bool} {i : Nat} (h : HandledSimple t s T i) (hm : ∀ i, T i = true → T' i = true) : HandledSimple t s T' i := by
  rcases h with ⟨h1, h2⟩ | ⟨f, h1, h2⟩
  · exact Or.inl ⟨h1, fun j hj => hm j (h2 j hj)⟩
  · exact Or.inr ⟨f, h1, fun j hj => hm j (h2 j hj)⟩

theorem handleSimple_spec {t : Task} {s : State} {w w' : Work} {i : Nat} (h : handleSimple t s w i = some w') : Work.Grow t.ops.length w w' ∧ HandledSimple t s w'.stubborn i := by
  unfold handleSimple at h
  split at h
  · simp at h
  · rename_i hu
    simp only [Option.some.injEq] at h
    subst h
    obtain ⟨h1, h2⟩ := Work.foldl_grow (w := w) (interfering_lt (t := t) (i := i))
    exact ⟨h1, Or.inl ⟨hu, h2⟩⟩
  · rename_i f hu
    simp only [Option.some.injEq] at h
    subst h
    obtain ⟨h1, h2⟩ := Work.foldl_grow (w := w) (achievers_lt (t := t) (f := f))
    exact ⟨h1, Or.inr ⟨f, hu, h2⟩⟩

theorem pop_some {w w' : Work} {i : Nat} (h : w.pop = some (i, w')) : w.queue = i :: w'.queue ∧ w'.stubborn = w.stubborn := by
  unfold Work.pop at h
  split at h
  · simp at h
  · rename_i j q hq
    simp only [Option.some.injEq, Prod.mk.injEq] at h
    obtain ⟨rfl, rfl⟩ := h
    exact ⟨hq, rfl⟩

theorem pop_none {w : Work} (h : w.pop = none) : w.queue = [] := by
  unfold Work.pop at h
  split at h
  · assumption
  · simp at h

theorem stepSimple {t : Task} {s : State} {w w' w'' : Work} {i : Nat} (hw : InvSimple t s w) (hp : w.pop = some (i, w')) (h : handleSimple t s w' i = some w'') : InvSimple t s w'' := by
  obtain ⟨h1, h2⟩ := handleSimple_spec h
  obtain ⟨hq, hst⟩ := pop_some hp
  constructor
  · obtain ⟨g, hg, hj⟩ := hw.goal
    exact ⟨g, hg, fun j hja => h1.mono j (by rw [hst]; exact hj j hja)⟩
  · intro j hj hnq
    by_cases hji : j = i
    · subst hji; exact h2
    · rcases h1.new j hj with hj' | hj'
      · rw [hst] at hj'
        have hjq : j ∉ w.queue := by
          rw [hq]
          simp only [List.mem_cons, not_or]
          exact ⟨hji, fun hm => hnq (h1.queue j hm)⟩
        exact (hw.handled j hj' hjq).mono (fun k hk => h1.mono k (by rw [hst]; exact hk))
      · exact absurd hj' hnq

theorem initSimple_spec {t : Task} {s : State} {w : Work} (h : initSimple t s = some w) : InvSimple t s w := by
  unfold initSimple at h
  split at h
  · rename_i g hg
    simp only [Option.some.injEq] at h
    subst h
    obtain ⟨h1, h2⟩ := Work.foldl_grow (w := ⟨fun _ => false, []⟩) (achievers_lt (t := t) (f := g))
    refine ⟨⟨g, hg, h2⟩, ?_⟩
    intro i hi hnq
    rcases h1.new i hi with h3 | h3
    · simp at h3
    · exact absurd h3 hnq
  · simp at h

theorem computeSimple_stubborn {t : Task} (ht : StubbornTask t) {s : State} {w : Work} (h : computeSimple t s = some w) : t.Stubborn s (fun _ => True) (fun i => w.stubborn i = true) := by
  unfold computeSimple at h
  split at h
  · simp at h
  · rename_i w0 h0
    obtain ⟨hinv, hpop⟩ := loop_spec (Inv := InvSimple t s) (fun w a w' w'' hw hp hh => stepSimple hw hp hh) h (initSimple_spec h0)
    have hq := pop_none hpop
    have hh : ∀ i, w.stubborn i = true → HandledSimple t s w.stubborn i := fun i hi => hinv.handled i hi (by simp [hq])
    constructor
    · obtain ⟨g, hg, hj⟩ := hinv.goal
      obtain ⟨hm, hn⟩ := findUnsatisfied_some hg
      exact ⟨g, mem_sortFacts.mp hm, hn, fun i o ho ha _ => hj i (mem_achievers.mpr ⟨o, ho, ha⟩)⟩
    · intro i o hi ho hna
      rcases hh i hi with ⟨h1, _⟩ | ⟨f, h1, h2⟩
      · exact absurd (fun f hf => findUnsatisfied_none h1 f ((mem_pre ho).mpr hf)) hna
      · obtain ⟨hm, hn⟩ := findUnsatisfied_some h1
        exact ⟨f, (mem_pre ho).mp hm, hn, fun j o' ho' ha _ => h2 j (mem_achievers.mpr ⟨o', ho', ha⟩)⟩
    · intro i j o o' hi ho ha ho' _ hji
      rcases hh i hi with ⟨_, h2⟩ | ⟨f, h1, _⟩
      · have key : (o.Conflicts o' ∨ o'.Disables o ∨ o.Disables o') → w.stubborn j = true := by
          intro hx
          refine h2 j ?_
          simp only [interfering, List.mem_filter, List.mem_range, Bool.and_eq_true, decide_eq_true_eq, interfere, Bool.or_eq_true]
          rw [canDisable_iff ht ho ho', canConflict_iff ht ho ho', canDisable_iff ht ho' ho]
          exact ⟨lt_of_op ho', fun h => hji h.symm, by tauto⟩
        exact ⟨fun hx => key (by tauto), fun hx => Or.inl (key (by tauto))⟩
      · obtain ⟨hm, hn⟩ := findUnsatisfied_some h1
        exact absurd (ha f ((mem_pre ho).mp hm)) hn

/-- the operators that are kept are a safe selection -/
theorem keep_safe {t : Task} (ht : StubbornTask t) {s : State} (hs : t.ValidState s) {A : Nat → Prop} {T : Nat → Bool} (h : t.Stubborn s A (fun i => T i = true)) {ops : List Nat} (hops : t.ApplicableOps s ops)
    (hA : ∀ π, t.SolvesFrom s π → ∀ i ∈ π, A i) : t.SafeSelection s (keep T ops) := by
  intro π hπ
  obtain ⟨i, ρ, hi, ho, hp, hsol⟩ := h.reorder ht hs hπ (hA π hπ)
  exact ⟨i, ρ, List.mem_filter.mpr ⟨(hops i).mpr ho, hi⟩, hp, hsol⟩

theorem computeSimple_defined {t : Task} (hwf : t.WF) {s : State} (hs : t.ValidState s) (hg : ¬ allHold t.goal s) : ∃ w, computeSimple t s = some w := by
  have hinit : ∃ w, initSimple t s = some w := by
    obtain ⟨g, hgg⟩ := findUnsatisfied_exists hs (fs := sortFacts t.goal) (fun f hf => hwf.goalFacts f (mem_sortFacts.mp hf)) (fun h => hg (fun f hf => h f (mem_sortFacts.mpr hf)))
    exact ⟨_, by unfold initSimple; rw [hgg]⟩
  obtain ⟨w0, h0⟩ := hinit
  unfold computeSimple
  rw [h0]
  refine loop_defined (Inv := fun _ => True) (fun w => 2 * unmarked t.ops.length w.stubborn + w.queue.length) ?_ trivial
  intro w i w' _ hp
  have : ∃ w'', handleSimple t s w' i = some w'' := by
    obtain ⟨r, hr⟩ := findUnsatisfied_defined hs (fs := pre t i) (fun f hf => pre_valid hwf hf)
    unfold handleSimple
    rw [hr]
    cases r with
    | none => exact ⟨_, rfl⟩
    | some f => exact ⟨_, rfl⟩
  obtain ⟨w'', h⟩ := this
  obtain ⟨h1, _⟩ := handleSimple_spec h
  obtain ⟨hq, hst⟩ := pop_some hp
  refine ⟨w'', h, trivial, ?_⟩
  have := h1.measure
  rw [hst] at this
  rw [hq]
  simp only [List.length_cons]
  omega

end Verif.Stubborn
