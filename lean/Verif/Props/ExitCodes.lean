import Verif.Model.ExitCodes
import Mathlib.Tactic.NormNum

/-
C50: exit codes of portfolios.
-/
namespace Verif.Driver

theorem mem_toSet {c : Int} : ∀ {l : List Int}, c ∈ toSet l ↔ c ∈ l
  | [] => by simp [toSet]
  | d :: l => by
    simp only [toSet, List.mem_cons, List.mem_filter, mem_toSet, decide_eq_true_eq]
    by_cases h : c = d <;> simp [h]

theorem toSet_nodup : ∀ (l : List Int), (toSet l).Nodup
  | [] => List.nodup_nil
  | d :: l => by
    simp only [toSet, List.nodup_cons, List.mem_filter, decide_eq_true_eq]
    exact ⟨fun h => h.2 rfl, (toSet_nodup l).filter _⟩

/-- a code for an error which portfolios do not hide (documentation of exit codes: 30–39) -/
def Unrecoverable (c : Int) : Prop := 30 ≤ c ∧ c < 40

instance (c : Int) : Decidable (Unrecoverable c) := inferInstanceAs (Decidable (_ ∧ _))

theorem isUnrecoverable_iff {c : Int} : isUnrecoverable c = true ↔ Unrecoverable c := by simp [isUnrecoverable, Unrecoverable]

/-- The documented codes of a search component which a portfolio knows: plan found, unsolvable, incomplete, out of memory, out of time, unrecoverable errors. -/
def Known (c : Int) : Prop := c = 0 ∨ c = 11 ∨ c = 12 ∨ c = 22 ∨ c = 23 ∨ Unrecoverable c

instance (c : Int) : Decidable (Known c) := inferInstanceAs (Decidable (_ ∨ _))

/-- the cases of the computation -/
theorem portfolioExitcode_cases (codes : List Int) :
    (∃ c ∈ codes, Unrecoverable c ∧ (∀ d ∈ codes, Unrecoverable d → d = c) ∧ portfolioExitcode codes = some (c, false)) ∨
    (∃ c ∈ codes, ∃ d ∈ codes, c ≠ d ∧ Unrecoverable c ∧ Unrecoverable d ∧ portfolioExitcode codes = some (SEARCH_CRITICAL_ERROR, false)) ∨
    ((∀ c ∈ codes, ¬Unrecoverable c) ∧ 0 ∈ codes ∧ portfolioExitcode codes = some (planFoundCode (toSet codes), true)) ∨
    ((∀ c ∈ codes, ¬Unrecoverable c) ∧ 0 ∉ codes ∧ portfolioExitcode codes = (noPlanCode (toSet codes)).map (fun c => (c, false))) := by
  have hmem : ∀ c, c ∈ (toSet codes).filter isUnrecoverable ↔ c ∈ codes ∧ Unrecoverable c := by
    intro c; rw [List.mem_filter, mem_toSet, isUnrecoverable_iff]
  have hnd : ((toSet codes).filter isUnrecoverable).Nodup := (toSet_nodup codes).filter _
  unfold portfolioExitcode
  cases hl : (toSet codes).filter isUnrecoverable with
  | nil =>
    rw [hl] at hmem
    have h0 : ∀ c ∈ codes, ¬Unrecoverable c := fun c hc hu => by simpa using (hmem c).mpr ⟨hc, hu⟩
    by_cases hs : (0 : Int) ∈ codes
    · right; right; left
      exact ⟨h0, hs, by rw [if_pos (show SUCCESS ∈ toSet codes from mem_toSet.mpr hs)]⟩
    · right; right; right
      exact ⟨h0, hs, by rw [if_neg (show SUCCESS ∉ toSet codes from fun h => hs (mem_toSet.mp h))]⟩
  | cons c l =>
    rw [hl] at hmem hnd
    cases l with
    | nil =>
      left
      have hc := (hmem c).mp (by simp)
      exact ⟨c, hc.1, hc.2, fun d hd hu => by simpa using (hmem d).mpr ⟨hd, hu⟩, rfl⟩
    | cons d l =>
      right; left
      have hc := (hmem c).mp (by simp)
      have hd := (hmem d).mp (by simp)
      refine ⟨c, hc.1, d, hd.1, ?_, hc.2, hd.2, rfl⟩
      rintro rfl
      simp at hnd

/-- C50: what the exit code of a portfolio says, for all lists of exit codes of its components.  Unrecoverable errors are passed on (different ones as a critical error).  Without them: a code that reports a plan (0–3) and continuation
with validation are returned iff some component has found a plan, and the code tells exactly whether components ran out of memory and of time; otherwise unsolvability is reported iff a component has reported it, and incompleteness, out of memory and out of time
only if a component has reported them. -/
theorem C50_meaning {codes : List Int} {code : Int} {plan : Bool} (h : portfolioExitcode codes = some (code, plan)) :
    ((∃ c ∈ codes, Unrecoverable c) → plan = false ∧ Unrecoverable code ∧ (code ∈ codes ∨ ∃ c ∈ codes, ∃ d ∈ codes, c ≠ d ∧ Unrecoverable c ∧ Unrecoverable d)) ∧
    ((∀ c ∈ codes, ¬Unrecoverable c) →
      (plan = true ↔ 0 ∈ codes) ∧
      (plan = true → ((code = 1 ∨ code = 3) ↔ 22 ∈ codes) ∧ ((code = 2 ∨ code = 3) ↔ 23 ∈ codes) ∧ 0 ≤ code ∧ code ≤ 3) ∧
      (plan = false → (code = 11 ↔ 11 ∈ codes) ∧ (code ∈ codes ∨ (code = 24 ∧ 22 ∈ codes ∧ 23 ∈ codes)) ∧ 10 ≤ code)) := by
  rcases portfolioExitcode_cases codes with ⟨c, hc, hu, h1, h2⟩ | ⟨c, hc, d, hd, hne, hu, hu', h2⟩ | ⟨h0, hs, h2⟩ | ⟨h0, hs, h2⟩ <;> rw [h2] at h
  · simp only [Option.some.injEq, Prod.mk.injEq] at h
    obtain ⟨rfl, rfl⟩ := h
    exact ⟨fun _ => ⟨rfl, hu, Or.inl hc⟩, fun h0 => absurd hu (h0 c hc)⟩
  · simp only [Option.some.injEq, Prod.mk.injEq] at h
    obtain ⟨rfl, rfl⟩ := h
    exact ⟨fun _ => ⟨rfl, by decide, Or.inr ⟨c, hc, d, hd, hne, hu, hu'⟩⟩, fun h0 => absurd hu (h0 c hc)⟩
  · simp only [Option.some.injEq, Prod.mk.injEq] at h
    obtain ⟨rfl, rfl⟩ := h
    refine ⟨fun ⟨c, hc, hu⟩ => absurd hu (h0 c hc), fun _ => ⟨by simpa using hs, fun _ => ?_, by simp⟩⟩
    unfold planFoundCode
    simp only [mem_toSet, SEARCH_OUT_OF_MEMORY, SEARCH_OUT_OF_TIME, SEARCH_PLAN_FOUND_AND_OUT_OF_MEMORY_AND_TIME, SEARCH_PLAN_FOUND_AND_OUT_OF_MEMORY, SEARCH_PLAN_FOUND_AND_OUT_OF_TIME, SUCCESS]
    by_cases h1 : (22 : Int) ∈ codes <;> by_cases h3 : (23 : Int) ∈ codes <;> simp [h1, h3]
  · cases hn : noPlanCode (toSet codes) with
    | none => rw [hn] at h; simp at h
    | some c =>
      rw [hn] at h
      simp only [Option.map_some, Option.some.injEq, Prod.mk.injEq] at h
      obtain ⟨rfl, rfl⟩ := h
      refine ⟨fun ⟨c, hc, hu⟩ => absurd hu (h0 c hc), fun _ => ⟨by simpa using hs, by simp, fun _ => ?_⟩⟩
      unfold noPlanCode at hn
      simp only [mem_toSet, SEARCH_OUT_OF_MEMORY, SEARCH_OUT_OF_TIME, SEARCH_UNSOLVABLE, SEARCH_UNSOLVED_INCOMPLETE, SEARCH_OUT_OF_MEMORY_AND_TIME] at hn
      by_cases h1 : (11 : Int) ∈ codes
      · simp only [h1, if_true, Option.some.injEq] at hn
        subst hn
        exact ⟨by simp [h1], Or.inl h1, by decide⟩
      · by_cases h3 : (12 : Int) ∈ codes
        · simp only [h1, h3, if_true, if_false, Option.some.injEq] at hn
          subst hn
          exact ⟨by simp [h1], Or.inl h3, by decide⟩
        · by_cases h4 : (22 : Int) ∈ codes <;> by_cases h5 : (23 : Int) ∈ codes <;> simp [h1, h3, h4, h5] at hn <;> subst hn <;> simp [h1, h4, h5]

/-- C50: there is an exit code for all non-empty lists of known codes, in particular if a component has found a plan. -/
theorem C50_defined {codes : List Int} (h : ∀ c ∈ codes, Known c) (hne : codes ≠ []) : ∃ r, portfolioExitcode codes = some r := by
  rcases portfolioExitcode_cases codes with ⟨c, hc, hu, h1, h2⟩ | ⟨c, hc, d, hd, hne, hu, hu', h2⟩ | ⟨h0, hs, h2⟩ | ⟨h0, hs, h2⟩
  · exact ⟨_, h2⟩
  · exact ⟨_, h2⟩
  · exact ⟨_, h2⟩
  · rw [h2]
    obtain ⟨c, hc⟩ := List.exists_mem_of_ne_nil _ hne
    unfold noPlanCode
    simp only [mem_toSet, SEARCH_OUT_OF_MEMORY, SEARCH_OUT_OF_TIME, SEARCH_UNSOLVABLE, SEARCH_UNSOLVED_INCOMPLETE]
    rcases h c hc with rfl | rfl | rfl | rfl | rfl | hu
    · exact absurd hc hs
    · simp [hc]
    · by_cases h1 : (11 : Int) ∈ codes <;> simp [hc, h1]
    · by_cases h1 : (11 : Int) ∈ codes <;> by_cases h3 : (12 : Int) ∈ codes <;> by_cases h4 : (23 : Int) ∈ codes <;> simp [hc, h1, h3, h4]
    · by_cases h1 : (11 : Int) ∈ codes <;> by_cases h3 : (12 : Int) ∈ codes <;> by_cases h4 : (22 : Int) ∈ codes <;> simp [hc, h1, h3, h4]
    · exact absurd hu (h0 c hc)

/-- the order and the number of equal codes do not matter -/
theorem C50_multiset {codes codes' : List Int} (h : ∀ c, c ∈ codes ↔ c ∈ codes') : portfolioExitcode codes = portfolioExitcode codes' := by
  have e1 : planFoundCode (toSet codes) = planFoundCode (toSet codes') := by simp only [planFoundCode, mem_toSet, h]
  have e2 : noPlanCode (toSet codes) = noPlanCode (toSet codes') := by simp only [noPlanCode, mem_toSet, h]
  rcases portfolioExitcode_cases codes with ⟨c, hc, hu, h1, h2⟩ | ⟨c, hc, d, hd, hne, hu, hu', h2⟩ | ⟨h0, hs, h2⟩ | ⟨h0, hs, h2⟩ <;>
    rcases portfolioExitcode_cases codes' with ⟨c', hc', ku, k1, k2⟩ | ⟨c', hc', d', hd', kne, ku, ku', k2⟩ | ⟨k0, ks, k2⟩ | ⟨k0, ks, k2⟩ <;> rw [h2, k2]
  · rw [k1 c ((h c).mp hc) hu]
  · exact absurd ((h1 c' ((h _).mpr hc') ku).trans (h1 d' ((h _).mpr hd') ku').symm) kne
  · exact absurd hu (k0 c ((h c).mp hc))
  · exact absurd hu (k0 c ((h c).mp hc))
  · exact absurd ((k1 c ((h _).mp hc) hu).trans (k1 d ((h _).mp hd) hu').symm) hne
  · exact absurd hu (k0 c ((h c).mp hc))
  · exact absurd hu (k0 c ((h c).mp hc))
  · exact absurd ku (h0 c' ((h c').mpr hc'))
  · exact absurd ku (h0 c' ((h c').mpr hc'))
  · rw [e1]
  · exact absurd ((h 0).mp hs) ks
  · exact absurd ku (h0 c' ((h c').mpr hc'))
  · exact absurd ku (h0 c' ((h c').mpr hc'))
  · exact absurd ((h 0).mpr ks) hs
  · rw [e2]

example : portfolioExitcode [23, 0, 22, 0] = some (3, true) := by decide
example : portfolioExitcode [22, 11, 23] = some (11, false) := by decide
example : portfolioExitcode [0, 32, 33] = some (32, false) := by decide
example : ∀ c ∈ [23, 0, 22, 0, 34], Known c := by decide

/-- C50 does not hold for all runs of a portfolio: if no component has been started because there is no time left, or if the only component was killed by a signal (a negative code), an assertion fails.  A found plan is hidden by an unrecoverable error of another component. -/
theorem C50_unhandled : portfolioExitcode [] = none ∧ portfolioExitcode [-9] = none ∧ portfolioExitcode [0, 32] = some (32, false) := by decide

end Verif.Driver
