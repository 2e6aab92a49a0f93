import Verif.Spec.IteratedSearch
import Mathlib.Data.List.Basic
import Mathlib.Tactic.Common

namespace Verif.Iterated
open Spec

variable {σ : Type}

theorem calculatePlanCost_some {cost : Nat → Nat} : ∀ {π : List Nat} {c d : Int}, calculatePlanCost cost c π = some d → d = c + planCost cost π
  | [], c, d, h => by simp only [calculatePlanCost, Option.some.injEq] at h; simp [planCost, h]
  | o :: π, c, d, h => by
    unfold calculatePlanCost at h
    split at h
    · simp at h
    · rename_i c' hc
      have := calculatePlanCost_some h
      unfold Search.plus at hc
      split at hc
      · simp only [Option.some.injEq] at hc
        simp only [planCost, List.map_cons, List.sum_cons] at *
        omega
      · simp at hc

theorem calculatePlanCost_fits {cost : Nat → Nat} : ∀ {π : List Nat} {c : Int}, c + planCost cost π < 2 ^ 31 → ∃ d, calculatePlanCost cost c π = some d
  | [], c, h => ⟨c, rfl⟩
  | o :: π, c, h => by
    simp only [planCost, List.map_cons, List.sum_cons] at h
    unfold calculatePlanCost Search.plus
    rw [if_pos (by omega)]
    exact calculatePlanCost_fits (by simp only [planCost]; omega)

theorem best_append {cost : Nat → Nat} : ∀ (ps : List (List Nat)) (b : Int) (π : List Nat), best cost b (ps ++ [π]) = min (best cost b ps) (planCost cost π)
  | [], b, π => rfl
  | ρ :: ps, b, π => by simp only [List.cons_append, best]; exact best_append ps _ π

theorem best_cons {cost : Nat → Nat} (ρ : List Nat) (ps : List (List Nat)) (b : Int) : best cost b (ρ :: ps) = best cost (min b (planCost cost ρ)) ps := rfl

theorem improving_append {cost : Nat → Nat} : ∀ (ps : List (List Nat)) (b : Int) (π : List Nat),
    improving cost b (ps ++ [π]) = improving cost b ps ++ if (planCost cost π : Int) < best cost b ps then [π] else []
  | [], b, π => rfl
  | ρ :: ps, b, π => by
    have hb := best_cons (cost := cost) ρ ps b
    generalize best cost b (ρ :: ps) = B at hb
    subst hb
    simp only [List.cons_append, improving]
    split
    · rename_i h
      rw [improving_append ps, min_eq_right (by omega)]
      rfl
    · rename_i h
      rw [improving_append ps, min_eq_left (by omega)]

theorem best_le {cost : Nat → Nat} : ∀ (ps : List (List Nat)) (b : Int), best cost b ps ≤ b ∧ ∀ π ∈ ps, best cost b ps ≤ planCost cost π
  | [], b => ⟨le_refl _, by simp⟩
  | ρ :: ps, b => by
    obtain ⟨h1, h2⟩ := best_le (cost := cost) ps (min b (planCost cost ρ))
    simp only [best]
    refine ⟨by omega, ?_⟩
    intro π hπ
    rcases List.mem_cons.mp hπ with rfl | hπ
    · omega
    · exact h2 π hπ

theorem improving_props {cost : Nat → Nat} : ∀ (ps : List (List Nat)) (b : Int),
    (improving cost b ps).Pairwise (fun π ρ => planCost cost ρ < planCost cost π) ∧ (∀ π ∈ improving cost b ps, π ∈ ps ∧ (planCost cost π : Int) < b) ∧
    (match (improving cost b ps).getLast? with
     | none => best cost b ps = b
     | some π => best cost b ps = planCost cost π)
  | [], b => by simp [improving, best]
  | ρ :: ps, b => by
    simp only [improving, best]
    split
    · rename_i h
      obtain ⟨h1, h2, h3⟩ := improving_props ps (planCost cost ρ)
      rw [min_eq_right (by omega)]
      refine ⟨List.pairwise_cons.mpr ⟨fun π hπ => by have := (h2 π hπ).2; omega, h1⟩, ?_, ?_⟩
      · intro π hπ
        rcases List.mem_cons.mp hπ with rfl | hπ
        · exact ⟨by simp, h⟩
        · obtain ⟨a, b⟩ := h2 π hπ
          exact ⟨by simp [a], by omega⟩
      · rw [List.getLast?_cons]
        cases hl : (improving cost (planCost cost ρ) ps).getLast? with
        | none => rw [hl] at h3; simpa using h3
        | some π => rw [hl] at h3; simpa using h3
    · rename_i h
      obtain ⟨h1, h2, h3⟩ := improving_props ps b
      rw [min_eq_left (by omega)]
      exact ⟨h1, fun π hπ => ⟨by simp [(h2 π hπ).1], (h2 π hπ).2⟩, h3⟩

/-- the bound of the call after `before` -/
def boundOK (cost : Nat → Nat) (opts : Options) (C : Comps σ) (before : List Call) (c : Call) : Prop :=
  c.bound = if opts.passBound then min (C.bound c.index) (best cost opts.bound (found before)) else C.bound c.index

/-- the invariant of iterated search with `k` components -/
structure Inv (cost : Nat → Nat) (opts : Options) (C : Comps σ) (k : Nat) (st : St σ) : Prop where
  pos : 0 < k
  length : st.searches.length = k
  phase : st.calls.length = st.phase
  alive : ∀ i, st.phase ≤ i → i < k → st.searches[i]? = some true
  last : k ≤ st.phase → opts.repeatLast = true → st.lastFound = true → st.searches[k - 1]? = some true
  index : ∀ j c, st.calls[j]? = some c → c.index = min j (k - 1)
  bounds : ∀ j c, st.calls[j]? = some c → boundOK cost opts C (st.calls.take j) c
  saved : st.saved = improving cost opts.bound (found st.calls)
  best : st.bestBound = best cost opts.bound (found st.calls)
  plan : st.plan = st.saved.getLast?
  found : st.iteratedFound = true ↔ Spec.found st.calls ≠ []
  lastFound : st.lastFound = true → Spec.found st.calls ≠ []

theorem Inv.new {cost : Nat → Nat} (opts : Options) {C : Comps σ} {k : Nat} (hk : 0 < k) (env : σ) : Inv cost opts C k (St.new opts k env) where
  pos := hk
  length := by simp [St.new]
  phase := rfl
  alive i _ hi := by simp [St.new, hi]
  last _ _ h := by simp [St.new] at h
  index j c h := by simp [St.new] at h
  bounds j c h := by simp [St.new] at h
  saved := rfl
  best := rfl
  plan := rfl
  found := by simp [St.new, Spec.found]
  lastFound h := by simp [St.new] at h

/-- what a step that runs a component does -/
structure StepOK (cost : Nat → Nat) (opts : Options) (C : Comps σ) (k : Nat) (st st' : St σ) : Prop where
  inv : Inv cost opts C k st'
  phase : st'.phase = st.phase + 1
  call : st'.calls = st.calls ++ [⟨min st.phase (k - 1), passedBound opts C (min st.phase (k - 1)) st, (C.run st.env (min st.phase (k - 1)) (passedBound opts C (min st.phase (k - 1)) st)).1⟩]
  lastFound : st'.lastFound = (C.run st.env (min st.phase (k - 1)) (passedBound opts C (min st.phase (k - 1)) st)).1.isSome

theorem step_cases {cost : Nat → Nat} {opts : Options} {C : Comps σ} {k : Nat} {st : St σ} (hi : Inv cost opts C k st) :
    (step cost opts C st = some (st, if st.plan.isSome then .solved else .failed) ∧ k ≤ st.phase ∧ (opts.repeatLast = false ∨ st.lastFound = false)) ∨
    (∃ st', step cost opts C st = some (st', stepReturnValue opts st') ∧ StepOK cost opts C k st st') ∨
    (step cost opts C st = none ∧ ∃ i b env π, (C.run env i b).1 = some π ∧ 2 ^ 31 ≤ planCost cost π) := by
  have hlen := hi.length
  have hpos := hi.pos
  by_cases hcur : k ≤ st.phase ∧ (opts.repeatLast = false ∨ st.lastFound = false)
  · left
    refine ⟨?_, hcur⟩
    unfold step currentSearch
    rw [if_pos (by omega), if_neg (by rcases hcur.2 with h | h <;> simp [h])]
  right
  -- the index of the component
  have hidx : currentSearch opts st = some (min st.phase (k - 1)) ∧ st.searches[min st.phase (k - 1)]? = some true := by
    unfold currentSearch
    by_cases hp : k ≤ st.phase
    · rw [if_pos (by omega)]
      have hrl : opts.repeatLast = true ∧ st.lastFound = true := by
        constructor <;> by_contra h
        · exact hcur ⟨hp, Or.inl (by simpa using h)⟩
        · exact hcur ⟨hp, Or.inr (by simpa using h)⟩
      rw [if_pos (by simp [hrl]), hlen]
      have : min st.phase (k - 1) = k - 1 := by omega
      rw [this]
      exact ⟨rfl, hi.last hp hrl.1 hrl.2⟩
    · rw [if_neg (by omega)]
      have : min st.phase (k - 1) = st.phase := by omega
      rw [this]
      exact ⟨rfl, hi.alive _ (le_refl _) (by omega)⟩
  generalize hix : min st.phase (k - 1) = ix at hidx
  have hixk : ix < k := by omega
  obtain ⟨hc1, hc2⟩ := hidx
  unfold step
  rw [hc1]
  simp only [hc2]
  generalize hr : C.run st.env ix (passedBound opts C ix st) = r
  -- the state before release
  have htreat : (∃ st1, treatOutcome cost r.1 { st with phase := st.phase + 1, env := r.2, calls := st.calls ++ [⟨ix, passedBound opts C ix st, r.1⟩] } = some st1 ∧
      st1.searches = st.searches ∧ st1.phase = st.phase + 1 ∧ st1.calls = st.calls ++ [⟨ix, passedBound opts C ix st, r.1⟩] ∧ st1.lastFound = r.1.isSome ∧
      st1.saved = improving cost opts.bound (Spec.found st1.calls) ∧ st1.bestBound = Spec.best cost opts.bound (Spec.found st1.calls) ∧ st1.plan = st1.saved.getLast? ∧
      (st1.iteratedFound = true ↔ Spec.found st1.calls ≠ [])) ∨
    (treatOutcome cost r.1 { st with phase := st.phase + 1, env := r.2, calls := st.calls ++ [⟨ix, passedBound opts C ix st, r.1⟩] } = none ∧ ∃ π, r.1 = some π ∧ 2 ^ 31 ≤ planCost cost π) := by
    unfold treatOutcome
    cases ho : r.1 with
    | none =>
      left
      have hf : Spec.found (st.calls ++ [⟨ix, passedBound opts C ix st, none⟩]) = Spec.found st.calls := by simp [Spec.found]
      refine ⟨_, rfl, rfl, rfl, rfl, rfl, ?_, ?_, hi.plan, ?_⟩
      · simp only [hf]; exact hi.saved
      · simp only [hf]; exact hi.best
      · simp only [hf]; exact hi.found
    | some π =>
      have hf : Spec.found (st.calls ++ [⟨ix, passedBound opts C ix st, some π⟩]) = Spec.found st.calls ++ [π] := by simp [Spec.found]
      simp only
      cases hcost : calculatePlanCost cost 0 π with
      | none =>
        right
        refine ⟨rfl, π, rfl, ?_⟩
        by_contra hlt
        obtain ⟨d, hd⟩ := calculatePlanCost_fits (cost := cost) (π := π) (c := 0) (by omega)
        rw [hcost] at hd; simp at hd
      | some c =>
        left
        have hc := calculatePlanCost_some hcost
        simp only
        by_cases hlt : c < st.bestBound
        · rw [if_pos hlt]
          refine ⟨_, rfl, rfl, rfl, rfl, rfl, ?_, ?_, ?_, ?_⟩
          · simp only [hf, improving_append]
            rw [if_pos (by rw [← hi.best]; omega), ← hi.saved]
          · simp only [hf, best_append]
            rw [← hi.best]; omega
          · simp
          · simp [hf]
        · rw [if_neg hlt]
          refine ⟨_, rfl, rfl, rfl, rfl, rfl, ?_, ?_, hi.plan, ?_⟩
          · simp only [hf, improving_append]
            rw [if_neg (by rw [← hi.best]; omega), ← hi.saved, List.append_nil]
          · simp only [hf, best_append]
            rw [← hi.best]; omega
          · simp [hf]
  rcases htreat with ⟨st1, h0, h1, h2, h3, h4, h5, h6, h7, h8⟩ | ⟨h0, π, h1, h2⟩
  case inr =>
    right
    rw [h0]
    exact ⟨rfl, ix, _, st.env, π, by rw [hr]; exact h1, h2⟩
  left
  rw [h0]
  simp only
  have hret : (retained opts st1).all id = true := by
    unfold retained
    rw [h1, h2, hlen]
    split
    · rename_i h
      simp only [ge_iff_le, Bool.and_eq_true, decide_eq_true_eq] at h
      have : ix = k - 1 := by omega
      rw [List.all_eq_true]
      intro b hb
      obtain ⟨j, hj⟩ := List.mem_iff_getElem?.mp hb
      rw [List.getElem?_drop] at hj
      have hj0 : j = 0 := by
        by_contra hne
        rw [List.getElem?_eq_none (by omega)] at hj; simp at hj
      subst hj0
      rw [Nat.add_zero, ← this, hc2] at hj
      simp at hj; simp [hj]
    · rw [List.all_eq_true]
      intro b hb
      obtain ⟨j, hj⟩ := List.mem_iff_getElem?.mp hb
      rw [List.getElem?_drop] at hj
      have hlt : st.phase + 1 + j < k := by
        by_contra hge
        rw [List.getElem?_eq_none (by omega)] at hj; simp at hj
      rw [hi.alive _ (by omega) hlt] at hj
      simp at hj; simp [hj]
  have hmin : min (st1.phase - 1) (st1.searches.length - 1) = ix := by
    rw [h1, h2, hlen]; omega
  have hinv : ∀ (ss : List Bool), ss.length = k → (∀ i, st.phase + 1 ≤ i → i < k → ss[i]? = some true) →
      (k ≤ st.phase + 1 → opts.repeatLast = true → st1.lastFound = true → ss[k - 1]? = some true) → StepOK cost opts C k st { st1 with searches := ss } := by
    intro ss e1 e2 e3
    refine ⟨⟨hpos, e1, ?_, ?_, ?_, ?_, ?_, h5, h6, h7, h8, ?_⟩, h2, ?_, ?_⟩
    · simp only [h2, h3, List.length_append, List.length_singleton, hi.phase]
    · simp only [h2]; exact e2
    · simp only [h2]; exact e3
    · intro j c hj
      simp only [h3] at hj
      rw [List.getElem?_append] at hj
      split at hj
      · exact hi.index j c hj
      · rename_i hge
        have hj0 : j - st.calls.length = 0 := by
          by_contra hne
          rw [List.getElem?_eq_none (by simp; omega)] at hj; simp at hj
        rw [hj0] at hj
        simp at hj
        rw [← hj]
        simp only
        have := hi.phase
        omega
    · intro j c hj
      simp only [h3] at hj ⊢
      rw [List.getElem?_append] at hj
      split at hj
      · rename_i hlt
        rw [List.take_append_of_le_length (by omega)]
        exact hi.bounds j c hj
      · rename_i hge
        have hj0 : j - st.calls.length = 0 := by
          by_contra hne
          rw [List.getElem?_eq_none (by simp; omega)] at hj; simp at hj
        rw [hj0] at hj
        simp at hj
        rw [← hj]
        have : j = st.calls.length := by omega
        rw [this, List.take_left]
        unfold boundOK passedBound
        simp only
        rw [hi.best]
        by_cases hp : opts.passBound = true
        · simp only [hp, Bool.true_and, decide_eq_true_eq, if_true]
          split <;> omega
        · simp [hp]
    · simp only
      intro hl
      rw [h4] at hl
      rw [h3]
      obtain ⟨π, hπ⟩ := Option.isSome_iff_exists.mp hl
      simp [Spec.found, hπ]
    · simp only [h3]
      rw [hix, hr]
    · simp only [h4]
      rw [hix, hr]
  unfold release
  rw [if_pos hret, hmin]
  by_cases hrel : (st1.phase < st1.searches.length || !opts.repeatLast || !st1.lastFound) = true
  · rw [if_pos hrel, if_pos (by rw [h1, hlen]; exact hixk)]
    refine ⟨_, rfl, hinv _ (by simp [h1, hlen]) ?_ ?_⟩
    · intro i hi1 hi2
      rw [h1, List.getElem?_set_ne (by omega)]
      exact hi.alive i (by omega) hi2
    · intro hk hr1 hr2
      exfalso
      simp only [h1, h2, hlen, hr1, hr2, Bool.not_true, Bool.or_false, decide_eq_true_eq] at hrel
      omega
  · rw [if_neg hrel]
    refine ⟨st1, rfl, ?_⟩
    have := hinv st1.searches (by rw [h1]; exact hlen) ?_ ?_
    · exact this
    · intro i hi1 hi2
      rw [h1]; exact hi.alive i (by omega) hi2
    · intro hk hr1 hr2
      rw [h1]
      have : ix = k - 1 := by omega
      rw [← this]; exact hc2

theorem endOK_return {cost : Nat → Nat} {opts : Options} {C : Comps σ} {k : Nat} {st : St σ} (hi : Inv cost opts C k st) : EndOK opts k st (stepReturnValue opts st) := by
  unfold stepReturnValue
  have hf := hi.found
  cases h1 : st.lastFound with
  | true =>
    cases h2 : opts.continueOnSolve
    · simp [EndOK, h1, h2]
    · simp [EndOK]
  | false =>
    cases h2 : opts.continueOnFail
    · cases h3 : st.iteratedFound
      · rw [h3] at hf
        simp only [Bool.false_eq_true, ne_eq, false_iff, not_not] at hf
        simp only [Bool.false_eq_true, if_false, EndOK]
        right; exact ⟨h1, h2, hf⟩
      · simp only [Bool.false_eq_true, if_false, if_true, EndOK]
        right; right; exact ⟨h1, h2, hf.mp h3⟩
    · simp [EndOK]

theorem run_inv {cost : Nat → Nat} {opts : Options} {C : Comps σ} {k : Nat} : ∀ (n : Nat) (st : St σ), Inv cost opts C k st →
    (∃ st' s, run cost opts C n st = some (st', s) ∧ Inv cost opts C k st' ∧ EndOK opts k st' s) ∨
    (run cost opts C n st = none ∧ ∃ i b env π, (C.run env i b).1 = some π ∧ 2 ^ 31 ≤ planCost cost π)
  | 0, st, hi => Or.inl ⟨st, _, rfl, hi, trivial⟩
  | n + 1, st, hi => by
    unfold run
    rcases step_cases hi with ⟨h, h1, h2⟩ | ⟨st', h, h'⟩ | ⟨h, h'⟩
    · left
      rw [h]
      cases hp : st.plan.isSome with
      | true => exact ⟨st, .solved, rfl, hi, Or.inl ⟨hp, h1, h2⟩⟩
      | false => exact ⟨st, .failed, rfl, hi, Or.inl ⟨by simpa using hp, h1, h2⟩⟩
    · rw [h]
      have he := endOK_return h'.inv
      cases hs : stepReturnValue opts st' with
      | inProgress => exact run_inv n st' h'.inv
      | failed => rw [hs] at he; exact Or.inl ⟨st', _, rfl, h'.inv, he⟩
      | solved => rw [hs] at he; exact Or.inl ⟨st', _, rfl, h'.inv, he⟩
    · right; rw [h]; exact ⟨rfl, h'⟩

end Verif.Iterated
