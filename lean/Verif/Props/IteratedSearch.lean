import Verif.Lemmas.IteratedSearch
import Verif.Props.EagerSearch

/-
C27: iterated search.

The component searches (`C`), what they depend on (`env`), the number of components (`k`, at
least one: the parser rejects an empty list), all options and the number of steps are arbitrary.
The state in these theorems is the one after any number of steps, whether iterated search is
still in progress or has ended.
-/
namespace Verif.Iterated
open Spec

variable {σ : Type} (cost : Nat → Nat) (opts : Options) (C : Comps σ) {k : Nat} (hk : 0 < k) (env : σ)
include hk

private theorem reached {n : Nat} {st : St σ} {s : Status} (h : search cost opts C k env n = some (st, s)) : Inv cost opts C k st ∧ EndOK opts k st s := by
  rcases run_inv n _ (Inv.new (cost := cost) opts (C := C) hk env) with ⟨st', s', h1, h2, h3⟩ | ⟨h1, _⟩
  · rw [search] at h
    rw [h1] at h
    simp only [Option.some.injEq, Prod.mk.injEq] at h
    rw [← h.1, ← h.2]
    exact ⟨h2, h3⟩
  · rw [search, h1] at h
    simp at h

/-- C27: the costs of the saved plans decrease strictly, every saved plan was returned by a
component search and is cheaper than the bound. -/
theorem C27_saved_plans {n : Nat} {st : St σ} {s : Status} (h : search cost opts C k env n = some (st, s)) :
    st.saved.Pairwise (fun π ρ => planCost cost ρ < planCost cost π) ∧
    ∀ π ∈ st.saved, (planCost cost π : Int) < opts.bound ∧ ∃ c ∈ st.calls, c.outcome = some π := by
  obtain ⟨hi, _⟩ := reached cost opts C hk env h
  obtain ⟨h1, h2, _⟩ := improving_props (cost := cost) (found st.calls) opts.bound
  rw [hi.saved]
  refine ⟨h1, fun π hπ => ⟨(h2 π hπ).2, ?_⟩⟩
  have := (h2 π hπ).1
  simpa [found] using this

/-- C27: the final plan is the one which was saved last; it is the cheapest plan that any
component search returned. There is none only if no component search returned a plan cheaper than the bound. -/
theorem C27_final_plan {n : Nat} {st : St σ} {s : Status} (h : search cost opts C k env n = some (st, s)) :
    st.plan = st.saved.getLast? ∧
    (∀ π, st.plan = some π → ∀ c ∈ st.calls, ∀ ρ, c.outcome = some ρ → planCost cost π ≤ planCost cost ρ) ∧
    (st.plan = none → ∀ c ∈ st.calls, ∀ ρ, c.outcome = some ρ → opts.bound ≤ planCost cost ρ) := by
  obtain ⟨hi, _⟩ := reached cost opts C hk env h
  obtain ⟨_, _, h3⟩ := improving_props (cost := cost) (found st.calls) opts.bound
  obtain ⟨_, h5⟩ := best_le (cost := cost) (found st.calls) opts.bound
  rw [← hi.saved, ← hi.plan] at h3
  refine ⟨hi.plan, ?_, ?_⟩
  · intro π hp c hc ρ hρ
    rw [hp] at h3
    simp only at h3
    have := h5 ρ (by simp only [found, List.mem_filterMap]; exact ⟨c, hc, hρ⟩)
    omega
  · intro hp c hc ρ hρ
    rw [hp] at h3
    simp only at h3
    have := h5 ρ (by simp only [found, List.mem_filterMap]; exact ⟨c, hc, hρ⟩)
    omega

/-- C27: with pass_bound every component search is run with the minimum of its own bound, the
initial bound of iterated search and the cost of the best plan so far; in particular its bound is not
above any of them. Without pass_bound it is run with its own bound. -/
theorem C27_bounds {n : Nat} {st : St σ} {s : Status} (h : search cost opts C k env n = some (st, s)) {j : Nat} {c : Call} (hj : st.calls[j]? = some c) :
    (opts.passBound = true → c.bound = min (C.bound c.index) (best cost opts.bound (found (st.calls.take j))) ∧
      c.bound ≤ C.bound c.index ∧ c.bound ≤ opts.bound ∧ ∀ i d π, i < j → st.calls[i]? = some d → d.outcome = some π → c.bound ≤ planCost cost π) ∧
    (opts.passBound = false → c.bound = C.bound c.index) := by
  obtain ⟨hi, _⟩ := reached cost opts C hk env h
  have hb := hi.bounds j c hj
  unfold boundOK at hb
  refine ⟨fun hp => ?_, fun hp => by simpa [hp] using hb⟩
  rw [if_pos hp] at hb
  obtain ⟨h1, h2⟩ := best_le (cost := cost) (found (st.calls.take j)) opts.bound
  refine ⟨hb, by omega, by omega, ?_⟩
  intro i d π hij hd ho
  have := h2 π (by
    simp only [found, List.mem_filterMap]
    refine ⟨d, List.mem_iff_getElem?.mpr ⟨i, ?_⟩, ho⟩
    rw [List.getElem?_take, if_pos hij]; exact hd)
  omega

/-- C27: the component searches are run in the given order, each once, and then the last one
again and again. -/
theorem C27_order {n : Nat} {st : St σ} {s : Status} (h : search cost opts C k env n = some (st, s)) {j : Nat} {c : Call} (hj : st.calls[j]? = some c) :
    c.index = min j (k - 1) := by
  obtain ⟨hi, _⟩ := reached cost opts C hk env h
  exact hi.index j c hj

/-- the repetitions of the last component -/
private theorem run_repeat : ∀ (n : Nat) {st st' : St σ} {s : Status}, Inv cost opts C k st → run cost opts C n st = some (st', s) →
    (st.lastFound = true ↔ ∃ d, st.calls[st.calls.length - 1]? = some d ∧ d.outcome.isSome = true) →
    (∀ j c, k ≤ j → st.calls[j]? = some c → opts.repeatLast = true ∧ ∃ d, st.calls[j - 1]? = some d ∧ d.outcome.isSome = true) →
    (∀ j c, k ≤ j → st'.calls[j]? = some c → opts.repeatLast = true ∧ ∃ d, st'.calls[j - 1]? = some d ∧ d.outcome.isSome = true)
  | 0, st, st', s, hi, h, _, hr => by
    simp only [run, Option.some.injEq, Prod.mk.injEq] at h
    rw [← h.1]; exact hr
  | n + 1, st, st', s, hi, h, hl, hr => by
    unfold run at h
    rcases step_cases hi with ⟨e, _⟩ | ⟨st1, e, e'⟩ | ⟨e, _⟩
    · rw [e] at h
      split at h
      · simp at h
      · rename_i hx
        exfalso
        cases hps : st.plan.isSome <;> rw [hps] at hx <;> simp at hx
      · rename_i hx
        simp only [Option.some.injEq] at h hx
        rw [h] at hx
        simp only [Prod.mk.injEq] at hx
        rw [← hx.1]; exact hr
    · have key : ∀ j c, k ≤ j → st1.calls[j]? = some c → opts.repeatLast = true ∧ ∃ d, st1.calls[j - 1]? = some d ∧ d.outcome.isSome = true := by
        intro j c hj hc
        rw [e'.call] at hc ⊢
        rw [List.getElem?_append] at hc
        split at hc
        · rename_i hlt
          obtain ⟨q1, d, q2, q3⟩ := hr j c hj hc
          exact ⟨q1, d, by rw [List.getElem?_append_left (by omega)]; exact q2, q3⟩
        · rename_i hge
          have hj0 : j = st.calls.length := by
            by_contra hne
            rw [List.getElem?_eq_none (by simp; omega)] at hc; simp at hc
          subst hj0
          have hph := hi.phase
          have hcur : ¬(opts.repeatLast = false ∨ st.lastFound = false) := by
            intro hx
            unfold step currentSearch at e
            rw [if_pos (by rw [hi.length]; omega), if_neg (by rcases hx with hx | hx <;> simp [hx])] at e
            simp only [Option.some.injEq, Prod.mk.injEq] at e
            have := e'.phase
            rw [← e.1] at this
            omega
          have hl1 : st.lastFound = true := by by_contra hx; exact hcur (Or.inr (by simpa using hx))
          obtain ⟨d, q2, q3⟩ := hl.mp hl1
          refine ⟨by by_contra hx; exact hcur (Or.inl (by simpa using hx)), d, ?_, q3⟩
          rw [List.getElem?_append_left (by omega)]; exact q2
      have hl1 : st1.lastFound = true ↔ ∃ d, st1.calls[st1.calls.length - 1]? = some d ∧ d.outcome.isSome = true := by
        rw [e'.call, e'.lastFound]
        simp
      rw [e] at h
      split at h
      · simp at h
      · rename_i hx
        simp only [Option.some.injEq, Prod.mk.injEq] at hx
        rw [← hx.1] at h
        exact run_repeat n e'.inv h hl1 key
      · rename_i hx
        simp only [Option.some.injEq] at h hx
        rw [h] at hx
        simp only [Prod.mk.injEq] at hx
        rw [← hx.1]; exact key
    · rw [e] at h; simp at h

/-- C27: the last component search is run again only with repeat_last, and only directly after a run that
found a plan. -/
theorem C27_repeat_last {n : Nat} {st : St σ} {s : Status} (h : search cost opts C k env n = some (st, s)) {j : Nat} {c : Call} (hjk : k ≤ j) (hj : st.calls[j]? = some c) :
    opts.repeatLast = true ∧ ∃ d, st.calls[j - 1]? = some d ∧ d.outcome.isSome = true :=
  run_repeat cost opts C hk n (Inv.new (cost := cost) opts (C := C) hk env) h (by simp [St.new]) (by simp [St.new]) j c hjk hj

/-- C27: when iterated search stops and with which result. -/
theorem C27_result {n : Nat} {st : St σ} {s : Status} (h : search cost opts C k env n = some (st, s)) : EndOK opts k st s :=
  (reached cost opts C hk env h).2

/-- C27: FAILED is returned only if no component search found a plan cheaper than the bound. -/
theorem C27_failed {n : Nat} {st : St σ} (h : search cost opts C k env n = some (st, .failed)) : st.plan = none ∧ st.saved = [] := by
  obtain ⟨hi, he⟩ := reached cost opts C hk env h
  have : st.plan = none := by
    rcases he with he | he
    · exact he.1
    · rw [hi.plan, hi.saved, he.2.2]; rfl
  refine ⟨this, ?_⟩
  rw [hi.plan] at this
  simpa using this

/-- C27: SOLVED is returned only if some component search found a plan; if all plans of
component searches are cheaper than the bounds with which they are run, and bounds are passed
on, then a plan is stored. -/
theorem C27_solved {n : Nat} {st : St σ} (h : search cost opts C k env n = some (st, .solved)) :
    (∃ c ∈ st.calls, c.outcome.isSome = true) ∧
    (opts.passBound = true → (∀ c ∈ st.calls, ∀ π, c.outcome = some π → (planCost cost π : Int) < c.bound) → ∃ π, st.plan = some π) := by
  obtain ⟨hi, he⟩ := reached cost opts C hk env h
  have hex : ∃ c ∈ st.calls, c.outcome.isSome = true := by
    have : found st.calls ≠ [] := by
      rcases he with ⟨he, _⟩ | ⟨he, _⟩ | ⟨_, _, he⟩
      · intro hn
        rw [hi.plan, hi.saved, hn] at he
        simp [improving] at he
      · exact hi.lastFound he
      · exact he
    obtain ⟨π, hπ⟩ := List.exists_mem_of_ne_nil _ this
    simp only [found, List.mem_filterMap] at hπ
    obtain ⟨c, hc, ho⟩ := hπ
    exact ⟨c, hc, by simp [ho]⟩
  refine ⟨hex, fun hp hall => ?_⟩
  obtain ⟨c, hc, ho⟩ := hex
  obtain ⟨π, hπ⟩ := Option.isSome_iff_exists.mp ho
  obtain ⟨j, hj⟩ := List.mem_iff_getElem?.mp hc
  have hb := ((C27_bounds cost opts C hk env h hj).1 hp).2.2.1
  cases hpl : st.plan with
  | some ρ => exact ⟨ρ, rfl⟩
  | none =>
    exfalso
    have := (C27_final_plan cost opts C hk env h).2.2 hpl c hc π hπ
    have := hall c hc π hπ
    omega

/-- C27: iterated search does not fail: no released component search is used and nothing else goes
wrong if the costs of the plans fit in an int. -/
theorem C27_defined (hfit : ∀ e i b π, (C.run e i b).1 = some π → planCost cost π < 2 ^ 31) (n : Nat) : (search cost opts C k env n).isSome = true := by
  rcases run_inv n _ (Inv.new (cost := cost) opts (C := C) hk env) with ⟨st', s', h1, _⟩ | ⟨_, i, b, e, π, h2, h3⟩
  · rw [search, h1]; rfl
  · have := hfit e i b π h2; omega

private theorem run_progress {st st1 : St σ} {s : Status} {n m : Nat} (h : step cost opts C st = some (st1, s)) (hm : s ≠ .inProgress ∨ ∃ st' s', s' ≠ .inProgress ∧ run cost opts C m st1 = some (st', s')) (hn : n = m + 1) :
    ∃ st' s', s' ≠ Status.inProgress ∧ run cost opts C n st = some (st', s') := by
  subst hn
  unfold run
  rw [h]
  cases s with
  | inProgress =>
    rcases hm with hm | hm
    · simp at hm
    · exact hm
  | failed => exact ⟨_, _, by simp, rfl⟩
  | solved => exact ⟨_, _, by simp, rfl⟩

/-- the last component is repeated only finitely often -/
private theorem last_terminates (hp : opts.passBound = true) (hstrict : ∀ e i b π, (C.run e i b).1 = some π → planCost cost π < 2 ^ 31 ∧ (planCost cost π : Int) < b) :
    ∀ (m : Nat) (st : St σ), Inv cost opts C k st → k ≤ st.phase → (st.lastFound = true → st.bestBound ≤ m) →
    ∃ n st' s, s ≠ Status.inProgress ∧ run cost opts C n st = some (st', s) := by
  intro m
  induction m with
  | zero =>
    intro st hi hph hb
    have hgen : ∀ st, Inv cost opts C k st → k ≤ st.phase → st.lastFound = false → ∃ n st' s, s ≠ Status.inProgress ∧ run cost opts C n st = some (st', s) := by
      intro st hi hph hl
      rcases step_cases hi with ⟨h, _⟩ | ⟨st', _, h'⟩ | ⟨_, i, b, e, π, h2, h3⟩
      · exact ⟨1, run_progress cost opts C hk h (m := 0) (Or.inl (by split <;> simp)) rfl⟩
      · rename_i h
        exfalso
        unfold step currentSearch at h
        rw [if_pos (by rw [hi.length]; omega), if_neg (by simp [hl])] at h
        simp only [Option.some.injEq, Prod.mk.injEq] at h
        have := h'.phase
        rw [← h.1] at this
        omega
      · have := (hstrict e i b π h2).1; omega
    by_cases hl : st.lastFound = true
    · rcases step_cases hi with ⟨h, _⟩ | ⟨st', h, h'⟩ | ⟨_, i, b, e, π, h2, h3⟩
      · exact ⟨1, run_progress cost opts C hk h (m := 0) (Or.inl (by split <;> simp)) rfl⟩
      · have hf : st'.lastFound = false := by
          rw [h'.lastFound]
          cases ho : (C.run st.env (min st.phase (k - 1)) (passedBound opts C (min st.phase (k - 1)) st)).1 with
          | none => rfl
          | some π =>
            exfalso
            have h1 := (hstrict _ _ _ π ho).2
            have h2 := hb hl
            unfold passedBound at h1
            simp only [hp, Bool.true_and, decide_eq_true_eq] at h1
            split at h1 <;> omega
        obtain ⟨n, hn⟩ := hgen st' h'.inv (by rw [h'.phase]; omega) hf
        exact ⟨n + 1, run_progress cost opts C hk h (m := n) (Or.inr hn) rfl⟩
      · have := (hstrict e i b π h2).1; omega
    · exact hgen st hi hph (by simpa using hl)
  | succ m ih =>
    intro st hi hph hb
    rcases step_cases hi with ⟨h, _⟩ | ⟨st', h, h'⟩ | ⟨_, i, b, e, π, h2, h3⟩
    · exact ⟨1, run_progress cost opts C hk h (m := 0) (Or.inl (by split <;> simp)) rfl⟩
    · have hlf : st.lastFound = true := by
        by_contra hl
        unfold step currentSearch at h
        rw [if_pos (by rw [hi.length]; omega), if_neg (by simp [hl])] at h
        simp only [Option.some.injEq, Prod.mk.injEq] at h
        have := h'.phase
        rw [← h.1] at this
        omega
      obtain ⟨n, hn⟩ := ih st' h'.inv (by rw [h'.phase]; omega) (by
        intro hl'
        rw [h'.lastFound] at hl'
        obtain ⟨π, ho⟩ := Option.isSome_iff_exists.mp hl'
        have h1 := (hstrict _ _ _ π ho).2
        have h2 := hb hlf
        have h3 := h'.inv.best
        rw [h'.call] at h3
        have hf : found (st.calls ++ [⟨min st.phase (k - 1), passedBound opts C (min st.phase (k - 1)) st, (C.run st.env (min st.phase (k - 1)) (passedBound opts C (min st.phase (k - 1)) st)).1⟩]) = found st.calls ++ [π] := by
          simp [found, ho]
        rw [hf, best_append, ← hi.best] at h3
        unfold passedBound at h1
        simp only [hp, Bool.true_and, decide_eq_true_eq] at h1
        split at h1 <;> omega)
      exact ⟨n + 1, run_progress cost opts C hk h (m := n) (Or.inr hn) rfl⟩
    · have := (hstrict e i b π h2).1; omega

private theorem phases_terminate (hfit : ∀ e i b π, (C.run e i b).1 = some π → planCost cost π < 2 ^ 31)
    (hend : ∀ st : St σ, Inv cost opts C k st → k ≤ st.phase → ∃ n st' s, s ≠ Status.inProgress ∧ run cost opts C n st = some (st', s)) :
    ∀ (m : Nat) (st : St σ), Inv cost opts C k st → k ≤ st.phase + m → ∃ n st' s, s ≠ Status.inProgress ∧ run cost opts C n st = some (st', s) := by
  intro m
  induction m with
  | zero => intro st hi hm; exact hend st hi hm
  | succ m ih =>
    intro st hi hm
    rcases step_cases hi with ⟨h, _⟩ | ⟨st', h, h'⟩ | ⟨_, i, b, e, π, h2, h3⟩
    · exact ⟨1, run_progress cost opts C hk h (m := 0) (Or.inl (by split <;> simp)) rfl⟩
    · obtain ⟨n, hn⟩ := ih st' h'.inv (by rw [h'.phase]; omega)
      exact ⟨n + 1, run_progress cost opts C hk h (m := n) (Or.inr hn) rfl⟩
    · have := hfit e i b π h2; omega

/-- C27: without repeat_last iterated search ends after at most one run of each component. -/
theorem C27_terminates_without_repeat (hr : opts.repeatLast = false) (hfit : ∀ e i b π, (C.run e i b).1 = some π → planCost cost π < 2 ^ 31) :
    ∃ n st s, s ≠ Status.inProgress ∧ search cost opts C k env n = some (st, s) := by
  refine phases_terminate cost opts C hk hfit ?_ k _ (Inv.new (cost := cost) opts (C := C) hk env) (by simp)
  intro st hi hph
  refine ⟨1, run_progress cost opts C hk (m := 0) (st1 := st) (s := if st.plan.isSome then .solved else .failed) ?_ (Or.inl (by split <;> simp)) rfl⟩
  unfold step currentSearch
  rw [if_pos (by rw [hi.length]; omega), if_neg (by simp [hr])]

/-- C27: with repeat_last, iterated search ends if bounds are passed on and all plans of component
searches are cheaper than the bounds with which they are run. -/
theorem C27_terminates (hp : opts.passBound = true) (hstrict : ∀ e i b π, (C.run e i b).1 = some π → planCost cost π < 2 ^ 31 ∧ (planCost cost π : Int) < b) :
    ∃ n st s, s ≠ Status.inProgress ∧ search cost opts C k env n = some (st, s) := by
  refine phases_terminate cost opts C hk (fun e i b π h => (hstrict e i b π h).1) ?_ k _ (Inv.new (cost := cost) opts (C := C) hk env) (by simp)
  intro st hi hph
  exact last_terminates cost opts C hk hp hstrict st.bestBound.toNat st hi hph (fun _ => Int.self_le_toNat _)

end Verif.Iterated

namespace Verif.Iterated
open Spec

/-- component searches with prepared outcomes: the environment counts the runs -/
def scripted (outcomes : List (Option (List Nat))) (bounds : List Int) : Comps Nat where
  bound i := bounds.getD i 0
  run n _ _ := ((outcomes[n]?).getD none, n + 1)

/-- three component searches, the last one is run twice: plans of cost 9, 7 and 8 (not saved), 3 -/
example : (search id ⟨true, true, true, true, 100⟩ (scripted [some [4, 5], some [7], some [8], some [3]] [50, 60, 5]) 3 0 10).map (fun r => (r.1.saved, r.1.plan, r.1.calls.map (fun c => (c.index, c.bound)), r.2)) =
    some ([[4, 5], [7], [3]], some [3], [(0, 50), (1, 9), (2, 5), (2, 5), (2, 3)], Status.solved) := by decide +kernel

/-- the witness of a bound which is not respected: the result is SOLVED although no plan was
stored. This happens with pass_bound = true, one component and a plan whose cost is not below
the bound, and also if a component search without passed bound returns an expensive plan. -/
theorem C27_solved_without_plan : ∃ (C : Comps Nat) (st : St Nat), search id ⟨true, false, true, false, 5⟩ C 1 0 1 = some (st, .solved) ∧ st.plan = none ∧ st.saved = [] :=
  ⟨scripted [some [7]] [5], ⟨[false], 1, true, 5, true, [], none, 1, [⟨0, 5, some [7]⟩]⟩, rfl, rfl, rfl⟩

/-- a component search that always returns the empty plan, as eager search does whenever the initial
state is a goal state, whatever the bound -/
def emptyPlan : Comps Unit := ⟨fun _ => 2147483647, fun e _ _ => (some [], e)⟩

/-- C27: with the options of all anytime configurations (pass_bound, repeat_last, continue_on_solve)
iterated search never ends if the initial state is a goal state: the last component is run again
and again with bound 0. -/
theorem C27_repeat_diverges (cost : Nat → Nat) (n : Nat) : ∃ st, search cost ⟨true, true, false, true, 2147483647⟩ emptyPlan 1 () n = some (st, .inProgress) := by
  have key : ∀ (n : Nat) (st : St Unit), st.searches = [true] → (st.phase = 0 ∨ st.lastFound = true) →
      ∃ st', run cost ⟨true, true, false, true, 2147483647⟩ emptyPlan n st = some (st', .inProgress) := by
    intro n
    induction n with
    | zero => intro st _ _; exact ⟨st, rfl⟩
    | succ n ih =>
      intro st hs hp
      have hcur : currentSearch ⟨true, true, false, true, 2147483647⟩ st = some 0 := by
        unfold currentSearch
        rw [hs]
        by_cases h0 : st.phase = 0
        · simp [h0]
        · rcases hp with hp | hp
          · exact absurd hp h0
          · rw [if_pos (by simp; omega)]
            simp [hp]
      have : ∃ st1, step cost ⟨true, true, false, true, 2147483647⟩ emptyPlan st = some (st1, .inProgress) ∧ st1.searches = [true] ∧ st1.lastFound = true := by
        unfold step
        rw [hcur]
        simp only [hs, List.getElem?_cons_zero, emptyPlan, treatOutcome, calculatePlanCost]
        split
        · rename_i h; split at h <;> simp at h
        · rename_i st1 h
          have : st1.searches = [true] ∧ st1.lastFound = true := by
            split at h
            · simp only [Option.some.injEq] at h
              rw [← h]; simp [hs]
            · simp only [Option.some.injEq] at h
              rw [← h]; simp [hs]
          have hph : st1.phase = st.phase + 1 := by
            split at h <;> · simp only [Option.some.injEq] at h; rw [← h]
          refine ⟨st1, ?_, this⟩
          unfold release retained
          simp [this, hph, stepReturnValue]
      obtain ⟨st1, h1, h2, h3⟩ := this
      unfold run
      rw [h1]
      exact ih st1 h2 (Or.inr h3)
  exact key n _ rfl (Or.inl rfl)

/-- a task whose initial state is a goal state -/
def goalTask : Task := { Search.boundTask with goal := [] }

/-- eager search indeed returns the empty plan with bound 0 -/
example : ∃ n, Search.Eager.search (Search.World.ofTask goalTask (fun _ _ => true) .normal) (Search.plainEnv (fun _ => 0) 0) (OpenList.sortHeap State) (fun _ => true) ⟨true, 0⟩ (.bestFirst false 0) ⟨fun _ => 0, 0⟩ () n = some (.solved []) := by
  refine ⟨1, Search.probe_solved (n := 0) rfl ?_⟩
  rw [Search.sortedWorld_eq (by decide)]
  decide +kernel

end Verif.Iterated
