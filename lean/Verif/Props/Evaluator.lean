import Verif.Lemmas.Evaluator
import Verif.Spec.Plan

/-
C29: caching of evaluator results and heuristic estimates is transparent.
C30: values of combining evaluators.
-/
namespace Verif.Evaluators
open Verif.OpenList (infty)

variable {S : Type} [DecidableEq S]

/-- C29: in every history of evaluation contexts and changes of estimates, starting with empty
caches, every evaluator reports the value it would have without caching (with the estimates
valid at that time), the preferred operators of a heuristic if they are asked for, none for
dead ends; and no evaluator is computed twice in a context. -/
theorem C29_caching_transparent (comp : Nat → S → Int × List Nat) (hcomp : Spec.Estimates comp) (qs : List (Req S)) (hl : Spec.Legal qs)
    {outs : List (List Result × List Nat)} {st : St S} (h : run comp qs St.init = some (outs, st)) : Spec.Correct comp qs outs :=
  run_ok qs comp _ st outs hcomp (fun _ _ => Or.inl rfl) hl h

/-- The limit on estimates in C29 is needed: an estimate of 2^30 does not fit into the 31 bits
of a cache entry.  The second evaluation of the same state violates an assertion. -/
theorem C29_large_estimates_fail : Spec.Legal [.context ⟨(), none, false, false⟩ [.heuristic 0 true], .context ⟨(), none, false, false⟩ [.heuristic 0 true]] ∧
    (run (fun _ (_ : Unit) => (2 ^ 30, [])) [.context ⟨(), none, false, false⟩ [.heuristic 0 true]] St.init).isSome = true ∧
    run (fun _ (_ : Unit) => (2 ^ 30, [])) [.context ⟨(), none, false, false⟩ [.heuristic 0 true], .context ⟨(), none, false, false⟩ [.heuristic 0 true]] St.init = none := by
  refine ⟨?_, by decide, ?_⟩
  · simp [Spec.Legal, Spec.Addresses, Spec.NonNeg, Ev.subs]
  · have : (run (fun _ (_ : Unit) => (2 ^ 30, [])) [.context ⟨(), none, false, false⟩ [.heuristic 0 true], .context ⟨(), none, false, false⟩ [.heuristic 0 true]] St.init).isSome = false := by
      decide
    simpa using this

/-- the results of evaluating a list of evaluators in a new context -/
def evaluate (comp : Nat → S → Int × List Nat) (c : Context S) (evs : List Ev) (hc : Nat → S → HEntry) : Option (List Result) :=
  (askAll comp c evs ⟨fun _ => Result.new, hc, 0, []⟩).map (·.1)

section
variable {comp : Nat → S → Int × List Nat} (hcomp : Spec.Estimates comp) {c : Context S} (hg : ∀ g, c.g = some g → 0 ≤ g) {hc : Nat → S → HEntry} (hi : HInv comp hc)
include hcomp hg hi

theorem evaluate_ok {evs : List Ev} (ha : Spec.Addresses evs) (hn : Spec.NonNeg evs) {rs : List Result} (h : evaluate comp c evs hc = some rs) :
    List.Forall₂ (Spec.ResultOK comp c) evs rs := by
  unfold evaluate at h
  obtain ⟨x, h1, rfl⟩ := Option.map_eq_some_iff.mp h
  exact (askAll_ok hcomp (universe_of hcomp hg ha hn) evs (fun e he => List.mem_flatMap.mpr ⟨e, he, mem_subs_self e⟩) _ x.2 x.1
    ⟨hi, fun e _ h => by simp [Result.new, Result.isUninitialized] at h, by simp [LInv]⟩ h1).1

theorem evaluate_values {evs : List Ev} (ha : Spec.Addresses evs) (hn : Spec.NonNeg evs) {rs : List Result} (h : evaluate comp c evs hc = some rs) :
    rs.map (·.value) = evs.map (Spec.value comp c) := by
  have := evaluate_ok hcomp hg hi ha hn h
  clear h ha hn
  induction this with
  | nil => rfl
  | cons h1 _ ih => simp [h1.value, ih]

omit [DecidableEq S] hcomp hg hi in
theorem values_eq (es : List Ev) : Spec.values comp c es = es.map (Spec.value comp c) := by
  induction es with
  | nil => rfl
  | cons e es ih => simp [Spec.values, ih]

/-- C30, sum: evaluated together with its subevaluators, a sum evaluator is infinite if one of
them is, otherwise it is their sum. -/
theorem C30_sum {id : Nat} {es : List Ev} (ha : Spec.Addresses (es ++ [.sum id es])) (hn : Spec.NonNeg (es ++ [.sum id es])) {rs : List Result}
    (h : evaluate comp c (es ++ [.sum id es]) hc = some rs) :
    ∃ vs v, rs.map (·.value) = vs ++ [v] ∧ vs.length = es.length ∧ v = if infty ∈ vs then infty else vs.sum := by
  have := evaluate_values hcomp hg hi ha hn h
  rw [List.map_append] at this
  refine ⟨_, _, this, by simp, ?_⟩
  simp only [Spec.value, values_eq]

/-- C30, maximum -/
theorem C30_max {id : Nat} {es : List Ev} (ha : Spec.Addresses (es ++ [.max id es])) (hn : Spec.NonNeg (es ++ [.max id es])) {rs : List Result}
    (h : evaluate comp c (es ++ [.max id es]) hc = some rs) :
    ∃ vs v, rs.map (·.value) = vs ++ [v] ∧ vs.length = es.length ∧ (infty ∈ vs → v = infty) ∧ (∀ x ∈ vs, x ≤ v ∨ infty ∈ vs) ∧ (infty ∉ vs → v = 0 ∨ v ∈ vs) := by
  have := evaluate_values hcomp hg hi ha hn h
  rw [List.map_append] at this
  refine ⟨_, _, this, by simp, ?_⟩
  simp only [Spec.value, values_eq]
  have hfold : ∀ (vs : List Int) (a : Int), (vs.foldl Max.max a = a ∨ vs.foldl Max.max a ∈ vs) ∧ a ≤ vs.foldl Max.max a ∧ ∀ x ∈ vs, x ≤ vs.foldl Max.max a := by
    intro vs
    induction vs with
    | nil => simp
    | cons v vs ih =>
      intro a
      obtain ⟨i1, i2, i3⟩ := ih (Max.max a v)
      simp only [List.foldl_cons, List.mem_cons]
      refine ⟨?_, by omega, ?_⟩
      · rcases i1 with i1 | i1
        · rw [i1]
          rcases Int.le_total a v with h | h
          · right; left; omega
          · left; omega
        · exact Or.inr (Or.inr i1)
      · rintro x (rfl | hx)
        · omega
        · exact i3 x hx
  obtain ⟨f1, f2, f3⟩ := hfold (es.map (Spec.value comp c)) 0
  refine ⟨fun h => if_pos h, ?_, ?_⟩
  · intro x hx
    by_cases h : infty ∈ es.map (Spec.value comp c)
    · exact Or.inr h
    · rw [if_neg h]; exact Or.inl (f3 x hx)
  · intro h; rw [if_neg h]; exact f1

/-- C30, weight -/
theorem C30_weighted {id : Nat} {e : Ev} {w : Int} (ha : Spec.Addresses [e, .weighted id e w]) (hn : Spec.NonNeg [e, .weighted id e w]) {rs : List Result}
    (h : evaluate comp c [e, .weighted id e w] hc = some rs) :
    ∃ x v, rs.map (·.value) = [x, v] ∧ v = if x = infty then infty else x * w := by
  have := evaluate_values hcomp hg hi ha hn h
  refine ⟨_, _, this, ?_⟩
  simp only [Spec.value]

end

/-- C30: a maximum of evaluators is a lower bound of everything that all of them are lower
bounds of.  (`u` is the cost of a plan from the state; infinite values mean there is none.) -/
theorem C30_max_admissible {comp : Nat → S → Int × List Nat} {c : Context S} {id : Nat} {es : List Ev} {u : Int} (hu : 0 ≤ u)
    (hes : ∀ e ∈ es, Spec.value comp c e ≠ infty ∧ Spec.value comp c e ≤ u) : Spec.value comp c (.max id es) ≤ u := by
  simp only [Spec.value, values_eq]
  have : infty ∉ es.map (Spec.value comp c) := by
    simp only [List.mem_map, not_exists, not_and]
    exact fun e he => (hes e he).1
  rw [if_neg this]
  have hfold : ∀ (vs : List Int) (a : Int), a ≤ u → (∀ v ∈ vs, v ≤ u) → vs.foldl Max.max a ≤ u := by
    intro vs
    induction vs with
    | nil => intro a h _; exact h
    | cons v vs ih => intro a h1 h2; rw [List.foldl_cons]; exact ih _ (by have := h2 v (by simp); omega) (fun v hv => h2 v (by simp [hv]))
  refine hfold _ 0 hu (fun v hv => ?_)
  obtain ⟨e, he, rfl⟩ := List.mem_map.mp hv
  exact (hes e he).2

/-- A finite sum can be taken for infinity: if it is exactly INT_MAX. -/
theorem C30_sum_saturates : ∃ rs, evaluate (fun _ (_ : Unit) => (2 ^ 30 - 1, [])) ⟨(), none, false, false⟩ [.heuristic 0 false, .const 1 (2 ^ 30), .sum 2 [.heuristic 0 false, .const 1 (2 ^ 30)]]
    (fun _ _ => ⟨noValue, true⟩) = some rs ∧ rs.map (·.value) = [2 ^ 30 - 1, 2 ^ 30, infty] := by
  refine ⟨[⟨2 ^ 30 - 1, [], true⟩, ⟨2 ^ 30, [], false⟩, ⟨infty, [], false⟩], ?_, by decide⟩
  decide

/-! ### non-vacuity -/

/-- a history with a shared heuristic `h`, f = g + 3 * h, a maximum, preferred operators and a
change of an estimate -/
def exH : Ev := .heuristic 0 true
def exF : Ev := .sum 1 [.g 2, .weighted 3 exH 3]
def exM : Ev := .max 4 [exH, .const 5 2]
def exReqs : List (Req Nat) :=
  [.context ⟨0, some 4, true, true⟩ [exF, exM, exH], .context ⟨1, some 2, false, false⟩ [exF, .pref 6], .change 0 1 (7, [1]),
   .context ⟨1, some 1, false, false⟩ [exM, exF], .context ⟨2, some 1, false, true⟩ [exF]]
def exComp (_ : Nat) (s : Nat) : Int × List Nat := if s = 2 then (-1, []) else ((s % 10 : Nat) + 1, [s])

example : Spec.Legal exReqs := by
  simp [Spec.Legal, exReqs, Spec.Addresses, Spec.NonNeg, Ev.subs, exF, exM, exH, Ev.id]

example : Spec.Estimates exComp := by
  intro i s
  unfold exComp
  split
  · decide
  · simp only; omega

example : (run exComp exReqs St.init).map (fun x => x.1.map (fun o => (o.1.map (fun r => (r.value, r.preferred)), o.2))) =
    some [([(7, []), (2, []), (1, [0])], [1, 2, 3, 0, 4, 5]), ([(8, []), (1, [])], [1, 2, 3, 0, 6]), ([], []), ([(7, []), (22, [])], [4, 0, 5, 1, 2, 3]),
      ([(infty, [])], [1, 2, 3, 0])] := by decide

end Verif.Evaluators
