import Verif.Lemmas.RelaxMarks
import Verif.Lemmas.SimpleTask

/-
C31: h^max is correct and admissible.
C32: h^add, the FF heuristic and their preferred operators.

In all theorems: `H` any implementation of the standard heap functions, `t` any task whose facts
exist, `ss` any sequence of valid states evaluated one after the other by the same heuristic object.
-/
namespace Verif.Relax
open Verif.AdaptiveQueue

section
variable (H : StdHeap Nat) {t : Task} (hv : t.FactsValid)

/-! ### one evaluation -/

theorem ready_of_finished {K : Kind} {R : RTask} {S : Nat → Prop} {F : List Nat} {st : RSt} (h : Finished K R S F st) : ∃ bag, Rep st.queue bag := by
  obtain ⟨D, p, rem, d, bag, hx, _⟩ := h
  exact ⟨bag, hx.core.rep⟩

include hv in
theorem hmax_computed {s : State} (hs : t.ValidState s) {v : Option Nat} {st : RSt} (h : Computed .max (RTask.ofTask t) (factsOf t s) v st) : IsLeast? (t.HmaxGoalLe s) v := by
  have hlow : ∀ n, t.HmaxGoalLe s n → ∀ g ∈ (RTask.ofTask t).goals, ∃ n' ≤ n, Der .max (RTask.ofTask t).ops (· ∈ factsOf t s) g n' := by
    intro n hn g hg
    obtain ⟨f, h1, rfl⟩ := List.mem_map.mp hg
    obtain ⟨n', h2, h3⟩ := der_of_hmax (hn f h1)
    obtain ⟨n2, h4, h5⟩ := der_simplify h3
    exact ⟨n2, by omega, h5⟩
  cases v with
  | none =>
    intro n hn
    obtain ⟨g, h1, h2⟩ := h.dead rfl
    obtain ⟨n', _, h3⟩ := hlow n hn g h1
    exact h2 n' h3
  | some v =>
    obtain ⟨h1, h2⟩ := h.value v rfl
    simp only [comb, Nat.zero_add] at h2
    constructor
    · intro f hf
      have hin : propId t f ∈ (RTask.ofTask t).goals := List.mem_map_of_mem hf
      obtain ⟨_, h3, _⟩ := h1 _ hin
      obtain ⟨f', k1, k2, k3⟩ := hmax_of_der hv hs (der_mono (simplify_subset _) h3)
      rw [propId_inj k1 (hv.goal f hf) k2] at k3
      refine hmaxLe_mono k3 ?_
      rw [h2]
      exact foldr_max_le.mp (Nat.le_refl _) _ (List.mem_map_of_mem hin)
    · intro n hn
      rw [h2]
      refine foldr_max_le.mpr ?_
      intro x hx
      obtain ⟨g, hg, rfl⟩ := List.mem_map.mp hx
      obtain ⟨n', h3, h4⟩ := hlow n hn g hg
      have := (h1 g hg).2.2 n' h4
      omega

include hv in
theorem hadd_computed {s : State} (hs : t.ValidState s) {v : Option Nat} {st : RSt} (h : Computed .add (RTask.ofTask t) (factsOf t s) v st) : IsLeastCapped? (t.HaddGoalLe s) v := by
  have hlow : ∀ f n, f ∈ t.goal → t.HaddLe s f n → ∃ n' ≤ n, Der .add (RTask.ofTask t).ops (· ∈ factsOf t s) (propId t f) n' := by
    intro f n _ hn
    obtain ⟨n', h2, h3⟩ := der_of_hadd hv hn
    obtain ⟨n2, h4, h5⟩ := der_simplify h3
    exact ⟨n2, by omega, h5⟩
  cases v with
  | none =>
    rintro n ⟨m, hm, _⟩
    obtain ⟨g, h1, h2⟩ := h.dead rfl
    obtain ⟨f, hf, rfl⟩ := List.mem_map.mp h1
    obtain ⟨n', _, h3⟩ := hlow f _ hf (hm f hf)
    exact h2 n' h3
  | some v =>
    obtain ⟨h1, h2⟩ := h.value v rfl
    -- unclamped values
    have : ∀ f, ∃ k, f ∈ t.goal → t.HaddLe s f k ∧ st.val (propId t f) = Nat.min maxCost k := by
      intro f
      by_cases hf : f ∈ t.goal
      · obtain ⟨_, h3, _⟩ := h1 _ (List.mem_map_of_mem hf)
        obtain ⟨f', k, k1, k2, k3, k4⟩ := hadd_of_der hv hs (der_mono (simplify_subset _) h3)
        rw [propId_inj k1 (hv.goal f hf) k2] at k3
        exact ⟨k, fun _ => ⟨k3, k4⟩⟩
      · exact ⟨0, fun h => absurd h hf⟩
    choose k hk using this
    have hP : t.HaddGoalLe s (t.goal.map k).sum := ⟨k, fun g hg => (hk g hg).1, Nat.le_refl _⟩
    have hex : ∃ n, t.HaddGoalLe s n := ⟨_, hP⟩
    classical
    refine ⟨Nat.find hex, Nat.find_spec hex, fun n hn => Nat.find_min' hex hn, ?_⟩
    have hvk : v = Nat.min maxCost (t.goal.map k).sum := by
      rw [h2]
      simp only [comb, RTask.ofTask, List.map_map]
      have e : t.goal.map (st.val ∘ propId t) = t.goal.map (fun f => Nat.min maxCost (k f)) := List.map_congr_left (fun f hf => (hk f hf).2)
      rw [e, min_sum, Nat.zero_add]
    obtain ⟨m, hm1, hm2⟩ := Nat.find_spec hex
    have hle : v ≤ Nat.find hex := by
      have : v ≤ (t.goal.map m).sum := by
        rw [h2]
        simp only [comb, RTask.ofTask, List.map_map, Nat.zero_add]
        have : (t.goal.map (st.val ∘ propId t)).sum ≤ (t.goal.map m).sum := by
          refine List.sum_le_sum (fun f hf => ?_)
          obtain ⟨n', e1, e2⟩ := hlow f _ hf (hm1 f hf)
          have := (h1 _ (List.mem_map_of_mem hf)).2.2 n' e2
          simp only [Function.comp]
          omega
        show min _ _ ≤ _
        omega
      omega
    have hge := Nat.find_min' hex hP
    have e1 : Nat.min maxCost (t.goal.map k).sum = min maxCost (t.goal.map k).sum := rfl
    rw [e1] at hvk
    unfold maxCost at hvk
    omega

end

/-! ### C31 -/

theorem evalAll_spec {α : Type} {f : State → RSt → Option (α × RSt)} {V : State → Prop} {P : State → α → Prop}
    (hf : ∀ s st r st', V s → (∃ bag, Rep st.queue bag) → f s st = some (r, st') → P s r ∧ ∃ bag, Rep st'.queue bag) :
    ∀ (ss : List State) (st : RSt) (rs : List α), (∀ s ∈ ss, V s) → (∃ bag, Rep st.queue bag) → evalAll f ss st = some rs → AllResults P ss rs
  | [], st, rs, _, _, h => by
    simp only [evalAll, Option.some.injEq] at h
    rw [← h]; exact .nil
  | s :: ss, st, rs, hV, hst, h => by
    unfold evalAll at h
    cases hr : f s st with
    | none => simp [hr] at h
    | some r =>
      obtain ⟨r, st'⟩ := r
      obtain ⟨h1, h2⟩ := hf s st r st' (hV s (by simp)) hst hr
      simp only [hr] at h
      obtain ⟨rs', h3, rfl⟩ := Option.map_eq_some_iff.mp h
      exact .cons h1 (evalAll_spec hf ss st' rs' (fun x hx => hV x (by simp [hx])) h2 h3)

theorem evalAll_defined {α : Type} {f : State → RSt → Option (α × RSt)} {V : State → Prop}
    (hf : ∀ s st, V s → (∃ bag, Rep st.queue bag) → ∃ r st', f s st = some (r, st') ∧ ∃ bag, Rep st'.queue bag) :
    ∀ (ss : List State) (st : RSt), (∀ s ∈ ss, V s) → (∃ bag, Rep st.queue bag) → ∃ rs, evalAll f ss st = some rs
  | [], st, _, _ => ⟨[], rfl⟩
  | s :: ss, st, hV, hst => by
    obtain ⟨r, st', h1, h2⟩ := hf s st (hV s (by simp)) hst
    obtain ⟨rs, h3⟩ := evalAll_defined hf ss st' (fun x hx => hV x (by simp [hx])) h2
    exact ⟨r :: rs, by simp [evalAll, h1, h3]⟩

theorem init_ready : ∃ bag, Rep RSt.init.queue bag := ⟨[], Rep.new⟩

section
variable (H : StdHeap Nat) {t : Task} (hv : t.FactsValid)
include hv

theorem hmax_result {s : State} (hs : t.ValidState s) {st st' : RSt} (hst : ∃ bag, Rep st.queue bag) {v : Option Nat} (h : hmax H t s st = some (v, st')) :
    IsLeast? (t.HmaxGoalLe s) v ∧ ∃ bag, Rep st'.queue bag := by
  obtain ⟨bag, hb⟩ := hst
  unfold hmax at h
  rcases compute_cases H (ofTask_ok hv (K := .max) (by simp)) (factsOf_lt hs) (ofTask_goals hv) hb with ⟨v', st2, h1, h2⟩ | ⟨h1, _⟩
  · rw [h1] at h
    simp only [Option.some.injEq, Prod.mk.injEq] at h
    obtain ⟨rfl, rfl⟩ := h
    exact ⟨hmax_computed hv hs h2, ready_of_finished h2.fin⟩
  · rw [h1] at h; simp at h

/-- C31: every value returned by h^max is the least solution of the h^max equations; DEAD_END is
returned iff they have no finite solution. -/
theorem C31_hmax_exact (ss : List State) (hss : ∀ s ∈ ss, t.ValidState s) {vs : List (Option Nat)} (h : evalAll (hmax H t) ss RSt.init = some vs) :
    AllResults (fun s v => IsLeast? (t.HmaxGoalLe s) v) ss vs :=
  evalAll_spec (fun _ _ _ _ hs hst hr => hmax_result H hv hs hst hr) ss _ vs hss init_ready h

/-- C31: DEAD_END is returned iff the goal cannot be reached in the delete relaxation. -/
theorem C31_hmax_dead_end (ss : List State) (hss : ∀ s ∈ ss, t.ValidState s) {vs : List (Option Nat)} (h : evalAll (hmax H t) ss RSt.init = some vs) :
    AllResults (fun s v => v = none ↔ ¬t.IsRelaxedPlan (fun _ => True) s) ss vs := by
  refine List.Forall₂.imp ?_ (C31_hmax_exact H hv ss hss h)
  intro s v hr
  cases v with
  | none =>
    simp only [true_iff]
    intro hp
    obtain ⟨n, hn⟩ := bound_list (P := fun g n => t.HmaxLe s g n) (fun a n k h1 h2 => hmaxLe_mono h1 h2) t.goal (fun g hg => hmax_of_reach (hp g hg))
    exact hr n hn
  | some n =>
    simp only [reduceCtorEq, false_iff, not_not]
    exact fun g hg => reach_of_hmax (hr.1 g hg)

/-- C31: with operator costs that cannot overflow, every evaluation returns. -/
theorem C31_hmax_defined {B : Nat} (hB : ∀ o ∈ t.ops, o.cost ≤ B) (hov : ((t.vars.map (·.domain)).sum + 1) * B < 2 ^ 31) (ss : List State) (hss : ∀ s ∈ ss, t.ValidState s) :
    ∃ vs, evalAll (hmax H t) ss RSt.init = some vs := by
  refine evalAll_defined (V := t.ValidState) ?_ ss _ hss init_ready
  rintro s st hs ⟨bag, hb⟩
  have hB' : ∀ o ∈ (RTask.ofTask t).ops, o.base ≤ B := by
    intro o ho
    obtain ⟨i, cs, f, c, h, rfl⟩ := mem_allUnary.mp (simplify_subset _ _ ho)
    cases h with
    | op i op e h1 h2 => exact hB op (List.mem_of_getElem? h1)
    | ax a e h1 h2 => exact Nat.zero_le _
  obtain ⟨v, st', h1, h2⟩ := max_defined H (ofTask_ok hv (K := .max) (by simp)) hB' hov (factsOf_lt hs) (ofTask_goals hv) hb
  exact ⟨v, st', h1, ready_of_finished h2.fin⟩

end

theorem WF_factsValid {t : Task} (hwf : t.WF) (hax : t.axioms = []) : t.FactsValid := by
  refine ⟨?_, hwf.goalFacts⟩
  intro i cs f c h
  cases h with
  | op i o e h1 h2 =>
    have ho := List.mem_of_getElem? h1
    refine ⟨hwf.effFact o ho e h2, fun q hq => ?_⟩
    rcases List.mem_append.mp hq with hq | hq
    · exact hwf.pre o ho q hq
    · exact hwf.effCond o ho e h2 q hq
  | ax a e h1 h2 => rw [hax] at h1; simp at h1

/-- the facts of a successor cost at most the operator -/
theorem succ_facts {t : Task} (hwf : t.WF) (hax : t.axioms = []) {i : Nat} {o : Operator} {s s' : State} (hi : t.ops[i]? = some o) (ha : o.applicable s) (hsucc : t.SuccRel o s s')
    {f : Fact} (hf : f.holds s') : f.holds s ∨ ∃ e ∈ o.effects, e.fact = f ∧ e.fires s := by
  obtain ⟨m, h1, h2⟩ := hsucc
  have hl := hwf.ax.someAxioms hax f.var
  have hm : m[f.var]? = some f.val := by rw [← h2.base _ hl]; exact hf
  have hlt : f.var < s.length := by rw [← h1.1]; exact (List.getElem?_eq_some_iff.mp hm).1
  have hx := h1.2 f.var s[f.var] (List.getElem?_eq_getElem hlt)
  rw [hm] at hx
  cases has : o.assigned s f.var with
  | none =>
    left
    rw [has] at hx
    simp only [Option.getD_none, Option.some.injEq] at hx
    unfold Fact.holds
    rw [List.getElem?_eq_getElem hlt, hx]
  | some x =>
    right
    rw [has] at hx
    simp only [Option.getD_some, Option.some.injEq] at hx
    unfold Operator.assigned at has
    obtain ⟨e, he, hex⟩ := Option.map_eq_some_iff.mp has
    have hmem := List.mem_of_getLast? he
    simp only [List.mem_filter, Bool.and_eq_true, decide_eq_true_eq, beq_iff_eq] at hmem
    refine ⟨e, hmem.1, ?_, hmem.2.1⟩
    cases hfe : e.fact
    cases f
    simp_all

theorem hmax_succ {t : Task} (hwf : t.WF) (hax : t.axioms = []) {i : Nat} {o : Operator} {s s' : State} (hi : t.ops[i]? = some o) (ha : o.applicable s) (hsucc : t.SuccRel o s s')
    {f : Fact} {n : Nat} (h : t.HmaxLe s' f n) : t.HmaxLe s f (n + o.cost) := by
  induction h with
  | state f n h =>
    rcases succ_facts hwf hax hi ha hsucc h with h | ⟨e, h1, rfl, h3⟩
    · exact .state f _ h
    · refine .effect (some i) (o.pre ++ e.conds) e.fact o.cost 0 _ (.op i o e hi h1) ?_ (by omega)
      intro q hq
      rcases List.mem_append.mp hq with hq | hq
      · exact .state q 0 (ha q hq)
      · exact .state q 0 (h3 q hq)
  | effect j cs f c m n h _ hle ih => exact .effect j cs f c (m + o.cost) _ h ih (by omega)

section
variable (H : StdHeap Nat) {t : Task} (hwf : t.WF) (hax : t.axioms = [])
include hwf hax

/-- C31: h^max is consistent: for a task without axioms, the values of a state and of a successor differ by
at most the cost of the operator, and the value of goal states is 0. -/
theorem C31_hmax_consistent (s s' : State) (hs : t.ValidState s) {i : Nat} {o : Operator} (hi : t.ops[i]? = some o) (ha : o.applicable s) (hsucc : t.SuccRel o s s')
    {v v' : Option Nat} (h : evalAll (hmax H t) [s, s'] RSt.init = some [v, v']) :
    (allHold t.goal s → v = some 0) ∧ ∀ n', v' = some n' → ∃ n, v = some n ∧ n ≤ o.cost + n' := by
  have hs' : t.ValidState s' := Search.exec_valid hwf hs (.cons s i o s' [] s' hi ha hsucc (.nil s'))
  have hr := C31_hmax_exact H (WF_factsValid hwf hax) [s, s'] (by simp [hs, hs']) h
  obtain ⟨h1, hr⟩ := List.forall₂_cons.mp hr
  obtain ⟨h2, _⟩ := List.forall₂_cons.mp hr
  constructor
  · intro hg
    have h0 : t.HmaxGoalLe s 0 := fun g hgg => .state g 0 (hg g hgg)
    cases v with
    | none => exact absurd h0 (h1 0)
    | some v => rw [Nat.le_zero.mp (h1.2 0 h0)]
  · rintro n' rfl
    have h0 : t.HmaxGoalLe s (n' + o.cost) := fun g hg => hmax_succ hwf hax hi ha hsucc (h2.1 g hg)
    cases v with
    | none => exact absurd h0 (h1 _)
    | some v => exact ⟨v, rfl, by have := h1.2 _ h0; omega⟩

omit H in
theorem hmax_plan {s : State} {π : List Nat} (hπ : t.SolvesFrom s π) : t.HmaxGoalLe s (t.planCost π) := by
  obtain ⟨u, h1, h2⟩ := hπ
  induction h1 with
  | nil s => exact fun g hg => .state g _ (h2 g hg)
  | cons s i o s' π u k1 k2 k3 _ ih =>
    intro g hg
    have := hmax_succ hwf hax k1 k2 k3 (ih h2 g hg)
    refine hmaxLe_mono this ?_
    simp only [Task.planCost, List.map_cons, List.sum_cons, Task.opCost, k1, Option.map_some, Option.getD_some]
    omega

/-- C31: h^max is admissible: for a task without axioms, the value of a state is at most the cost of every plan for it, and DEAD_END
is only returned if there is none. -/
theorem C31_hmax_admissible (ss : List State) (hss : ∀ s ∈ ss, t.ValidState s) {vs : List (Option Nat)} (h : evalAll (hmax H t) ss RSt.init = some vs) :
    AllResults (fun s v => ∀ π, t.SolvesFrom s π → ∃ n, v = some n ∧ n ≤ t.planCost π) ss vs := by
  refine List.Forall₂.imp ?_ (C31_hmax_exact H (WF_factsValid hwf hax) ss hss h)
  intro s v hr π hπ
  have := hmax_plan hwf hax hπ
  cases v with
  | none => exact absurd this (hr _)
  | some n => exact ⟨n, rfl, hr.2 _ this⟩

end

/-! ### C32 -/

section
variable (H : StdHeap Nat) {t : Task} (hv : t.FactsValid) (hc : ∀ o ∈ t.ops, o.cost ≤ 100000000)
include hv hc

theorem add_result {s : State} (hs : t.ValidState s) {st : RSt} (hst : ∃ bag, Rep st.queue bag) :
    ∃ v st', compute H .add (RTask.ofTask t) (factsOf t s) st = some (v, st') ∧ Computed .add (RTask.ofTask t) (factsOf t s) v st' := by
  obtain ⟨bag, hb⟩ := hst
  exact add_defined H (ofTask_ok hv (K := .add) (fun _ => hc)) (factsOf_lt hs) (ofTask_goals hv) hb

/-- marking succeeds and gives a relaxed plan -/
theorem marks_result {s : State} (hs : t.ValidState s) {n : Nat} {st : RSt} (h : Computed .add (RTask.ofTask t) (factsOf t s) (some n) st) :
    ∃ m, markGoals (RTask.ofTask t) st (RTask.ofTask t).goals ⟨fun _ => false, fun _ => false, []⟩ = some m ∧
      t.IsRelaxedPlan (fun i => m.plan i = true) s ∧ (∀ i ∈ m.preferred, ∃ o, t.ops[i]? = some o ∧ o.applicable s) ∧ ∀ i, m.plan i = true → i < t.ops.length := by
  obtain ⟨D, p, rem, d, bag, hx, hg⟩ := goals_done h.fin (fun g hg => ((h.value n rfl).1 g hg).1)
  obtain ⟨m, h1, h2, _, h4⟩ := markGoals_spec hx.supports _ hg _ MInv.empty
  refine ⟨m, h1, ?_, pref_applicable hv hs h2, plan_ops h2⟩
  intro g hgg
  have hin : propId t g ∈ (RTask.ofTask t).goals := List.mem_map_of_mem hgg
  exact marked_reach hv hs hx.supports h2 D.length [] D rfl rfl _ (hg _ hin) (h4 _ hin) g (hv.goal g hgg) rfl

theorem hadd_result {s : State} (hs : t.ValidState s) {st : RSt} (hst : ∃ bag, Rep st.queue bag) :
    ∃ v pref st', hadd H t s st = some ((v, pref), st') ∧ (∃ bag, Rep st'.queue bag) ∧ IsLeastCapped? (t.HaddGoalLe s) v ∧ ∀ i ∈ pref, ∃ o, t.ops[i]? = some o ∧ o.applicable s := by
  obtain ⟨v, st', h1, h2⟩ := add_result H hv hc hs hst
  unfold hadd
  rw [h1]
  cases v with
  | none => exact ⟨none, [], st', rfl, ready_of_finished h2.fin, hadd_computed hv hs h2, by simp⟩
  | some n =>
    obtain ⟨m, k1, _, k3, _⟩ := marks_result hv hc hs h2
    simp only [k1, Option.map_some]
    exact ⟨some n, m.preferred, st', rfl, ready_of_finished h2.fin, hadd_computed hv hs h2, k3⟩

/-- C32: with operator costs up to 100000000, every evaluation of h^add returns; its value is the
least solution of the h^add equations (but at most 100000000), or DEAD_END if they have no finite solution. -/
theorem C32_hadd_exact_partial (ss : List State) (hss : ∀ s ∈ ss, t.ValidState s) :
    ∃ rs, evalAll (hadd H t) ss RSt.init = some rs ∧ AllResults (fun s r => IsLeastCapped? (t.HaddGoalLe s) r.1) ss rs := by
  obtain ⟨rs, h⟩ := evalAll_defined (f := hadd H t) (V := t.ValidState) (fun s st hs hst => by
    obtain ⟨v, pref, st', h1, h2, _⟩ := hadd_result H hv hc hs hst
    exact ⟨(v, pref), st', h1, h2⟩) ss _ hss init_ready
  refine ⟨rs, h, evalAll_spec (V := t.ValidState) ?_ ss _ rs hss init_ready h⟩
  intro s st r st' hs hst hr
  obtain ⟨v, pref, st2, h1, h2, h3, _⟩ := hadd_result H hv hc hs hst
  rw [h1] at hr
  simp only [Option.some.injEq, Prod.mk.injEq] at hr
  obtain ⟨rfl, rfl⟩ := hr
  exact ⟨h3, h2⟩

/-- C32: h^add returns DEAD_END iff the goal cannot be reached in the delete relaxation, and its
preferred operators are applicable. -/
theorem C32_hadd_dead_end_partial (ss : List State) (hss : ∀ s ∈ ss, t.ValidState s) {rs : List (Option Nat × List Nat)} (h : evalAll (hadd H t) ss RSt.init = some rs) :
    AllResults (fun s r => (r.1 = none ↔ ¬t.IsRelaxedPlan (fun _ => True) s) ∧ ∀ i ∈ r.2, ∃ o, t.ops[i]? = some o ∧ o.applicable s) ss rs := by
  refine evalAll_spec (V := t.ValidState) ?_ ss _ rs hss init_ready h
  intro s st r st' hs hst hr
  obtain ⟨v, pref, st2, h1, h2, h3, h4⟩ := hadd_result H hv hc hs hst
  rw [h1] at hr
  simp only [Option.some.injEq, Prod.mk.injEq] at hr
  obtain ⟨rfl, rfl⟩ := hr
  refine ⟨⟨?_, h4⟩, h2⟩
  cases v with
  | none =>
    simp only [true_iff]
    intro hp
    obtain ⟨n, hn⟩ := bound_list (P := fun g n => t.HaddLe s g n) (fun a n k h1 h2 => haddLe_mono h1 h2) t.goal (fun g hg => hadd_of_reach (hp g hg))
    exact h3 _ ⟨fun _ => n, hn, Nat.le_refl _⟩
  | some n =>
    obtain ⟨k, ⟨m, hm, _⟩, _⟩ := h3
    simp only [reduceCtorEq, false_iff, not_not]
    exact fun g hg => reach_of_hadd (hm g hg)

/-- what the result of the FF heuristic means -/
def FFCorrect (t : Task) (s : State) : Option FFResult → Prop
  | none => ¬t.IsRelaxedPlan (fun _ => True) s
  | some r =>
    t.IsRelaxedPlan (fun i => r.plan i = true) s ∧ (∀ i, r.plan i = true → i < t.ops.length) ∧
    r.value = (((List.range t.ops.length).filter r.plan).map t.opCost).sum ∧
    ∀ i ∈ r.preferred, ∃ o, t.ops[i]? = some o ∧ o.applicable s

theorem hff_result (hsum : (t.ops.map (·.cost)).sum < 2 ^ 31) {s : State} (hs : t.ValidState s) {st : RSt} (hst : ∃ bag, Rep st.queue bag) :
    ∃ r st', hff H t s st = some (r, st') ∧ (∃ bag, Rep st'.queue bag) ∧ FFCorrect t s r := by
  obtain ⟨v, st', h1, h2⟩ := add_result H hv hc hs hst
  have h3 := hadd_computed hv hs h2
  unfold hff
  rw [h1]
  cases v with
  | none =>
    refine ⟨none, st', rfl, ready_of_finished h2.fin, ?_⟩
    intro hp
    obtain ⟨n, hn⟩ := bound_list (P := fun g n => t.HaddLe s g n) (fun a n k h1 h2 => haddLe_mono h1 h2) t.goal (fun g hg => hadd_of_reach (hp g hg))
    exact h3 _ ⟨fun _ => n, hn, Nat.le_refl _⟩
  | some n =>
    obtain ⟨m, k1, k2, k3, k4⟩ := marks_result hv hc hs h2
    simp only [k1]
    cases hsp : sumPlan m.plan (t.ops.map (·.cost)) 0 0 with
    | none => exact absurd hsp (sumPlan_defined m.plan _ 0 0 (by omega))
    | some h =>
      simp only [Option.map_some]
      refine ⟨_, st', rfl, ready_of_finished h2.fin, k2, k4, ?_, k3⟩
      have := sumPlan_spec m.plan t.opCost (t.ops.map (·.cost)) 0 0 h (by
        intro j c hj
        rw [List.getElem?_map] at hj
        simp [Task.opCost, hj]) hsp
      simpa [List.range_eq_range'] using this

/-- C32: with operator costs up to 100000000 whose sum is an int, every evaluation of the FF heuristic
returns; DEAD_END means that the goal cannot be reached in the delete relaxation, otherwise the marked
operators are a relaxed plan, the value is the sum of their costs and preferred operators are applicable. -/
theorem C32_ff_relaxed_plan_partial (hsum : (t.ops.map (·.cost)).sum < 2 ^ 31) (ss : List State) (hss : ∀ s ∈ ss, t.ValidState s) :
    ∃ rs, evalAll (hff H t) ss RSt.init = some rs ∧ AllResults (FFCorrect t) ss rs := by
  obtain ⟨rs, h⟩ := evalAll_defined (f := hff H t) (V := t.ValidState) (fun s st hs hst => by
    obtain ⟨r, st', h1, h2, _⟩ := hff_result H hv hc hsum hs hst
    exact ⟨r, st', h1, h2⟩) ss _ hss init_ready
  refine ⟨rs, h, evalAll_spec (V := t.ValidState) ?_ ss _ rs hss init_ready h⟩
  intro s st r st' hs hst hr
  obtain ⟨r2, st2, h1, h2, h3⟩ := hff_result H hv hc hsum hs hst
  rw [h1] at hr
  simp only [Option.some.injEq, Prod.mk.injEq] at hr
  obtain ⟨rfl, rfl⟩ := hr
  exact ⟨h3, h2⟩

end

/-! ### C32 fails for larger costs

Costs of propositions are capped at 100000000, but base costs of unary operators without preconditions are not.
Then the costs in the queue are not monotone, a goal can be counted twice and the exploration ends before all goals
have been reached. -/

/-- the exploration with a limit on the number of iterations -/
def exploreFuel (H : StdHeap Nat) (K : Kind) (R : RTask) : Nat → Int → RSt → Option RSt
  | 0, _, _ => none
  | n + 1, unsolved, st =>
    if st.queue.empty then some st
    else
      match iteration H K R unsolved st with
      | none => none
      | some (.done st) => some st
      | some (.next unsolved st) => exploreFuel H K R n unsolved st

theorem exploreFuel_eq (H : StdHeap Nat) (K : Kind) (R : RTask) : ∀ (n : Nat) (u : Int) (st r : RSt), exploreFuel H K R n u st = some r → explore H K R u st = some r
  | 0, u, st, r, h => by simp [exploreFuel] at h
  | n + 1, u, st, r, h => by
    rw [explore]
    unfold exploreFuel at h
    split
    · rename_i he; rw [if_pos he] at h; exact h
    · rename_i he
      rw [if_neg he] at h
      cases hi : iteration H K R u st with
      | none => rw [hi] at h; simp at h
      | some it =>
        rw [hi] at h
        cases it with
        | done st' => exact h
        | next u' st' => exact exploreFuel_eq H K R n u' st' r h

/-- the value computed, with a limit on the number of iterations -/
def computeFuel (H : StdHeap Nat) (K : Kind) (R : RTask) (facts : List Nat) (st : RSt) (n : Nat) : Option (Option Nat) :=
  match setup H R facts st with
  | none => none
  | some st =>
    match exploreFuel H K R n R.goals.length st with
    | none => none
    | some st => goalCost K R st R.goals 0

theorem computeFuel_eq {H : StdHeap Nat} {K : Kind} {R : RTask} {facts : List Nat} {st : RSt} {n : Nat} {v : Option Nat} (h : computeFuel H K R facts st n = some v) :
    ∃ st', compute H K R facts st = some (v, st') := by
  unfold computeFuel at h
  unfold compute
  cases h1 : setup H R facts st with
  | none => rw [h1] at h; simp at h
  | some st1 =>
    rw [h1] at h
    simp only at h ⊢
    cases h2 : exploreFuel H K R n R.goals.length st1 with
    | none => rw [h2] at h; simp at h
    | some st2 =>
      rw [h2] at h
      simp only at h
      rw [exploreFuel_eq H K R n _ _ _ h2]
      simp only [h]
      exact ⟨st2, rfl⟩

/-- the task of the counterexample -/
def costTask : Task where
  vars := [⟨2, none, 0⟩, ⟨2, none, 0⟩, ⟨2, none, 0⟩, ⟨2, none, 0⟩]
  ops := [⟨[], [⟨[], ⟨0, 1⟩⟩], 200000000⟩, ⟨[], [⟨[], ⟨1, 1⟩⟩], 300000000⟩, ⟨[⟨1, 1⟩], [⟨[], ⟨0, 1⟩⟩], 1⟩, ⟨[], [⟨[], ⟨2, 1⟩⟩], 400000000⟩, ⟨[⟨2, 1⟩], [⟨[], ⟨3, 1⟩⟩], 0⟩]
  axioms := []
  init := [0, 0, 0, 0]
  goal := [⟨0, 1⟩, ⟨3, 1⟩]

theorem costTask_wf : costTask.WF := Search.taskOK_wf (by decide)

theorem costTask_plan : costTask.IsPlan [0, 3, 4] := Search.execOK_spec costTask_wf _ _ costTask_wf.init (by decide)

/-- the first push converts the bucket queue to a heap -/
theorem push_new (H : StdHeap Nat) {k v : Nat} (hk : 100 ≤ k) : (Queue.new : Queue Nat).push H k v = (Queue.heap []).push H k v := by
  have h1 : (Queue.new : Queue Nat).convertIfNecessary k = some (.heap []) := by
    simp only [Queue.new, Queue.convertIfNecessary]
    rw [if_pos ⟨hk, by omega⟩, extractLoop]
    rfl
  unfold Queue.push
  rw [h1]
  rfl

theorem setup_new (H : StdHeap Nat) (R : RTask) (o : UnaryOp) (os : List UnaryOp) (ho : R.ops = o :: os) (hp : o.pre.length = 0) (hb : 100 ≤ o.base) (facts : List Nat) (st : RSt) (hq : st.queue = Queue.new) :
    setup H R facts st = setup H R facts { st with queue := .heap [] } := by
  unfold setup
  rw [hq]
  have h1 : (Queue.new : Queue Nat).clear = some Queue.new := by
    simp only [Queue.new, Queue.clear, BucketQ.clear]
    rw [clearLoop]
    rfl
  rw [h1]
  simp only [Queue.clear]
  rw [ho, setupOps, setupOps]
  simp only [hp, if_true, RSt.enqueue, RSt.update, push_new H hb]

/-- C32 does not hold for operator costs above 100000000: the initial state is a dead end for h^add and the FF heuristic,
although it can be solved. -/
theorem C32_large_costs_fail : ∃ H, (∃ st, hadd H costTask costTask.init RSt.init = some ((none, []), st)) ∧ (∃ st, hff H costTask costTask.init RSt.init = some (none, st)) ∧ costTask.IsPlan [0, 3, 4] := by
  have h1 : computeFuel (insertHeap Nat) .add (RTask.ofTask costTask) (factsOf costTask costTask.init) { RSt.init with queue := .heap [] } 20 = some none := by decide +kernel
  obtain ⟨st, h2⟩ := computeFuel_eq h1
  have h3 : compute (insertHeap Nat) .add (RTask.ofTask costTask) (factsOf costTask costTask.init) RSt.init = some (none, st) := by
    rw [← h2]
    unfold compute
    rw [setup_new (insertHeap Nat) (RTask.ofTask costTask) ⟨[], 1, some 0, 200000000⟩
      [⟨[], 3, some 1, 300000000⟩, ⟨[3], 1, some 2, 1⟩, ⟨[], 5, some 3, 400000000⟩, ⟨[5], 7, some 4, 0⟩] (by decide +kernel) rfl (by decide) _ RSt.init rfl]
  exact ⟨insertHeap Nat, ⟨st, by unfold hadd; rw [h3]⟩, ⟨st, by unfold hff; rw [h3]⟩, costTask_plan⟩

/-! ### non-vacuity -/

/-- a task with a conditional effect: the operators 0 and 1 achieve the goals with cost 2 and 3 -/
def relTask : Task where
  vars := [⟨2, none, 0⟩, ⟨3, none, 0⟩]
  ops := [⟨[⟨0, 0⟩], [⟨[], ⟨0, 1⟩⟩], 2⟩, ⟨[⟨0, 1⟩], [⟨[⟨1, 0⟩], ⟨1, 2⟩⟩], 3⟩, ⟨[⟨1, 1⟩], [⟨[], ⟨1, 0⟩⟩], 1⟩]
  axioms := []
  init := [0, 0]
  goal := [⟨0, 1⟩, ⟨1, 2⟩]

theorem relTask_wf : relTask.WF := Search.taskOK_wf (by decide)

theorem relTask_valid : ∀ s ∈ [[0, 0], [1, 1], [1, 2]], relTask.ValidState s := by
  intro s hs
  apply Search.stateOK_spec
  revert s
  decide

example : relTask.IsPlan [0, 1] := Search.execOK_spec relTask_wf _ _ relTask_wf.init (by decide)

example : ∃ vs, evalAll (hmax (insertHeap Nat) relTask) [[0, 0], [1, 1], [1, 2]] RSt.init = some vs :=
  C31_hmax_defined (insertHeap Nat) (WF_factsValid relTask_wf rfl) (B := 3) (by decide) (by decide) _ relTask_valid

example : ∃ rs, evalAll (hff (insertHeap Nat) relTask) [[0, 0], [1, 1], [1, 2]] RSt.init = some rs ∧ AllResults (FFCorrect relTask) [[0, 0], [1, 1], [1, 2]] rs :=
  C32_ff_relaxed_plan_partial (insertHeap Nat) (WF_factsValid relTask_wf rfl) (by decide) (by decide) _ relTask_valid

example : relTask.HmaxGoalLe [0, 0] 5 := by
  have h0 : relTask.HmaxLe [0, 0] ⟨0, 1⟩ 2 := .effect (some 0) [⟨0, 0⟩] ⟨0, 1⟩ 2 0 2 (.op 0 ⟨[⟨0, 0⟩], [⟨[], ⟨0, 1⟩⟩], 2⟩ ⟨[], ⟨0, 1⟩⟩ rfl (by simp)) (by simp; exact .state _ _ (by decide)) (by omega)
  intro g hg
  simp only [relTask, List.mem_cons, List.not_mem_nil, or_false] at hg
  rcases hg with rfl | rfl
  · exact hmaxLe_mono h0 (by omega)
  · refine .effect (some 1) [⟨0, 1⟩, ⟨1, 0⟩] ⟨1, 2⟩ 3 2 5 (.op 1 ⟨[⟨0, 1⟩], [⟨[⟨1, 0⟩], ⟨1, 2⟩⟩], 3⟩ ⟨[⟨1, 0⟩], ⟨1, 2⟩⟩ rfl (by simp)) ?_ (by omega)
    intro q hq
    simp only [List.mem_cons, List.not_mem_nil, or_false] at hq
    rcases hq with rfl | rfl
    · exact h0
    · exact .state _ _ (by decide)

end Verif.Relax
