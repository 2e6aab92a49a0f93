import Verif.Lemmas.DeleteRelaxationRR
import Verif.Props.DeleteRelaxationIFExamples

/-
C84: the operator-counting heuristic with the delete-relaxation constraints by Rankooh and Rintanen.

In all theorems: `t` any task without axioms in which no operator has two effects with the same fact; `ac` any way to exclude cycles; `pick` any tie-breaking of the priority queue of the vertex elimination; `solve` any solver for mixed integer
programs that meets its contract up to an error less than 0.01; `obj` the heuristic after any sequence of evaluations.
-/
namespace Verif.CountingRR
open Verif.LP
open Verif.Search hiding Gen
open Verif.Counting hiding Gen
open Verif.CountingIF (facts achievers Gen stateFacts integral Supported mem_facts countCost_occurrences hplusLe_of hplus_of_solves hplus_step exTask exTask_supported exTask_hplus exists_mixedSolver)

/-- the heuristic object after its construction and the evaluation of some states -/
def Reached (t : Task) (kind : SolverType) (ac : Acyclicity) (pick : List (Nat × Fact) → Nat) (intCounts intVars : Bool) (solve : Program → (Nat → Bool) → Option Rat) (obj : Gen × Solver) : Prop :=
  ∃ obj0 ss, create t kind ac pick intCounts intVars = some obj0 ∧ (∀ s ∈ ss, t.ValidState s) ∧ computeAll t solve intCounts intVars ss obj0 = some obj

theorem taskOk {t : Task} (ht : Supported t) : TaskOk t := ⟨ht.wf, ht.once⟩

/-- C84: the heuristic can be constructed, except with integer variables and SoPlex, and except with vertex elimination if there is an operator with an effect that is one of its preconditions. (In particular, the elimination of the facts ends.) -/
theorem C84_created {t : Task} (hwf : t.WF) (kind : SolverType) (ac : Acyclicity) (pick : List (Nat × Fact) → Nat) (intCounts intVars : Bool) (h : kind = .soplex → intCounts = false ∧ intVars = false)
    (hno : ac = .vertexElimination → ∀ o ∈ t.ops, ∀ e ∈ o.effects, e.fact ∉ o.pre) : ∃ obj, create t kind ac pick intCounts intVars = some obj := by
  have hint : ∀ l : List Nat, ¬(kind = .soplex ∧ l.any (integral t intCounts intVars) = true) := by
    rintro l ⟨h1, h2⟩
    obtain ⟨rfl, rfl⟩ := h h1
    simp [integral] at h2
  unfold create
  cases ac with
  | none => simp only; rw [if_neg (hint _)]; exact ⟨_, rfl⟩
  | timeLabels => simp only; rw [if_neg (hint _)]; exact ⟨_, rfl⟩
  | vertexElimination =>
    obtain ⟨g, hg, hG, hall⟩ := veGraph_spec hwf pick
    have htr : (triples t).all (fun c => (c.2.1, c.2.2) ∈ g.edges) = true := by
      rw [List.all_eq_true]
      rintro ⟨i, q, p⟩ hc
      obtain ⟨o, e, ho, hq, he, rfl⟩ := mem_triples.mp hc
      have hom := List.mem_of_getElem? ho
      have := hG.task (q, e.fact) (mem_taskEdges.mpr ⟨fun h => hno rfl o hom e he (h ▸ hq), o, hom, hq, e, he, rfl⟩)
      simpa using this
    simp only [hg]
    rw [if_pos htr]
    simp only
    rw [if_neg (hint _)]
    exact ⟨_, rfl⟩

/-- C84: the condition about preconditions is needed: with vertex elimination and an operator with an effect that is one of its preconditions, the construction always ends with an exception. -/
theorem C84_created_fails {t : Task} (hwf : t.WF) {o : Operator} (ho : o ∈ t.ops) {e : Effect} (he : e ∈ o.effects) (hpre : e.fact ∈ o.pre) (kind : SolverType) (pick : List (Nat × Fact) → Nat) (intCounts intVars : Bool) :
    create t kind .vertexElimination pick intCounts intVars = none := by
  cases h : create t kind .vertexElimination pick intCounts intVars with
  | none => rfl
  | some obj =>
    obtain ⟨es, ds, hG, _⟩ := create_ok hwf h
    obtain ⟨elim, hg, _, htr⟩ := hG.graph rfl
    obtain ⟨i, hi⟩ := List.getElem?_of_mem ho
    have := htr _ (mem_triples.mpr ⟨o, e, hi, hpre, he, rfl⟩)
    exact absurd rfl (hg.valid _ _ this).1

/-- `v` is the minimum of the program, up to an error of `err` -/
def IsMinimum (p : Program) (int : Nat → Bool) (err v : Rat) : Prop := (∃ x, p.FeasibleMixed int x ∧ p.value x ≤ v + err) ∧ ∀ y, p.FeasibleMixed int y → v ≤ p.value y + err

/-- what the result of an evaluation says: a number is the minimum, less 0.01 and rounded up; DEAD_END means that there is no solution; there is only no result if the number does not fit into an int -/
def Correct (p : Program) (int : Nat → Bool) (err : Rat) : Option (Option Int) → Prop
  | some (some k) => ∃ v, IsMinimum p int err v ∧ k = ⌈v - 1 / 100⌉ ∧ k ≤ 2147483647
  | some none => ¬∃ x, p.FeasibleMixed int x
  | none => ∃ v, IsMinimum p int err v ∧ 2147483647 < ⌈v - 1 / 100⌉

section
variable {t : Task} {ac : Acyclicity} {es : List (Fact × Fact)} {ds : List (Fact × Fact × Fact)} {intCounts intVars : Bool} {err : Rat} {solve : Program → (Nat → Bool) → Option Rat} {s : State}

theorem counts_nonneg (ht : TaskOk t) (hG : GraphOk t ac es ds) {b : Fact → Rat} {x : Nat → Rat} (h : (program t ac es ds b).Feasible x) : ∀ i < t.ops.length, 0 ≤ x i := by
  intro i hi
  have := (((feasible_iff ht hG).mp h).cols _ (mem_count.mpr hi)).1 0 rfl
  rwa [count_index ht hG hi] at this

theorem compute_ok (ht : TaskOk t) (hG : GraphOk t ac es ds) (herr : err < 1 / 100) (hsolve : MixedSolver err solve) (hs : t.ValidState s) {obj : Gen × Solver} (h : ObjOk t ac es ds obj) :
    Correct (program t ac es ds (bound s)) (integral t intCounts intVars) err ((compute t solve intCounts intVars s obj).map (·.1)) ∧
    ((compute t solve intCounts intVars s obj).map (·.1) = match solve (program t ac es ds (bound s)) (integral t intCounts intVars) with
      | none => some none
      | some v => if ⌈v - 1 / 100⌉ ≤ 2147483647 ∧ -2147483648 ≤ ⌈v - 1 / 100⌉ then some (some ⌈v - 1 / 100⌉) else none) ∧
    ∀ r obj', compute t solve intCounts intVars s obj = some (r, obj') → ObjOk t ac es ds obj' := by
  obtain ⟨obj', h1, h2, h3⟩ := update_spec hs h
  obtain ⟨g', S'⟩ := obj'
  simp only at h3
  have hp := hsolve (program t ac es ds (bound s)) (integral t intCounts intVars) rfl (by
    intro c hc
    obtain ⟨k, _, rfl⟩ := List.mem_map.mp hc
    cases k <;> simp [column]) (wellFormed ht hG)
  have hcl := (clear_ok h2).1
  unfold compute
  rw [(clear_ok h).2, h1]
  simp only [Bool.false_eq_true, if_false, h3]
  cases hv : solve (program t ac es ds (bound s)) (integral t intCounts intVars) with
  | none =>
    refine ⟨hp.2 hv, rfl, ?_⟩
    rintro r obj' he
    simp only [Option.some.injEq, Prod.mk.injEq] at he
    exact he.2 ▸ hcl
  | some v =>
    have hm : IsMinimum _ _ _ v := hp.1 v hv
    simp only
    split
    · rename_i hle
      refine ⟨⟨v, hm, rfl, hle.1⟩, rfl, ?_⟩
      rintro r obj' he
      simp only [Option.some.injEq, Prod.mk.injEq] at he
      exact he.2 ▸ hcl
    · rename_i hle
      refine ⟨⟨v, hm, ?_⟩, rfl, by simp⟩
      by_contra hc
      apply hle
      refine ⟨by omega, ?_⟩
      obtain ⟨x, hx, hxv⟩ := hm.1
      rw [value_eq] at hxv
      have h0 := countCost_nonneg (counts_nonneg ht hG hx.1)
      have : (-1 : Int) ≤ ⌈v - 1 / 100⌉ := by
        have : (-1 : Int) - 1 < ⌈v - 1 / 100⌉ := by
          rw [Int.lt_ceil]
          push_cast
          linarith
        omega
      omega

theorem computeAll_ok (ht : TaskOk t) (hG : GraphOk t ac es ds) (herr : err < 1 / 100) (hsolve : MixedSolver err solve) {ss : List State} (hss : ∀ s ∈ ss, t.ValidState s) {obj0 obj : Gen × Solver} (h0 : ObjOk t ac es ds obj0)
    (h : computeAll t solve intCounts intVars ss obj0 = some obj) : ObjOk t ac es ds obj := by
  induction ss generalizing obj0 with
  | nil =>
    simp only [computeAll, Option.some.injEq] at h
    exact h ▸ h0
  | cons s ss ih =>
    rw [computeAll] at h
    cases hc : compute t solve intCounts intVars s obj0 with
    | none => rw [hc] at h; cases h
    | some r =>
      obtain ⟨v, obj1⟩ := r
      rw [hc] at h
      exact ih (fun s hs => hss s (by simp [hs])) ((compute_ok ht hG herr hsolve (hss s (by simp)) h0).2.2 v obj1 hc) h

theorem correct_le (ht : Supported t) (hG : GraphOk t ac es ds) (herr : err < 1 / 100) {r : Option (Option Int)} (h : Correct (program t ac es ds (bound s)) (integral t intCounts intVars) err r) {n : Nat} (hn : t.HplusLe s n) :
    (∃ k, r = some (some k) ∧ k ≤ n) ∨ (r = none ∧ 2147483647 < n) := by
  obtain ⟨R, _, h2, h3, h4⟩ := hn
  obtain ⟨x, h5, h6⟩ := feasible_of_relaxed (taskOk ht) hG ht.axioms h3 (x := occurrences R) (fun i _ => by unfold occurrences; positivity) (fun i _ hi => by
    unfold occurrences
    exact_mod_cast List.count_pos_iff.mpr hi) (integral t intCounts intVars) (fun i _ _ => ⟨(R.count i : Nat), by simp [occurrences]⟩)
  rw [countCost_occurrences h2] at h6
  have hle : ∀ v, IsMinimum (program t ac es ds (bound s)) (integral t intCounts intVars) err v → ⌈v - 1 / 100⌉ ≤ (n : Int) := by
    intro v hv
    refine ceil_le_of herr ?_
    have h7 := hv.2 _ h5
    rw [h6] at h7
    have : (((R.map t.opCost).sum : Nat) : Rat) ≤ n := by exact_mod_cast h4
    rw [Int.cast_natCast]
    linarith
  match r, h with
  | some (some k), ⟨v, hv, hk, _⟩ => exact .inl ⟨k, rfl, hk ▸ hle v hv⟩
  | some none, h => exact absurd ⟨_, h5⟩ h
  | none, ⟨v, hv, hk⟩ =>
    have := hle v hv
    exact .inr ⟨rfl, by omega⟩

/-- the operators that are used in a solution form a relaxed plan -/
theorem relaxed_of_solution (ht : Supported t) (hG : GraphOk t ac es ds) (hac : ac ≠ .none) (hconds : ∀ o ∈ t.ops, ∀ e ∈ o.effects, e.conds = []) (hno : ∀ o ∈ t.ops, ∀ e ∈ o.effects, e.fact ∉ o.pre) {x : Nat → Rat}
    (h : (program t ac es ds (bound s)).FeasibleMixed (integral t intCounts true) x) : ∃ n : Nat, t.HplusLe s n ∧ (n : Rat) ≤ (program t ac es ds (bound s)).value x := by
  have ht' := taskOk ht
  have hx := counts_nonneg ht' hG h.1
  have hS := (feasible_iff ht' hG).mp h.1
  have hrel := relaxed_of_sat ht' hG hac hconds hno hS (fun i f hi => by
    have hk : Key.achiever i f ∈ keys t ac es := mem_achiever.mpr hi
    refine h.2 _ (by simpa [program] using List.idxOf_lt_length_of_mem hk) ?_
    unfold integral
    by_cases hlt : (keys t ac es).idxOf (.achiever i f) < t.ops.length
    · have h2 := count_index ht' hG hlt
      have := (List.idxOf_inj (mem_count.mpr hlt)).mp h2
      cases this
    · simp [hlt])
  have hR : t.IsRelaxedPlan (· ∈ (List.range t.ops.length).filter (fun i => decide (1 ≤ x i))) s := by
    intro g hg
    have hmono : ∀ f, t.RelReach (fun i => 1 ≤ x ((keys t ac es).idxOf (.count i))) s f → t.RelReach (· ∈ (List.range t.ops.length).filter (fun i => decide (1 ≤ x i))) s f := by
      intro f hf
      induction hf with
      | state f hf => exact .state f hf
      | effect i cs f c he hR _ ih =>
        refine .effect i cs f c he (fun j hj => ?_) ih
        subst hj
        cases he with
        | op i o e ho _ =>
          have hlt := (List.getElem?_eq_some_iff.mp ho).1
          have := hR _ rfl
          rw [count_index ht' hG hlt] at this
          exact List.mem_filter.mpr ⟨List.mem_range.mpr hlt, by simpa using this⟩
    exact hmono g (hrel g hg)
  have hlt : ∀ i ∈ (List.range t.ops.length).filter (fun i => decide (1 ≤ x i)), i < t.ops.length := fun i hi => List.mem_range.mp (List.mem_filter.mp hi).1
  refine ⟨_, ⟨_, List.nodup_range.filter _, hlt, hR, le_refl _⟩, ?_⟩
  rw [value_eq, ← countCost_occurrences hlt]
  unfold Task.countCost
  refine List.sum_le_sum fun o ho => ?_
  have hlt := (List.getElem?_eq_some_iff.mp (List.mem_zipIdx_iff_getElem?.mp ho)).1
  refine mul_le_mul_of_nonneg_left ?_ (by positivity)
  unfold occurrences
  by_cases hm : o.2 ∈ (List.range t.ops.length).filter (fun i => decide (1 ≤ x i))
  · rw [List.count_eq_one_of_mem (List.nodup_range.filter _) hm]
    have h4 : 1 ≤ x o.2 := by simpa using (List.mem_filter.mp hm).2
    push_cast
    linarith
  · rw [List.count_eq_zero_of_not_mem hm]
    simpa using hx o.2 hlt

end

section
variable {t : Task} (ht : Supported t) {kind : SolverType} {ac : Acyclicity} {pick : List (Nat × Fact) → Nat} {intCounts intVars : Bool} {err : Rat} (herr : err < 1 / 100) {solve : Program → (Nat → Bool) → Option Rat} (hsolve : MixedSolver err solve)

include ht herr hsolve in
theorem reached_ok {obj : Gen × Solver} (h : Reached t kind ac pick intCounts intVars solve obj) : ∃ es ds, GraphOk t ac es ds ∧ ObjOk t ac es ds obj := by
  obtain ⟨obj0, ss, h1, h2, h3⟩ := h
  obtain ⟨es, ds, hG, h0⟩ := create_ok ht.wf h1
  exact ⟨es, ds, hG, computeAll_ok (taskOk ht) hG herr hsolve h2 h0 h3⟩

include ht herr hsolve in
/-- C84: the value of a state does not depend on the states that have been evaluated before. -/
theorem C84_history {obj obj2 : Gen × Solver} (h : Reached t kind ac pick intCounts intVars solve obj) (h2 : Reached t kind ac pick intCounts intVars solve obj2) {s : State} (hs : t.ValidState s) :
    (compute t solve intCounts intVars s obj).map (·.1) = (compute t solve intCounts intVars s obj2).map (·.1) := by
  obtain ⟨obj0, ss, k1, k2, k3⟩ := h
  obtain ⟨obj0', ss', k1', k2', k3'⟩ := h2
  rw [k1, Option.some.injEq] at k1'
  subst k1'
  obtain ⟨es, ds, hG, h0⟩ := create_ok ht.wf k1
  rw [(compute_ok (taskOk ht) hG herr hsolve hs (computeAll_ok (taskOk ht) hG herr hsolve k2 h0 k3)).2.1, (compute_ok (taskOk ht) hG herr hsolve hs (computeAll_ok (taskOk ht) hG herr hsolve k2' h0 k3')).2.1]

include ht herr hsolve in
/-- C84: with any options the value is at most h^+: if there is a relaxed plan whose cost is an int, a value that is not larger is returned. -/
theorem C84_below_hplus {obj : Gen × Solver} (h : Reached t kind ac pick intCounts intVars solve obj) {s : State} (hs : t.ValidState s) {n : Nat} (hn : t.HplusLe s n) (hint : n ≤ 2147483647) :
    ∃ k obj', compute t solve intCounts intVars s obj = some (some k, obj') ∧ k ≤ n := by
  obtain ⟨es, ds, hG, hO⟩ := reached_ok ht herr hsolve h
  rcases correct_le ht hG herr (compute_ok (taskOk ht) hG herr hsolve hs hO).1 hn with ⟨k, h1, h2⟩ | ⟨_, h1⟩
  · obtain ⟨⟨a, b⟩, h3, h4⟩ := Option.map_eq_some_iff.mp h1
    simp only at h4
    subst h4
    exact ⟨k, b, h3, h2⟩
  · omega

include ht herr hsolve in
/-- C84: with any options the heuristic is admissible and safe: if the state has a plan whose cost is an int, the evaluation returns a value that is not larger than its cost. -/
theorem C84_admissible {obj : Gen × Solver} (h : Reached t kind ac pick intCounts intVars solve obj) {s : State} (hs : t.ValidState s) {π : List Nat} (hπ : t.SolvesFrom s π) (hcost : t.planCost π ≤ 2147483647) :
    ∃ k obj', compute t solve intCounts intVars s obj = some (some k, obj') ∧ k ≤ t.planCost π :=
  C84_below_hplus ht herr hsolve h hs (hplus_of_solves ht hπ) hcost

include ht herr hsolve in
/-- C84: with vertex elimination or time labels and integer auxiliary variables, on tasks without conditional effects and without effects that are preconditions, the value is exactly h^+, the cost of the cheapest relaxed plans, and DEAD_END is
returned exactly if there is no relaxed plan. (Whether the operator counts are integers does not matter.) -/
theorem C84_hplus (hac : ac ≠ .none) (hconds : ∀ o ∈ t.ops, ∀ e ∈ o.effects, e.conds = []) (hno : ∀ o ∈ t.ops, ∀ e ∈ o.effects, e.fact ∉ o.pre) {obj : Gen × Solver} (h : Reached t kind ac pick intCounts true solve obj) {s : State} (hs : t.ValidState s) :
    (∀ n : Nat, t.HplusLe s n → (∀ m, t.HplusLe s m → n ≤ m) → n ≤ 2147483647 → ∃ obj', compute t solve intCounts true s obj = some (some (n : Int), obj')) ∧
    ((¬∃ n, t.HplusLe s n) → ∃ obj', compute t solve intCounts true s obj = some (none, obj')) := by
  obtain ⟨es, ds, hG, hO⟩ := reached_ok ht herr hsolve h
  have h3 := (compute_ok (taskOk ht) hG herr hsolve (intCounts := intCounts) (intVars := true) hs hO).1
  have hlow : ∀ v, IsMinimum (program t ac es ds (bound s)) (integral t intCounts true) err v → ∃ m : Nat, t.HplusLe s m ∧ (m : Int) ≤ ⌈v - 1 / 100⌉ := by
    intro v hv
    obtain ⟨x, hx, hxv⟩ := hv.1
    obtain ⟨m, hm, hle⟩ := relaxed_of_solution ht hG hac hconds hno hx
    refine ⟨m, hm, le_ceil_of herr ?_⟩
    rw [Int.cast_natCast]
    linarith
  constructor
  · intro n hn hmin hint
    obtain ⟨k, obj', h1, h2⟩ := C84_below_hplus ht herr hsolve h hs hn hint
    rw [h1] at h3
    obtain ⟨v, hv, hk, _⟩ := h3
    obtain ⟨m, hm, hmv⟩ := hlow v hv
    have := hmin m hm
    have : k = n := by omega
    exact ⟨obj', by rw [h1, this]⟩
  · intro hne
    cases hr : compute t solve intCounts true s obj with
    | none =>
      rw [hr] at h3
      obtain ⟨v, hv, _⟩ := h3
      obtain ⟨m, hm, _⟩ := hlow v hv
      exact absurd ⟨m, hm⟩ hne
    | some r =>
      obtain ⟨v, obj'⟩ := r
      cases v with
      | none => exact ⟨obj', rfl⟩
      | some k =>
        rw [hr] at h3
        obtain ⟨v, hv, _⟩ := h3
        obtain ⟨m, hm, _⟩ := hlow v hv
        exact absurd ⟨m, hm⟩ hne

include ht herr hsolve in
/-- C84: values are never negative. -/
theorem C84_nonneg {obj obj' : Gen × Solver} (h : Reached t kind ac pick intCounts intVars solve obj) {s : State} (hs : t.ValidState s) {k : Int} (hk : compute t solve intCounts intVars s obj = some (some k, obj')) : 0 ≤ k := by
  obtain ⟨es, ds, hG, hO⟩ := reached_ok ht herr hsolve h
  have h3 := (compute_ok (taskOk ht) hG herr hsolve (intCounts := intCounts) (intVars := intVars) hs hO).1
  rw [hk] at h3
  obtain ⟨v, hv, rfl, _⟩ := h3
  obtain ⟨x, hx, hxv⟩ := hv.1
  rw [value_eq] at hxv
  have := countCost_nonneg (counts_nonneg (taskOk ht) hG hx.1)
  exact le_ceil_of (n := 0) herr (by push_cast; linarith)

include ht herr hsolve in
/-- C84: the value of goal states is 0. -/
theorem C84_goal {obj : Gen × Solver} (h : Reached t kind ac pick intCounts intVars solve obj) {s : State} (hs : t.ValidState s) (hg : allHold t.goal s) : ∃ obj', compute t solve intCounts intVars s obj = some (some 0, obj') := by
  obtain ⟨k, obj', h1, h2⟩ := C84_admissible ht herr hsolve h hs (π := []) ⟨s, .nil s, hg⟩ (by simp [Task.planCost])
  have h3 := C84_nonneg ht herr hsolve h hs h1
  simp only [Task.planCost, List.map_nil, List.sum_nil] at h2
  have : k = 0 := by omega
  exact ⟨obj', by rw [h1, this]⟩

include ht herr hsolve in
/-- C84: with vertex elimination or time labels and integer auxiliary variables, on tasks without conditional effects and without effects that are preconditions, the heuristic is consistent, whatever the errors of the solver are. -/
theorem C84_hplus_consistent (hac : ac ≠ .none) (hconds : ∀ o ∈ t.ops, ∀ e ∈ o.effects, e.conds = []) (hno : ∀ o ∈ t.ops, ∀ e ∈ o.effects, e.fact ∉ o.pre) {obj1 obj2 obj1' obj2' : Gen × Solver} (h1 : Reached t kind ac pick intCounts true solve obj1)
    (h2 : Reached t kind ac pick intCounts true solve obj2) {s s' : State} (hs : t.ValidState s) {i : Nat} {o : Operator} (ho : t.ops[i]? = some o) (ha : o.applicable s)
    (hsu : t.SuccRel o s s') {r : Option Int} {k' : Int} (hr : compute t solve intCounts true s obj1 = some (r, obj1')) (hr' : compute t solve intCounts true s' obj2 = some (some k', obj2')) : ∃ k, r = some k ∧ k ≤ o.cost + k' := by
  have hs' := succ_valid ht.wf hs ho ha hsu
  obtain ⟨es, ds, hG, hO⟩ := reached_ok ht herr hsolve h1
  obtain ⟨es', ds', hG', hO'⟩ := reached_ok ht herr hsolve h2
  have c1 := (compute_ok (taskOk ht) hG herr hsolve (intCounts := intCounts) (intVars := true) hs hO).1
  have c2 := (compute_ok (taskOk ht) hG' herr hsolve (intCounts := intCounts) (intVars := true) hs' hO').1
  rw [hr'] at c2
  obtain ⟨v', hv', rfl, _⟩ := c2
  obtain ⟨x, hx, hxv⟩ := hv'.1
  obtain ⟨m, hm, hmle⟩ := relaxed_of_solution ht hG' hac hconds hno hx
  have hle : (m : Int) ≤ ⌈v' - 1 / 100⌉ := le_ceil_of herr (by rw [Int.cast_natCast]; linarith)
  rcases correct_le ht hG herr c1 (hplus_step ht ho ha hsu hm) with ⟨k, k1, k2⟩ | ⟨k1, _⟩
  · rw [hr] at k1
    simp only [Option.map_some, Option.some.injEq] at k1
    refine ⟨k, k1, ?_⟩
    rw [Nat.cast_add] at k2
    linarith
  · rw [hr] at k1
    simp at k1

end

/-! ### A* -/

/-- the number of uses of an operator may be increased to 1 -/
theorem sat_ones {t : Task} {ac : Acyclicity} {es : List (Fact × Fact)} {ds : List (Fact × Fact × Fact)} {b : Fact → Rat} {y : Key → Rat} (h : Sat t ac es ds b y) : Sat t ac es ds b (fun k => match k with | .count _ => 1 | k => y k) := by
  constructor
  · intro k hk
    cases k with
    | count i => simp [column, Between]
    | reached f => exact h.cols _ hk
    | achiever i f => exact h.cols _ hk
    | edge a b => exact h.cols _ hk
    | time f => exact h.cols _ hk
  · intro r hr
    have hr0 := h.rows r hr
    rcases List.mem_append.mp hr with hr | hr
    · obtain ⟨f, hf, rfl⟩ := List.mem_map.mp hr
      exact factRow_ok.mpr (factRow_ok.mp hr0)
    · rcases mem_otherRows.mp hr with ⟨c, hc, rfl⟩ | ⟨i, o, e, ho, he, rfl⟩ | ⟨_, h'⟩ | ⟨_, c, hc, hne, rfl⟩
      · exact supportRow_ok.mpr (supportRow_ok.mp hr0)
      · exact countRow_ok.mpr ((h.cols _ (mem_achiever.mpr (CountingIF.mem_achievers.mpr ⟨o, e, ho, he, rfl⟩))).2 1 rfl)
      · rcases h' with ⟨c, hc, rfl⟩ | ⟨e, _, _, rfl⟩ | ⟨c, _, rfl⟩
        · exact orderRow_ok.mpr (orderRow_ok.mp hr0)
        · exact cycleRow_ok.mpr (cycleRow_ok.mp hr0)
        · exact shortcutRow_ok.mpr (shortcutRow_ok.mp hr0)
      · exact timeRow_ok.mpr (timeRow_ok.mp hr0)

theorem minimum_le {t : Task} (ht : TaskOk t) {ac : Acyclicity} {es : List (Fact × Fact)} {ds : List (Fact × Fact × Fact)} (hG : GraphOk t ac es ds) {b : Fact → Rat} {intCounts intVars : Bool} {err v : Rat}
    (h : IsMinimum (program t ac es ds b) (integral t intCounts intVars) err v) : v ≤ ((t.ops.map (·.cost)).sum : Nat) + err := by
  obtain ⟨x, hx, _⟩ := h.1
  let y : Key → Rat := fun k => match k with | .count _ => 1 | k => x ((keys t ac es).idxOf k)
  have hS : Sat t ac es ds b y := sat_ones ((feasible_iff ht hG).mp hx.1)
  have hcount : ∀ i < t.ops.length, combine (keys t ac es) y i = 1 := by
    intro i hi
    have := combine_key (y := y) (mem_count (ac := ac) (es := es).mpr hi)
    rwa [count_index ht hG hi] at this
  have h5 := h.2 (combine (keys t ac es) y) ⟨(feasible_iff ht hG).mpr (hS.congr ht hG fun k hk => combine_key hk), fun i hi hint => by
    rcases Nat.lt_or_ge i t.ops.length with hlt | hge
    · exact ⟨1, by rw [hcount i hlt]; simp⟩
    · unfold combine
      cases hk : (keys t ac es)[i]? with
      | none => exact ⟨0, by simp⟩
      | some k =>
        obtain ⟨hj, he⟩ := List.getElem?_eq_some_iff.mp hk
        have hidx : (keys t ac es).idxOf k = i := by rw [← he]; exact List.Nodup.idxOf_getElem (keys_nodup ht hG) i hj
        have := hx.2 i hi hint
        rw [← hidx] at this
        cases k with
        | count j => exact ⟨1, by simp [y]⟩
        | reached f => exact this
        | achiever j f => exact this
        | edge a b => exact this
        | time f => exact this⟩
  rw [value_eq] at h5
  have h4 : t.countCost (combine (keys t ac es) y) = ((t.ops.map (·.cost)).sum : Nat) := by
    unfold Task.countCost
    have : (t.ops.zipIdx.map (fun o => (o.1.cost : Rat) * combine (keys t ac es) y o.2)) = (t.ops.map (·.cost)).map (fun c : Nat => (c : Rat)) := by
      rw [List.map_map]
      conv_rhs => rw [← List.zipIdx_map_fst 0 t.ops, List.map_map]
      refine List.map_congr_left fun o ho => ?_
      rw [hcount _ (List.getElem?_eq_some_iff.mp (List.mem_zipIdx_iff_getElem?.mp ho)).1, mul_one]
      rfl
    rw [this]
    exact (Nat.cast_list_sum _).symm
  rw [h4] at h5
  exact h5

/-- C84 and C23: A* with the heuristic, with any options, on a task whose costs fit into the C++ types, ends; it returns a plan of minimal cost if there is a plan, and fails otherwise. -/
theorem C84_astar {t : Task} (ht : Supported t) (kind : SolverType) (ac : Acyclicity) (pick : List (Nat × Fact) → Nat) (intCounts intVars : Bool) {err : Rat} (herr : err < 1 / 100) {solve : Program → (Nat → Bool) → Option Rat} (hsolve : MixedSolver err solve)
    (hb : (t.ops.map (·.cost)).sum < 2 ^ 30) (hfit : t.FitsTypes .normal) (hC : ∀ i, t.opCost i < 2 ^ 29) :
    ∃ (Ok : Gen × Solver → Prop) (hobj : AdmissibleObject t Ok (fun s obj => (compute t solve intCounts intVars s obj).map (fun r => (r.1.map Int.toNat, r.2)))),
      (∀ obj, create t kind ac pick intCounts intVars = some obj → Ok obj) ∧
      ∀ (u : Nat → Nat → Bool) (H' : OpenList.StdHeap State) (rel : Nat → Bool) (rng : OpenList.Rng) (σ : { obj : Gen × Solver // Ok obj }),
        ∃ n, OptimalResult t (Eager.search (World.ofTask t u .normal) (objEnv hobj) H' rel ⟨true, 2147483647⟩ (.tiebreaking false false [1, 0]) rng σ n) := by
  have hobj : AdmissibleObject t (fun obj => ∃ es ds, GraphOk t ac es ds ∧ ObjOk t ac es ds obj) (fun s obj => (compute t solve intCounts intVars s obj).map (fun r => (r.1.map Int.toNat, r.2))) := by
    rintro s obj hs ⟨es, ds, hG, hm⟩
    obtain ⟨h1, _, h2⟩ := compute_ok (taskOk ht) hG herr hsolve (intCounts := intCounts) (intVars := intVars) hs hm
    have hbound : ∀ v, IsMinimum (program t ac es ds (bound s)) (integral t intCounts intVars) err v → ⌈v - 1 / 100⌉ ≤ 2 ^ 30 - 1 := by
      intro v hv
      have h3 := minimum_le (taskOk ht) hG hv
      refine ceil_le_of herr ?_
      have h5 : (((t.ops.map (·.cost)).sum : Nat) : Rat) ≤ 2 ^ 30 - 1 := by
        have : (((t.ops.map (·.cost)).sum + 1 : Nat) : Rat) ≤ ((2 ^ 30 : Nat) : Rat) := Nat.cast_le.mpr hb
        rw [Nat.cast_add] at this
        norm_num at this ⊢
        linarith
      norm_num at h5 h3 ⊢
      linarith
    cases hr : compute t solve intCounts intVars s obj with
    | none =>
      rw [hr] at h1
      obtain ⟨v, h4, h5⟩ := h1
      have := hbound v h4
      omega
    | some r =>
      obtain ⟨v, obj'⟩ := r
      refine ⟨v.map Int.toNat, obj', by simp only [hr, Option.map_some], ⟨es, ds, hG, h2 v obj' hr⟩, fun n hn => ?_, fun π hπ => ?_⟩
      · obtain ⟨k, rfl, rfl⟩ := Option.map_eq_some_iff.mp hn
        rw [hr] at h1
        obtain ⟨w, h4, h5, _⟩ := h1
        have := hbound w h4
        omega
      · rcases correct_le ht hG herr h1 (hplus_of_solves ht hπ) with ⟨k, k1, k2⟩ | ⟨k1, _⟩
        · rw [hr] at k1
          simp only [Option.map_some, Option.some.injEq] at k1
          exact ⟨k.toNat, by rw [k1]; rfl, by omega⟩
        · rw [hr] at k1
          simp at k1
  exact ⟨_, hobj, fun obj h => create_ok ht.wf h, fun u H' rel rng σ => astar_object hobj ht.wf hfit hC u H' rel rng σ⟩

/-! ### Examples -/

/-- the hypotheses can be met, and the heuristic is not trivial: with vertex elimination and with time labels, the value of the initial state is 5 = h^+ -/
example : (∃ solve, MixedSolver (1 / 200) solve) ∧ ∀ solve, MixedSolver (1 / 200) solve → ∀ ac, ac ≠ .none → ∀ pick, ∃ obj obj', create exTask .cplex ac pick true true = some obj ∧ compute exTask solve true true [0, 0] obj = some (some 5, obj') := by
  refine ⟨exists_mixedSolver (by norm_num), fun solve hsolve ac hac pick => ?_⟩
  have hno : ∀ o ∈ exTask.ops, ∀ e ∈ o.effects, e.fact ∉ o.pre := by decide
  obtain ⟨obj, h0⟩ := C84_created exTask_supported.wf .cplex ac pick true true nofun (fun _ => hno)
  obtain ⟨obj', h1⟩ := (C84_hplus exTask_supported (by norm_num) hsolve hac (by decide) hno ⟨obj, [], h0, by simp, rfl⟩ (s := [0, 0]) (stateOK_spec (by decide))).1 5 exTask_hplus.1 exTask_hplus.2 (by omega)
  exact ⟨obj, obj', h0, h1⟩

/-- a task in which the goal is needed to reach the goal with an operator of cost 1; an operator of cost 5 reaches it directly -/
def selfTask : Task where
  vars := [⟨2, none, 0⟩]
  ops := [⟨[⟨0, 1⟩], [⟨[], ⟨0, 1⟩⟩], 1⟩, ⟨[], [⟨[], ⟨0, 1⟩⟩], 5⟩]
  axioms := []
  init := [0]
  goal := [⟨0, 1⟩]

theorem selfTask_supported : Supported selfTask := ⟨taskOK_wf (by decide), rfl, by decide⟩

theorem selfTask_reach {R : Nat → Prop} {f : Fact} (h : selfTask.RelReach R [0] f) : f = ⟨0, 1⟩ → R 1 := by
  induction h with
  | state f h => rintro rfl; simp [Fact.holds] at h
  | effect i cs f c he hR _ ih =>
    cases he with
    | op i o e ho he =>
      match i with
      | 0 =>
        simp only [selfTask, List.getElem?_cons_zero, Option.some.injEq] at ho
        subst ho
        exact fun _ => ih ⟨0, 1⟩ (by simp) rfl
      | 1 => exact fun _ => hR 1 rfl
      | n + 2 => simp [selfTask] at ho
    | ax a e ha _ => simp [selfTask] at ha

/-- C84: the condition that no effect is a precondition is needed for the exact value with time labels, too: for this task h^+ is 5, but with time labels and integers the value is at most 1, because an operator may support itself. -/
theorem C84_hplus_self_fails : selfTask.HplusLe [0] 5 ∧ (∀ m, selfTask.HplusLe [0] m → 5 ≤ m) ∧
    ∀ (kind : SolverType) (pick : List (Nat × Fact) → Nat) (intCounts : Bool) (solve : Program → (Nat → Bool) → Option Rat) (err : Rat), err < 1 / 100 → MixedSolver err solve →
      ∀ obj, create selfTask kind .timeLabels pick intCounts true = some obj → ∃ k obj', compute selfTask solve intCounts true [0] obj = some (some k, obj') ∧ k ≤ 1 := by
  have hplus : selfTask.HplusLe [0] 5 := by
    refine ⟨[1], by decide, by decide, ?_, by decide⟩
    intro g hg
    simp only [selfTask, List.mem_singleton] at hg
    subst hg
    exact .effect (some 1) _ _ 5 (.op 1 ⟨[], [⟨[], ⟨0, 1⟩⟩], 5⟩ ⟨[], ⟨0, 1⟩⟩ rfl (by simp)) (by simp) (by simp)
  refine ⟨hplus, ?_, ?_⟩
  · rintro m ⟨R, h1, h2, h3, h4⟩
    have h5 := selfTask_reach (h3 ⟨0, 1⟩ (by simp [selfTask])) rfl
    have h6 : selfTask.opCost 1 ≤ (R.map selfTask.opCost).sum := List.single_le_sum (fun _ _ => Nat.zero_le _) _ (List.mem_map_of_mem h5)
    have : selfTask.opCost 1 = 5 := rfl
    omega
  · intro kind pick intCounts solve err herr hsolve obj hobj
    have hr : Reached selfTask kind .timeLabels pick intCounts true solve obj := ⟨obj, [], hobj, by simp, rfl⟩
    obtain ⟨k, obj', h1, _⟩ := C84_below_hplus selfTask_supported herr hsolve hr (s := [0]) (stateOK_spec (by decide)) hplus (by omega)
    refine ⟨k, obj', h1, ?_⟩
    obtain ⟨es, ds, hG, hO⟩ := reached_ok selfTask_supported herr hsolve hr
    have ht := taskOk selfTask_supported
    have h3 := (compute_ok ht hG herr hsolve (intCounts := intCounts) (intVars := true) (s := [0]) (stateOK_spec (by decide)) hO).1
    rw [h1] at h3
    obtain ⟨v, hv, rfl, _⟩ := h3
    let y : Key → Rat := fun k => match k with | .count 1 => 0 | .achiever 1 _ => 0 | _ => 1
    have hfacts : facts selfTask = [⟨0, 0⟩, ⟨0, 1⟩] := by decide +kernel
    have hpairs : pairs selfTask = [] := by decide +kernel
    have htriples : triples selfTask = [(0, ⟨0, 1⟩, ⟨0, 1⟩)] := by decide +kernel
    have hach0 : achievers selfTask ⟨0, 0⟩ = [] := by decide +kernel
    have hach1 : achievers selfTask ⟨0, 1⟩ = [0, 1] := by decide +kernel
    have hS : Sat selfTask .timeLabels es ds (bound [0]) y := by
      constructor
      · intro k hk
        cases k with
        | count i =>
          have := mem_count.mp hk
          simp only [column, Between, Option.some.injEq, forall_eq', reduceCtorEq, false_implies, implies_true, and_true]
          simp only [y]
          split <;> norm_num
        | reached f =>
          simp only [column, Between, Option.some.injEq, forall_eq', y]
          split <;> norm_num
        | achiever i f =>
          simp only [column, Between, Option.some.injEq, forall_eq', y]
          split <;> norm_num
        | edge a b => simp only [column, Between, Option.some.injEq, forall_eq', y]; norm_num
        | time f =>
          simp only [column, Between, Option.some.injEq, forall_eq', y, hfacts]
          norm_num
      · intro r hr
        rcases List.mem_append.mp hr with hr | hr
        · obtain ⟨f, hf, rfl⟩ := List.mem_map.mp hr
          rw [factRow_ok]
          rw [hfacts] at hf
          simp only [List.mem_cons, List.not_mem_nil, or_false] at hf
          rcases hf with rfl | rfl
          · rw [hach0]
            simp [y, bound, Fact.holds]
          · rw [hach1]
            simp [y, bound, Fact.holds]
        · rcases mem_otherRows.mp hr with ⟨c, hc, _⟩ | ⟨i, o, e, ho, he, rfl⟩ | ⟨h, _⟩ | ⟨_, c, hc, hne, rfl⟩
          · rw [hpairs] at hc
            simp at hc
          · rw [countRow_ok]
            match i with
            | 0 => simp [y]
            | 1 => simp [y]
            | n + 2 => simp [selfTask] at ho
          · cases h
          · rw [htriples] at hc
            simp only [List.mem_singleton] at hc
            subst hc
            simp at hne
    have hcount : ∀ i < selfTask.ops.length, combine (keys selfTask .timeLabels es) y i = y (.count i) := by
      intro i hi
      have := combine_key (y := y) (mem_count (ac := .timeLabels) (es := es).mpr hi)
      rwa [count_index ht hG hi] at this
    have h5 := hv.2 (combine (keys selfTask .timeLabels es) y) ⟨(feasible_iff ht hG).mpr (hS.congr ht hG fun k hk => combine_key hk), fun i _ _ => by
      unfold combine
      cases (keys selfTask .timeLabels es)[i]? with
      | none => exact ⟨0, by simp⟩
      | some k =>
        simp only [y]
        split
        · exact ⟨0, by simp⟩
        · exact ⟨0, by simp⟩
        · exact ⟨1, by simp⟩⟩
    rw [value_eq] at h5
    have h6 : selfTask.countCost (combine (keys selfTask .timeLabels es) y) = 1 := by
      have a0 := hcount 0 (by decide)
      have a1 := hcount 1 (by decide)
      simp only [y] at a0 a1
      simp [Task.countCost, selfTask, List.zipIdx] at a0 a1 ⊢
      simp [y, a0, a1]
    rw [h6] at h5
    exact ceil_le_of (n := 1) herr (by push_cast; linarith)

end Verif.CountingRR
