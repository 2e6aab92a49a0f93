import Verif.Lemmas.DeleteRelaxationIF
import Verif.Props.OperatorCounting

/-
C83: the operator-counting heuristic with the delete-relaxation constraints by Imai and Fukunaga.

In all theorems: `t` any task without axioms in which no operator has two effects with the same fact; `solve` any solver for mixed integer programs that meets its contract up to an error less than 0.01;
`obj` the heuristic after any sequence of evaluations.
-/
namespace Verif.CountingIF
open Verif.LP Verif.Counting Verif.Search

/-- the tasks that are supported -/
structure Supported (t : Task) : Prop where
  wf : t.WF
  axioms : t.axioms = []
  once : ∀ o ∈ t.ops, (o.effects.map (·.fact)).Nodup

/-- the heuristic object after its construction and the evaluation of some states -/
def Reached (t : Task) (kind : SolverType) (time intCounts intVars : Bool) (solve : Program → (Nat → Bool) → Option Rat) (obj : Gen × Solver) : Prop :=
  ∃ obj0 ss, create t kind time intCounts intVars = some obj0 ∧ (∀ s ∈ ss, t.ValidState s) ∧ computeAll t solve intCounts intVars ss obj0 = some obj

/-- `v` is the minimal cost of counts that satisfy the constraints, up to an error of `err` -/
def IsMinimum (t : Task) (time intCounts intVars : Bool) (s : State) (err v : Rat) : Prop :=
  (∃ x, t.IFCounts time intCounts intVars s x ∧ t.countCost x ≤ v + err) ∧ ∀ x, t.IFCounts time intCounts intVars s x → v ≤ t.countCost x + err

/-- what the result of an evaluation says: a number is the minimum, less 0.01 and rounded up; DEAD_END means that there are no such counts; there is only no result if the number does not fit into an int -/
def Correct (t : Task) (time intCounts intVars : Bool) (s : State) (err : Rat) : Option (Option Int) → Prop
  | some (some k) => ∃ v, IsMinimum t time intCounts intVars s err v ∧ k = ⌈v - 1 / 100⌉ ∧ k ≤ 2147483647
  | some none => ¬∃ x, t.IFCounts time intCounts intVars s x
  | none => ∃ v, IsMinimum t time intCounts intVars s err v ∧ 2147483647 < ⌈v - 1 / 100⌉

/-- C83: the heuristic can be constructed, except with integer variables and SoPlex. -/
theorem C83_created (t : Task) (kind : SolverType) (time intCounts intVars : Bool) (h : kind = .soplex → intCounts = false ∧ intVars = false) : ∃ obj, create t kind time intCounts intVars = some obj := by
  unfold create
  rw [if_neg]
  · exact ⟨_, rfl⟩
  · rintro ⟨h1, h2⟩
    obtain ⟨rfl, rfl⟩ := h h1
    simp [integral] at h2

theorem countCost_nonneg {t : Task} {x : Nat → Rat} (h : ∀ i < t.ops.length, 0 ≤ x i) : 0 ≤ t.countCost x := by
  unfold Task.countCost
  apply List.sum_nonneg
  intro v hv
  obtain ⟨⟨o, i⟩, ho, rfl⟩ := List.mem_map.mp hv
  exact mul_nonneg (by positivity) (h i (List.getElem?_eq_some_iff.mp (List.mem_zipIdx_iff_getElem?.mp ho)).1)

theorem counts_nonneg {t : Task} {time intCounts intVars : Bool} {s : State} {x : Nat → Rat} (h : t.IFCounts time intCounts intVars s x) : ∀ i < t.ops.length, 0 ≤ x i := by
  obtain ⟨_, y, h, _⟩ := h
  intro i hi
  have := h.count i hi
  linarith [this.1, this.2.2]

section
variable {t : Task} (ht : Supported t) {kind : SolverType} {time intCounts intVars : Bool} {err : Rat} (herr : err < 1 / 100) {solve : Program → (Nat → Bool) → Option Rat} (hsolve : MixedSolver err solve)

include herr hsolve in
theorem compute_ok (hwf : t.WF) (hone : ∀ o ∈ t.ops, (o.effects.map (·.fact)).Nodup) {s : State} (hs : t.ValidState s) {obj : Gen × Solver} (h : ObjOk t time obj) :
    Correct t time intCounts intVars s err ((compute t solve intCounts intVars s obj).map (·.1)) ∧ ∀ r obj', compute t solve intCounts intVars s obj = some (r, obj') → ObjOk t time obj' := by
  obtain ⟨obj', h1, h2, h3⟩ := update_spec hs h
  obtain ⟨g', S'⟩ := obj'
  simp only at h3
  have hp := hsolve (final t time s) (integral t intCounts intVars) rfl (by
    intro c hc
    simp only [final, target, List.mem_append, List.mem_map, operatorProgram] at hc
    rcases hc with ⟨o, _, rfl⟩ | ⟨k, _, rfl⟩
    · exact ⟨by simp, by simp⟩
    · exact ⟨by simp [column], by simp [column]⟩) (final_wellFormed hwf hone)
  have hmin : ∀ v, solve (final t time s) (integral t intCounts intVars) = some v → IsMinimum t time intCounts intVars s err v := by
    intro v hv
    obtain ⟨⟨x, hx, hxv⟩, h5⟩ := hp.1 v hv
    rw [final_value] at hxv
    refine ⟨⟨x, feasible_counts hwf hone hx, hxv⟩, fun y hy => ?_⟩
    obtain ⟨y', hy1, hy2⟩ := counts_feasible hwf hone hy
    have := h5 y' hy1
    rw [final_value, hy2] at this
    exact this
  have hcl := (clear_ok h2).1
  unfold compute
  rw [(clear_ok h).2, h1]
  simp only [Bool.false_eq_true, if_false, h3]
  cases hv : solve (final t time s) (integral t intCounts intVars) with
  | none =>
    simp only [Option.map_some, Correct]
    refine ⟨?_, ?_⟩
    · rintro ⟨x, hx⟩
      obtain ⟨x', hx', _⟩ := counts_feasible hwf hone hx
      exact hp.2 hv ⟨x', hx'⟩
    · rintro r obj' he
      simp only [Option.some.injEq, Prod.mk.injEq] at he
      exact he.2 ▸ hcl
  | some v =>
    have hm := hmin v hv
    simp only
    split
    · rename_i hle
      refine ⟨⟨v, hm, rfl, hle.1⟩, ?_⟩
      rintro r obj' he
      simp only [Option.some.injEq, Prod.mk.injEq] at he
      exact he.2 ▸ hcl
    · rename_i hle
      refine ⟨⟨v, hm, ?_⟩, by simp⟩
      by_contra hc
      apply hle
      refine ⟨by omega, ?_⟩
      obtain ⟨x, hx, hxv⟩ := hm.1
      have h0 := countCost_nonneg (counts_nonneg hx)
      have : (-1 : Int) ≤ ⌈v - 1 / 100⌉ := by
        have : (-1 : Int) - 1 < ⌈v - 1 / 100⌉ := by
          rw [Int.lt_ceil]
          push_cast
          linarith
        omega
      omega

include ht herr hsolve in
theorem reached_ok {obj : Gen × Solver} (h : Reached t kind time intCounts intVars solve obj) : ObjOk t time obj := by
  obtain ⟨obj0, ss, h1, h2, h3⟩ := h
  have h0 := create_ok h1
  clear h1
  induction ss generalizing obj0 with
  | nil =>
    simp only [computeAll, Option.some.injEq] at h3
    exact h3 ▸ h0
  | cons s ss ih =>
    rw [computeAll] at h3
    cases hc : compute t solve intCounts intVars s obj0 with
    | none => rw [hc] at h3; cases h3
    | some r =>
      obtain ⟨v, obj1⟩ := r
      rw [hc] at h3
      exact ih obj1 (fun s hs => h2 s (by simp [hs])) h3 ((compute_ok herr hsolve ht.wf ht.once (h2 s (by simp)) h0).2 v obj1 hc)

include ht herr hsolve in
/-- C83: the value of a state, whatever has been evaluated before, is the minimal cost of operator counts that satisfy the constraints of Imai and Fukunaga for this state, less 0.01 and rounded up.
DEAD_END is only returned if no counts satisfy the constraints. -/
theorem C83_value {obj : Gen × Solver} (h : Reached t kind time intCounts intVars solve obj) {s : State} (hs : t.ValidState s) : Correct t time intCounts intVars s err ((compute t solve intCounts intVars s obj).map (·.1)) :=
  (compute_ok herr hsolve ht.wf ht.once hs (reached_ok ht herr hsolve h)).1

end

/-! ### Relaxed plans -/

theorem countCost_occurrences {t : Task} {R : List Nat} (h : ∀ i ∈ R, i < t.ops.length) : t.countCost (occurrences R) = ((R.map t.opCost).sum : Nat) := by
  rw [← sum_occurrences t.opCost h]
  unfold Task.countCost
  rw [zipIdx_sum0 (fun (o : Operator) i => (o.cost : Rat) * occurrences R i)]
  refine Finset.sum_congr rfl fun i _ => ?_
  unfold Task.opCost
  cases t.ops[i]? <;> simp

/-- C83: the operators of a relaxed plan satisfy all constraints, whatever the options are. -/
theorem C83_relaxed_plans {t : Task} (ht : Supported t) (time intCounts intVars : Bool) {s : State} {R : List Nat} (hlt : ∀ i ∈ R, i < t.ops.length) (hR : t.IsRelaxedPlan (· ∈ R) s) :
    t.IFCounts time intCounts intVars s (occurrences R) ∧ t.countCost (occurrences R) = ((R.map t.opCost).sum : Nat) := by
  refine ⟨?_, countCost_occurrences hlt⟩
  obtain ⟨l, hl, hc⟩ := exists_sequence (s := s) ht.axioms (· ∈ R)
  have hS : Sat t time s (occurrences R) (values t s l) := by
    refine values_sat hl (fun g hg => hc g (hR g hg)) (fun i _ => ?_) fun i _ hi => ?_
    · unfold occurrences; positivity
    · unfold occurrences
      exact_mod_cast List.count_pos_iff.mpr hi
  refine ⟨fun _ i _ => ⟨(R.count i : Nat), by simp [occurrences]⟩, toVars (values t s l), (sat_iff ht.wf ht.once).mp (by rw [ofVars_toVars]; exact hS), fun _ => ?_⟩
  rw [integral_iff, ofVars_toVars]
  exact fun k _ => values_int k

/-- counts and an order of the operators: those that are used form a relaxed plan -/
theorem relaxed_of_counts {t : Task} (ht : Supported t) (hconds : ∀ o ∈ t.ops, ∀ e ∈ o.effects, e.conds = []) {intCounts : Bool} {s : State} {x : Nat → Rat} (h : t.IFCounts true intCounts true s x) :
    ∃ R : List Nat, R.Nodup ∧ (∀ i ∈ R, i < t.ops.length) ∧ t.IsRelaxedPlan (· ∈ R) s ∧ (((R.map t.opCost).sum : Nat) : Rat) ≤ t.countCost x := by
  have hx := counts_nonneg h
  obtain ⟨_, y, h1, h2⟩ := h
  have hS := (sat_iff ht.wf ht.once).mpr h1
  have hrel := relaxed_of_sat ht.wf hconds hS (fun i hi f hf => (h2 rfl).first i hi f (mem_facts.mp hf))
  refine ⟨(List.range t.ops.length).filter (fun i => decide (1 ≤ y.used i)), List.nodup_range.filter _, fun i hi => List.mem_range.mp (List.mem_filter.mp hi).1, fun g hg => ?_, ?_⟩
  · have hmono : ∀ f, t.RelReach (fun i => 1 ≤ ofVars y (.used i)) s f → t.RelReach (· ∈ (List.range t.ops.length).filter (fun i => decide (1 ≤ y.used i))) s f := by
      intro f hf
      induction hf with
      | state f hf => exact .state f hf
      | effect i cs f c he hR _ ih =>
        refine .effect i cs f c he (fun j hj => ?_) ih
        subst hj
        cases he with
        | op i o e ho _ => exact List.mem_filter.mpr ⟨List.mem_range.mpr (List.getElem?_eq_some_iff.mp ho).1, by simpa [ofVars] using hR _ rfl⟩
    exact hmono g (hrel g hg)
  · rw [← countCost_occurrences (t := t) (fun i hi => List.mem_range.mp (List.mem_filter.mp hi).1)]
    unfold Task.countCost
    refine List.sum_le_sum fun o ho => ?_
    have hlt := (List.getElem?_eq_some_iff.mp (List.mem_zipIdx_iff_getElem?.mp ho)).1
    refine mul_le_mul_of_nonneg_left ?_ (by positivity)
    unfold occurrences
    by_cases hm : o.2 ∈ (List.range t.ops.length).filter (fun i => decide (1 ≤ y.used i))
    · rw [List.count_eq_one_of_mem (List.nodup_range.filter _) hm]
      have h3 := (h1.count o.2 hlt).2.2
      have h4 : 1 ≤ y.used o.2 := by simpa using (List.mem_filter.mp hm).2
      push_cast
      linarith
    · rw [List.count_eq_zero_of_not_mem hm]
      simpa using hx o.2 hlt

section
variable {t : Task} (ht : Supported t) {kind : SolverType} {time intCounts intVars : Bool} {err : Rat} (herr : err < 1 / 100) {solve : Program → (Nat → Bool) → Option Rat} (hsolve : MixedSolver err solve)

theorem hplusLe_of {t : Task} {s : State} {R : List Nat} (hlt : ∀ i ∈ R, i < t.ops.length) (hR : t.IsRelaxedPlan (· ∈ R) s) : t.HplusLe s (R.map t.opCost).sum := by
  refine ⟨R.dedup, List.nodup_dedup R, fun i hi => hlt i (List.mem_dedup.mp hi), ?_, ?_⟩
  · have : (fun i => i ∈ R.dedup) = fun i => i ∈ R := by funext i; simp
    rw [this]
    exact hR
  · exact List.Sublist.sum_le_sum ((List.dedup_sublist R).map _) (fun _ _ => Nat.zero_le _)

include herr in
theorem correct_le (ht : Supported t) {s : State} {r : Option (Option Int)} (h : Correct t time intCounts intVars s err r) {n : Nat} (hn : t.HplusLe s n) : (∃ k, r = some (some k) ∧ k ≤ n) ∨ (r = none ∧ 2147483647 < n) := by
  obtain ⟨R, _, h2, h3, h4⟩ := hn
  obtain ⟨h5, h6⟩ := C83_relaxed_plans ht time intCounts intVars h2 h3
  have hle : ∀ v, IsMinimum t time intCounts intVars s err v → ⌈v - 1 / 100⌉ ≤ (n : Int) := by
    intro v hv
    refine ceil_le_of herr ?_
    have h7 := hv.2 _ h5
    rw [h6] at h7
    have : (((R.map t.opCost).sum : Nat) : Rat) ≤ n := by exact_mod_cast h4
    push_cast
    push_cast at this h7
    linarith
  match r, h with
  | some (some k), ⟨v, hv, hk, _⟩ => exact .inl ⟨k, rfl, hk ▸ hle v hv⟩
  | some none, h => exact absurd ⟨_, h5⟩ h
  | none, ⟨v, hv, hk⟩ =>
    have := hle v hv
    exact .inr ⟨rfl, by omega⟩

include ht herr hsolve in
/-- C83: with any options the value is at most h^+: if there is a relaxed plan whose cost is an int, a value that is not larger is returned. -/
theorem C83_below_hplus {obj : Gen × Solver} (h : Reached t kind time intCounts intVars solve obj) {s : State} (hs : t.ValidState s) {n : Nat} (hn : t.HplusLe s n) (hint : n ≤ 2147483647) :
    ∃ k obj', compute t solve intCounts intVars s obj = some (some k, obj') ∧ k ≤ n := by
  rcases correct_le herr ht (C83_value ht herr hsolve h hs) hn with ⟨k, h1, h2⟩ | ⟨_, h1⟩
  · obtain ⟨⟨a, b⟩, h3, h4⟩ := Option.map_eq_some_iff.mp h1
    simp only at h4
    subst h4
    exact ⟨k, b, h3, h2⟩
  · omega

theorem hplus_of_solves (ht : Supported t) {s : State} {π : List Nat} (hπ : t.SolvesFrom s π) : t.HplusLe s (t.planCost π) :=
  hplusLe_of (by obtain ⟨u, h, _⟩ := hπ; exact exec_lt h) (LmCut.relaxed_of_solves ht.wf ht.axioms hπ)

include ht herr hsolve in
/-- C83: with any options the heuristic is admissible and safe: if the state has a plan whose cost is an int, the evaluation returns a value that is not larger than its cost. -/
theorem C83_admissible {obj : Gen × Solver} (h : Reached t kind time intCounts intVars solve obj) {s : State} (hs : t.ValidState s) {π : List Nat} (hπ : t.SolvesFrom s π) (hcost : t.planCost π ≤ 2147483647) :
    ∃ k obj', compute t solve intCounts intVars s obj = some (some k, obj') ∧ k ≤ t.planCost π :=
  C83_below_hplus ht herr hsolve h hs (hplus_of_solves ht hπ) hcost

include ht herr hsolve in
/-- C83: with variables for time steps and integer auxiliary variables, on tasks without conditional effects, the value is exactly h^+, the cost of the cheapest relaxed plans, and DEAD_END is returned exactly if there is no relaxed plan.
(Whether the operator counts are integers does not matter.) -/
theorem C83_hplus (hconds : ∀ o ∈ t.ops, ∀ e ∈ o.effects, e.conds = []) {obj : Gen × Solver} (h : Reached t kind true intCounts true solve obj) {s : State} (hs : t.ValidState s) :
    (∀ n : Nat, t.HplusLe s n → (∀ m, t.HplusLe s m → n ≤ m) → n ≤ 2147483647 → ∃ obj', compute t solve intCounts true s obj = some (some (n : Int), obj')) ∧
    ((¬∃ n, t.HplusLe s n) → ∃ obj', compute t solve intCounts true s obj = some (none, obj')) := by
  have hlow : ∀ v, IsMinimum t true intCounts true s err v → ∃ m : Nat, t.HplusLe s m ∧ (m : Int) ≤ ⌈v - 1 / 100⌉ := by
    intro v hv
    obtain ⟨x, hx, hxv⟩ := hv.1
    obtain ⟨R, r1, r2, r3, r4⟩ := relaxed_of_counts ht hconds hx
    refine ⟨(R.map t.opCost).sum, ⟨R, r1, r2, r3, le_refl _⟩, ?_⟩
    refine le_ceil_of herr ?_
    rw [Int.cast_natCast]
    linarith
  constructor
  · intro n hn hmin hint
    obtain ⟨k, obj', h1, h2⟩ := C83_below_hplus ht herr hsolve h hs hn hint
    have h3 := C83_value ht herr hsolve h hs
    rw [h1] at h3
    obtain ⟨v, hv, hk, _⟩ := h3
    obtain ⟨m, hm, hmv⟩ := hlow v hv
    have := hmin m hm
    have : k = n := by omega
    exact ⟨obj', by rw [h1, this]⟩
  · intro hno
    have h3 := C83_value ht herr hsolve h hs
    cases hr : compute t solve intCounts true s obj with
    | none =>
      rw [hr] at h3
      obtain ⟨v, hv, _⟩ := h3
      obtain ⟨m, hm, _⟩ := hlow v hv
      exact absurd ⟨m, hm⟩ hno
    | some r =>
      obtain ⟨v, obj'⟩ := r
      cases v with
      | none => exact ⟨obj', rfl⟩
      | some k =>
        rw [hr] at h3
        obtain ⟨v, hv, _⟩ := h3
        obtain ⟨m, hm, _⟩ := hlow v hv
        exact absurd ⟨m, hm⟩ hno

include ht herr hsolve in
/-- C83: values are never negative. -/
theorem C83_nonneg {obj obj' : Gen × Solver} (h : Reached t kind time intCounts intVars solve obj) {s : State} (hs : t.ValidState s) {k : Int} (hk : compute t solve intCounts intVars s obj = some (some k, obj')) : 0 ≤ k := by
  have h3 := C83_value ht herr hsolve h hs
  rw [hk] at h3
  obtain ⟨v, hv, rfl, _⟩ := h3
  obtain ⟨x, hx, hxv⟩ := hv.1
  have := countCost_nonneg (counts_nonneg hx)
  exact le_ceil_of (n := 0) herr (by push_cast; linarith)

include ht herr hsolve in
/-- C83: the value of goal states is 0. -/
theorem C83_goal {obj : Gen × Solver} (h : Reached t kind time intCounts intVars solve obj) {s : State} (hs : t.ValidState s) (hg : allHold t.goal s) : ∃ obj', compute t solve intCounts intVars s obj = some (some 0, obj') := by
  obtain ⟨k, obj', h1, h2⟩ := C83_admissible ht herr hsolve h hs (π := []) ⟨s, .nil s, hg⟩ (by simp [Task.planCost])
  have h3 := C83_nonneg ht herr hsolve h hs h1
  simp only [Task.planCost, List.map_nil, List.sum_nil] at h2
  have : k = 0 := by omega
  exact ⟨obj', by rw [h1, this]⟩

end

/-! ### Consistency -/

/-- C83: without variables for time steps, counts for a state after an operator and one more use of the operator satisfy the constraints of the state before it. -/
theorem C83_step {t : Task} (ht : Supported t) {intCounts intVars : Bool} {s s' : State} {i : Nat} {o : Operator} (ho : t.ops[i]? = some o) (ha : o.applicable s) (hsu : t.SuccRel o s s') {x : Nat → Rat}
    (h : t.IFCounts false intCounts intVars s' x) : t.IFCounts false intCounts intVars s (fun j => (if j = i then 1 else 0) + x j) := by
  have hx := counts_nonneg h
  obtain ⟨h1, y, h2, h3⟩ := h
  have hlt := (List.getElem?_eq_some_iff.mp ho).1
  refine ⟨fun hi j hj => ?_, ⟨fun j => if j = i then 1 else y.used j, fun f => if f.holds s then 1 else y.reached f, fun j f => if j = i ∧ f.holds s' then 1 else y.first j f, y.opTime, y.factTime⟩, ?_, fun hv => ?_⟩
  · obtain ⟨z, hz⟩ := h1 hi j hj
    refine ⟨(if j = i then 1 else 0) + z, ?_⟩
    simp only [hz]
    split <;> simp
  · refine ⟨fun j hj => ?_, fun f hf => ?_, fun j hj f hf => ?_, fun g hg => ?_, fun f hf hns => ?_, fun j o' f ho' hp => ?_, fun j o' ho' f hf => ?_, nofun, nofun, nofun, nofun⟩
    · have := h2.count j hj
      simp only
      split
      · have := hx j hj
        exact ⟨by norm_num, le_refl _, by linarith⟩
      · refine ⟨this.1, this.2.1, by linarith [this.2.2]⟩
    · simp only
      split
      · norm_num
      · exact h2.reached01 f hf
    · simp only
      split
      · norm_num
      · exact h2.first01 j hj f hf
    · simp only
      split
      · rfl
      · exact h2.goal g hg
    · simp only [if_neg hns]
      by_cases hs' : f.holds s'
      · rcases Relax.succ_facts ht.wf ht.axioms ho ha hsu hs' with hf' | ⟨e, he, hef, _⟩
        · exact absurd hf' hns
        · have hp : o.produces f := ⟨e, he, hef⟩
          have hone : (1 : Rat) ≤ (t.ops.zipIdx.map (fun o => if o.1.produces f then (if o.2 = i ∧ f.holds s' then 1 else y.first o.2 f) else 0)).sum := by
            refine List.single_le_sum ?_ _ (List.mem_map.mpr ⟨(o, i), List.mem_zipIdx_iff_getElem?.mpr ho, by simp [hp, hs']⟩)
            intro v hv
            obtain ⟨⟨o', j⟩, ho', rfl⟩ := List.mem_map.mp hv
            simp only
            split
            · split
              · norm_num
              · exact (h2.first01 j (List.getElem?_eq_some_iff.mp (List.mem_zipIdx_iff_getElem?.mp ho')).1 f hf).1
            · exact le_refl _
          exact le_trans (h2.reached01 f hf).2 hone
      · simpa [hs'] using h2.achieved f hf hs'
    · simp only
      have hf' : t.ValidFact f := by
        obtain ⟨e, he, rfl⟩ := hp
        exact ht.wf.effFact o' (List.mem_of_getElem? ho') e he
      by_cases hj : j = i
      · simp only [hj, true_and, if_true]
        split
        · exact le_refl _
        · exact (h2.first01 i hlt f hf').2
      · simp only [hj, false_and, if_false]
        exact h2.firstUsed j o' f ho' hp
    · simp only
      have hf' := ht.wf.pre o' (List.mem_of_getElem? ho') f hf
      by_cases hj : j = i
      · subst hj
        rw [ho, Option.some.injEq] at ho'
        subst ho'
        rw [if_pos rfl, if_pos (ha f hf)]
      · rw [if_neg hj]
        split
        · exact (h2.count j (List.getElem?_eq_some_iff.mp ho').1).2.1
        · exact h2.pre j o' ho' f hf
  · obtain ⟨k1, k2, k3, _, _⟩ := h3 hv
    refine ⟨fun j hj => ?_, fun f hf => ?_, fun j hj f hf => ?_, nofun, nofun⟩
    · simp only
      split
      · exact ⟨1, by simp⟩
      · exact k1 j hj
    · simp only
      split
      · exact ⟨1, by simp⟩
      · exact k2 f hf
    · simp only
      split
      · exact ⟨1, by simp⟩
      · exact k3 j hj f hf

theorem countCost_step {t : Task} {i : Nat} {o : Operator} (ho : t.ops[i]? = some o) (x : Nat → Rat) : t.countCost (fun j => (if j = i then 1 else 0) + x j) = o.cost + t.countCost x := by
  have h0 : ∀ x : Nat → Rat, t.countCost x = ∑ j ∈ Finset.range t.ops.length, (t.opCost j : Rat) * x j := by
    intro x
    unfold Task.countCost
    rw [zipIdx_sum0 (fun (o : Operator) i => (o.cost : Rat) * x i)]
    refine Finset.sum_congr rfl fun i _ => ?_
    unfold Task.opCost
    cases t.ops[i]? <;> simp
  rw [h0, h0, weighted_add (List.getElem?_eq_some_iff.mp ho).1 (fun i => (t.opCost i : Rat))]
  simp [Task.opCost, ho]

section
variable {t : Task} (ht : Supported t) {kind : SolverType} {intCounts intVars : Bool} {err : Rat} (herr : err < 1 / 100) {solve : Program → (Nat → Bool) → Option Rat} (hsolve : MixedSolver err solve)

include ht herr hsolve in
/-- C83: without variables for time steps the heuristic is consistent up to the rounding of the errors of the solver: applying an operator decreases the value by at most the cost of the operator and 1, or by at most the cost of the operator if
the solver is exact; and a state with a successor that is not recognised as a dead end is not recognised either. -/
theorem C83_consistent {obj1 obj2 obj1' obj2' : Gen × Solver} (h1 : Reached t kind false intCounts intVars solve obj1) (h2 : Reached t kind false intCounts intVars solve obj2) {s s' : State} (hs : t.ValidState s) {i : Nat} {o : Operator} (ho : t.ops[i]? = some o) (ha : o.applicable s)
    (hsu : t.SuccRel o s s') {r : Option Int} {k' : Int} (hr : compute t solve intCounts intVars s obj1 = some (r, obj1')) (hr' : compute t solve intCounts intVars s' obj2 = some (some k', obj2')) :
    ∃ k, r = some k ∧ k ≤ o.cost + k' + 1 ∧ (err ≤ 0 → k ≤ o.cost + k') := by
  have hs' := succ_valid ht.wf hs ho ha hsu
  have c1 := C83_value ht herr hsolve h1 hs
  have c2 := C83_value ht herr hsolve h2 hs'
  rw [hr] at c1
  rw [hr'] at c2
  obtain ⟨v', hv', rfl, _⟩ := c2
  obtain ⟨x, hx, hxv⟩ := hv'.1
  have hst := C83_step ht ho ha hsu hx
  cases r with
  | none => exact absurd ⟨_, hst⟩ c1
  | some k =>
    obtain ⟨v, hv, rfl, _⟩ := c1
    have h5 := hv.2 _ hst
    rw [countCost_step ho] at h5
    have h6 := Int.le_ceil (v' - 1 / 100)
    refine ⟨_, rfl, ?_, fun he => ?_⟩
    · rw [Int.ceil_le]
      push_cast
      linarith
    · rw [Int.ceil_le]
      push_cast
      linarith

theorem hplus_step {t : Task} (ht : Supported t) {s s' : State} {i : Nat} {o : Operator} (ho : t.ops[i]? = some o) (ha : o.applicable s) (hsu : t.SuccRel o s s') {n : Nat} (h : t.HplusLe s' n) : t.HplusLe s (o.cost + n) := by
  obtain ⟨R, h1, h2, h3, h4⟩ := h
  have hlt := (List.getElem?_eq_some_iff.mp ho).1
  have := hplusLe_of (t := t) (s := s) (R := i :: R) (fun j hj => by
    rcases List.mem_cons.mp hj with rfl | hj
    · exact hlt
    · exact h2 j hj) (by
    intro g hg
    refine LmCut.relReach_succ ht.wf ht.axioms ho ha hsu (by simp) ?_
    have hmono : ∀ f, t.RelReach (· ∈ R) s' f → t.RelReach (· ∈ i :: R) s' f := by
      intro f hf
      induction hf with
      | state f hf => exact .state f hf
      | effect j cs f c he hR _ ih => exact .effect j cs f c he (fun k hk => List.mem_cons_of_mem _ (hR k hk)) ih
    exact hmono g (h3 g hg))
  obtain ⟨R', r1, r2, r3, r4⟩ := this
  refine ⟨R', r1, r2, r3, le_trans r4 ?_⟩
  have hc : t.opCost i = o.cost := by simp [Task.opCost, ho]
  simp only [List.map_cons, List.sum_cons, hc]
  omega

include ht herr hsolve in
/-- C83: with variables for time steps and integer auxiliary variables, on tasks without conditional effects, the heuristic is consistent, whatever the errors of the solver are. -/
theorem C83_hplus_consistent (hconds : ∀ o ∈ t.ops, ∀ e ∈ o.effects, e.conds = []) {obj1 obj2 obj1' obj2' : Gen × Solver} (h1 : Reached t kind true intCounts true solve obj1) (h2 : Reached t kind true intCounts true solve obj2) {s s' : State} (hs : t.ValidState s) {i : Nat} {o : Operator} (ho : t.ops[i]? = some o) (ha : o.applicable s)
    (hsu : t.SuccRel o s s') {r : Option Int} {k' : Int} (hr : compute t solve intCounts true s obj1 = some (r, obj1')) (hr' : compute t solve intCounts true s' obj2 = some (some k', obj2')) : ∃ k, r = some k ∧ k ≤ o.cost + k' := by
  have hs' := succ_valid ht.wf hs ho ha hsu
  have c2 := C83_value ht herr hsolve h2 hs'
  rw [hr'] at c2
  obtain ⟨v', hv', rfl, _⟩ := c2
  obtain ⟨x, hx, hxv⟩ := hv'.1
  obtain ⟨R, r1, r2, r3, r4⟩ := relaxed_of_counts ht hconds hx
  have hn : t.HplusLe s' (R.map t.opCost).sum := ⟨R, r1, r2, r3, le_refl _⟩
  have hle : (((R.map t.opCost).sum : Nat) : Int) ≤ ⌈v' - 1 / 100⌉ := le_ceil_of herr (by rw [Int.cast_natCast]; linarith)
  rcases correct_le herr ht (C83_value ht herr hsolve h1 hs) (hplus_step ht ho ha hsu hn) with ⟨k, k1, k2⟩ | ⟨k1, _⟩
  · rw [hr] at k1
    simp only [Option.map_some, Option.some.injEq] at k1
    refine ⟨k, k1, ?_⟩
    rw [Nat.cast_add] at k2
    linarith
  · rw [hr] at k1
    simp at k1

end

/-! ### A* -/

/-- C83 and C23: A* with the heuristic, with any options, on a task whose costs fit into the C++ types, ends; it returns a plan of minimal cost if there is a plan, and fails otherwise. -/
theorem C83_astar {t : Task} (ht : Supported t) (kind : SolverType) (time intCounts intVars : Bool) {err : Rat} (herr : err < 1 / 100) {solve : Program → (Nat → Bool) → Option Rat} (hsolve : MixedSolver err solve)
    (hb : (t.ops.map (·.cost)).sum < 2 ^ 30) (hfit : t.FitsTypes .normal) (hC : ∀ i, t.opCost i < 2 ^ 29) :
    ∃ hobj : AdmissibleObject t (ObjOk t time) (fun s obj => (compute t solve intCounts intVars s obj).map (fun r => (r.1.map Int.toNat, r.2))),
      (∀ obj, create t kind time intCounts intVars = some obj → ObjOk t time obj) ∧
      ∀ (u : Nat → Nat → Bool) (H' : OpenList.StdHeap State) (rel : Nat → Bool) (rng : OpenList.Rng) (σ : { obj : Gen × Solver // ObjOk t time obj }),
        ∃ n, OptimalResult t (Eager.search (World.ofTask t u .normal) (objEnv hobj) H' rel ⟨true, 2147483647⟩ (.tiebreaking false false [1, 0]) rng σ n) := by
  have hobj : AdmissibleObject t (ObjOk t time) (fun s obj => (compute t solve intCounts intVars s obj).map (fun r => (r.1.map Int.toNat, r.2))) := by
    intro s obj hs hm
    obtain ⟨h1, h2⟩ := compute_ok herr hsolve ht.wf ht.once (intCounts := intCounts) (intVars := intVars) hs hm
    have hbound : ∀ v, IsMinimum t time intCounts intVars s err v → ⌈v - 1 / 100⌉ ≤ 2 ^ 30 - 1 := by
      intro v hv
      obtain ⟨x, ⟨_, y, hy, hy2⟩, _⟩ := hv.1
      have h3 := hv.2 (fun _ => 1) ⟨fun _ i _ => ⟨1, by simp⟩, y, { hy with count := fun i hi => ⟨(hy.count i hi).1, (hy.count i hi).2.1, (hy.count i hi).2.1⟩ }, hy2⟩
      have h4 : t.countCost (fun _ => 1) = ((t.ops.map (·.cost)).sum : Nat) := by
        unfold Task.countCost
        simp only [mul_one]
        have : (t.ops.zipIdx.map (fun o => (o.1.cost : Rat))) = (t.ops.map (·.cost)).map (fun c : Nat => (c : Rat)) := by
          rw [List.map_map]
          conv_rhs => rw [← List.zipIdx_map_fst 0 t.ops, List.map_map]
          rfl
        rw [this]
        exact (Nat.cast_list_sum _).symm
      refine ceil_le_of herr ?_
      rw [h4] at h3
      have h5 : (((t.ops.map (·.cost)).sum : Nat) : Rat) ≤ 2 ^ 30 - 1 := by
        have : (((t.ops.map (·.cost)).sum + 1 : Nat) : Rat) ≤ ((2 ^ 30 : Nat) : Rat) := Nat.cast_le.mpr hb
        push_cast at this ⊢
        linarith
      push_cast at h5 h3 ⊢
      linarith
    cases hr : compute t solve intCounts intVars s obj with
    | none =>
      rw [hr] at h1
      obtain ⟨v, h4, h5⟩ := h1
      have := hbound v h4
      omega
    | some r =>
      obtain ⟨v, obj'⟩ := r
      refine ⟨v.map Int.toNat, obj', by simp only [hr, Option.map_some], h2 v obj' hr, fun n hn => ?_, fun π hπ => ?_⟩
      · obtain ⟨k, rfl, rfl⟩ := Option.map_eq_some_iff.mp hn
        rw [hr] at h1
        obtain ⟨w, h4, h5, _⟩ := h1
        have := hbound w h4
        omega
      · rcases correct_le herr ht h1 (hplus_of_solves ht hπ) with ⟨k, k1, k2⟩ | ⟨k1, _⟩
        · rw [hr] at k1
          simp only [Option.map_some, Option.some.injEq] at k1
          exact ⟨k.toNat, by rw [k1]; rfl, by omega⟩
        · rw [hr] at k1
          simp at k1
  exact ⟨hobj, fun obj h => create_ok h, fun u H' rel rng σ => astar_object hobj ht.wf hfit hC u H' rel rng σ⟩

end Verif.CountingIF
