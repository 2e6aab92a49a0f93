import Verif.Lemmas.CountingObject
import Verif.Lemmas.AstarHeuristic
import Verif.Lemmas.SimpleTask

/-
C64: the operator-counting heuristic.

In all theorems: `H` any implementation of the standard heap functions, `t` any task that is supported by the constraint generators `gs`; `solve` any LP
solver (MIP solver if `int`) that meets its contract up to an error less than 0.01, `obj` the heuristic after any sequence of evaluations.
-/
namespace Verif.Counting
open Verif.LP Verif.AdaptiveQueue Verif.Pdb Verif.Search

/-- the heuristic object after its construction and the evaluation of some states -/
def Reached (H : StdHeap Nat) (t : Task) (kind : SolverType) (int : Bool) (gs : List Gen) (solve : Program → Bool → Option Rat) (obj : Object) : Prop :=
  ∃ obj0 ss, create H t kind int gs = some obj0 ∧ (∀ s ∈ ss, t.ValidState s) ∧ computeAll H t solve int ss obj0 = some obj

/-- the generators support the task, there is at least one, the solver supports the configuration; with SoPlex there are not two LM-cut generators -/
structure Config (t : Task) (kind : SolverType) (int : Bool) (gs : List Gen) : Prop where
  nonempty : gs ≠ []
  supports : ∀ g ∈ gs, Supports t g
  integer : kind = .soplex → int = false
  single : kind = .cplex ∨ gs.count .lmcut ≤ 1

section
variable {H : StdHeap Nat} {t : Task} {kind : SolverType} {int : Bool} {gs : List Gen} (hc : Config t kind int gs) {err : Rat} (herr : err < 1 / 100) {solve : Program → Bool → Option Rat} (hsolve : MinSolver err solve)

include hc herr hsolve in
theorem reached_ok {obj : Object} (h : Reached H t kind int gs solve obj) : ObjOk t kind gs obj := by
  obtain ⟨obj0, ss, h1, h2, h3⟩ := h
  obtain ⟨obj1, k1, k2⟩ := create_spec H hc.nonempty hc.integer hc.supports
  rw [h1] at k1
  simp only [Option.some.injEq] at k1
  subst k1
  exact computeAll_spec H hc.supports hc.single herr hsolve ss obj0 obj h2 k2 h3

include hc in
/-- C64: the heuristic can be constructed. -/
theorem C64_created (H : StdHeap Nat) : ∃ obj, create H t kind int gs = some obj := by
  obtain ⟨obj, h, _⟩ := create_spec H hc.nonempty hc.integer hc.supports
  exact ⟨obj, h⟩

include hc herr hsolve in
/-- C64: the value of a state, whatever has been evaluated before, is the minimal cost of operator counts that satisfy exactly the constraints of this
state, less 0.01 and rounded up.  DEAD_END is only returned if a generator recognises the state as a dead end, or no counts satisfy
the constraints.  The evaluation only fails to return if the value does not fit into an int.
The full statement is without the condition `Config.single`; what is missing is the case of two LM-cut generators with SoPlex, for which it is false
(`C64_soplex_two_lmcut_fails`). -/
theorem C64_value_partial {obj : Object} (h : Reached H t kind int gs solve obj) {s : State} (hs : t.ValidState s) : Correct t s gs int err ((compute H t solve int s obj).map (·.1)) :=
  (compute_spec H hc.supports hc.single herr hsolve hs (reached_ok hc herr hsolve h)).1

end

/-! ### Plans -/

theorem sum_relevant (t : Task) (P : List Nat) (x : Nat → Rat) : (t.ops.zipIdx.map (fun o => if ∃ e ∈ o.1.effects, e.fact.var ∈ P then (o.1.cost : Rat) * x o.2 else 0)).sum = ∑ i ∈ Finset.range t.ops.length, (t.costOn t.opCost P i : Rat) * x i := by
  rw [zipIdx_sum0 (fun (o : Operator) i => if ∃ e ∈ o.effects, e.fact.var ∈ P then (o.cost : Rat) * x i else 0)]
  refine Finset.sum_congr rfl (fun i _ => ?_)
  unfold Task.costOn Task.affects Task.opCost
  cases t.ops[i]? with
  | none => simp
  | some o =>
    simp only [Option.map_some, Option.getD_some]
    by_cases h : ∃ e ∈ o.effects, e.fact.var ∈ P
    · rw [if_pos h, if_pos (by simpa using h)]
    · rw [if_neg h, if_neg (by simpa using h)]
      simp

theorem sum_occurrences {n : Nat} (c : Nat → Nat) : ∀ {π : List Nat}, (∀ i ∈ π, i < n) → ∑ i ∈ Finset.range n, (c i : Rat) * occurrences π i = (((π.map c).sum : Nat) : Rat)
  | [], _ => by simp [occurrences]
  | i :: π, h => by
    rw [sum_occurrences_cons (h i (by simp)) (fun i => (c i : Rat)), sum_occurrences c (fun j hj => h j (by simp [hj]))]
    simp

theorem exec_lt {t : Task} {s u : State} {π : List Nat} (h : t.Exec s π u) : ∀ i ∈ π, i < t.ops.length := by
  induction h with
  | nil => simp
  | cons s i o s' π u h1 h2 h3 h4 ih =>
    intro j hj
    rcases List.mem_cons.mp hj with rfl | hj
    · exact (List.getElem?_eq_some_iff.mp h1).1
    · exact ih j hj

theorem landmark_sum {x : Nat → Rat} {l : List (Option Nat)} (h : ∀ i, 0 ≤ x i) {j : Nat} (hj : some j ∈ l) (h1 : 1 ≤ x j) : LandmarkUsed x l := by
  unfold LandmarkUsed
  induction l with
  | nil => simp at hj
  | cons a l ih =>
    have h0 : ∀ l : List (Option Nat), (0 : Rat) ≤ (l.map (fun i => (i.map x).getD 0)).sum := by
      intro l
      refine List.sum_nonneg (fun r hr => ?_)
      obtain ⟨i, _, rfl⟩ := List.mem_map.mp hr
      cases i with
      | none => simp
      | some i => exact h i
    simp only [List.map_cons, List.sum_cons]
    rcases List.mem_cons.mp hj with rfl | hj
    · have := h0 l
      simp only [Option.map_some, Option.getD_some]
      linarith
    · have h2 := ih hj
      have h3 := h0 [a]
      simp only [List.map_cons, List.map_nil, List.sum_cons, List.sum_nil] at h3
      linarith

/-- C64: every plan satisfies all constraints: how often it uses the operators is a solution, whose cost is the cost of the plan. -/
theorem C64_plans {t : Task} {s : State} (hs : t.ValidState s) {gs : List Gen} (hg : ∀ g ∈ gs, Supports t g) {lm : Nat → List CostedSet} (hlm : ∀ j, gs[j]? = some Gen.lmcut → LmOk t s (lm j)) (int : Bool) {π : List Nat} (hπ : t.SolvesFrom s π) :
    Feasible t s gs lm int (occurrences π) ∧ t.countCost (occurrences π) = t.planCost π := by
  obtain ⟨u, h1, h2⟩ := id hπ
  refine ⟨⟨fun i _ => ⟨by unfold occurrences; exact_mod_cast Nat.zero_le _, fun _ => ⟨π.count i, by unfold occurrences; push_cast; rfl⟩⟩, fun j g hj => ?_⟩, (planCost_eq t h1).symm⟩
  have hsup := hg g (List.mem_of_getElem? hj)
  cases g with
  | stateEquation => exact plan_stateEquation hsup hs hπ
  | lmcut =>
    have hsup : t.LmCutOk := hsup
    intro l hl
    obtain ⟨i, h3, h4⟩ := (hlm j hj).1.landmark l hl _ (LmCut.relaxed_of_solves hsup.wf hsup.axioms hπ)
    refine landmark_sum (fun i => by unfold occurrences; exact_mod_cast Nat.zero_le _) h3 ?_
    unfold occurrences
    exact_mod_cast List.count_pos_iff.mpr h4
  | pho Ps =>
    intro P hP n hn
    obtain ⟨m, e, hm⟩ := value_le_costOn hsup.1.simple hs hn hπ
    simp only [Option.some.injEq] at e
    subst e
    unfold Task.RelevantCost
    rw [sum_relevant, sum_occurrences _ (exec_lt h1)]
    exact_mod_cast hm

theorem not_dead {t : Task} {s : State} (hs : t.ValidState s) {g : Gen} (hg : Supports t g) {π : List Nat} (hπ : t.SolvesFrom s π) : ¬Dead t s g := by
  cases g with
  | stateEquation => exact id
  | lmcut =>
    have hg : t.LmCutOk := hg
    intro hd
    refine hd (fun g hg' => ?_)
    obtain ⟨n, hn⟩ := Relax.hmax_of_reach (LmCut.relaxed_of_solves hg.wf hg.axioms hπ g hg')
    exact Relax.reach_of_hmax hn
  | pho Ps =>
    rintro ⟨P, hP, hn⟩
    have hg := hg.1
    exact hn π (proj_solves_all hg.wf hg.axioms hg.conds hg.eff hs hs (fun _ _ => rfl) hπ)

/-- rounding -/
theorem ceil_le_of {v err : Rat} {n : Int} (herr : err < 1 / 100) (h : v ≤ n + err) : ⌈v - 1 / 100⌉ ≤ n := by
  rw [Int.ceil_le]
  linarith

theorem le_ceil_of {v err : Rat} {n : Int} (herr : err < 1 / 100) (h : (n : Rat) ≤ v + err) : n ≤ ⌈v - 1 / 100⌉ := by
  have : n - 1 < ⌈v - 1 / 100⌉ := by
    rw [Int.lt_ceil]
    push_cast
    linarith
  omega

section
variable {H : StdHeap Nat} {t : Task} {kind : SolverType} {int : Bool} {gs : List Gen} (hc : Config t kind int gs) {err : Rat} (herr : err < 1 / 100) {solve : Program → Bool → Option Rat} (hsolve : MinSolver err solve)

include hc herr in
theorem correct_admissible {s : State} (hs : t.ValidState s) {r : Option (Option Int)} (h : Correct t s gs int err r) {π : List Nat} (hπ : t.SolvesFrom s π) :
    (∃ k, r = some (some k) ∧ k ≤ t.planCost π) ∨ (r = none ∧ 2147483647 < t.planCost π) := by
  cases r with
  | none =>
    obtain ⟨_, lm, h2, v, h3, h4⟩ := h
    obtain ⟨p1, p2⟩ := C64_plans hs hc.supports h2 int hπ
    have := h3.2 _ p1
    rw [p2] at this
    have := ceil_le_of (n := t.planCost π) herr (by exact_mod_cast this)
    exact .inr ⟨rfl, by omega⟩
  | some r =>
    cases r with
    | none =>
      rcases h with ⟨g, hg, hd⟩ | ⟨lm, h2, hn⟩
      · exact absurd hd (not_dead hs (hc.supports g hg) hπ)
      · exact absurd ⟨_, (C64_plans hs hc.supports h2 int hπ).1⟩ hn
    | some k =>
      obtain ⟨_, lm, h2, v, h3, rfl, _⟩ := h
      obtain ⟨p1, p2⟩ := C64_plans hs hc.supports h2 int hπ
      have := h3.2 _ p1
      rw [p2] at this
      exact .inl ⟨_, rfl, ceil_le_of (n := t.planCost π) herr (by exact_mod_cast this)⟩

include hc herr hsolve in
/-- C64: the heuristic is admissible: if the state has a plan whose cost is an int, the evaluation returns a value that is not larger than its cost.
(Like all theorems here except for two LM-cut generators with SoPlex, see `C64_soplex_two_lmcut_fails`.) -/
theorem C64_admissible_partial {obj : Object} (h : Reached H t kind int gs solve obj) {s : State} (hs : t.ValidState s) {π : List Nat} (hπ : t.SolvesFrom s π) (hcost : t.planCost π ≤ 2147483647) :
    ∃ k obj', compute H t solve int s obj = some (some k, obj') ∧ k ≤ t.planCost π := by
  rcases correct_admissible hc herr hs (C64_value_partial hc herr hsolve h hs) hπ with ⟨k, h1, h2⟩ | ⟨_, h1⟩
  · obtain ⟨⟨a, b⟩, h3, h4⟩ := Option.map_eq_some_iff.mp h1
    simp only at h4
    subst h4
    exact ⟨k, b, h3, h2⟩
  · omega

include hc herr hsolve in
/-- C64: DEAD_END is only returned for states without plans. -/
theorem C64_dead_ends {obj obj' : Object} (h : Reached H t kind int gs solve obj) {s : State} (hs : t.ValidState s) (hd : compute H t solve int s obj = some (none, obj')) : ∀ π, ¬t.SolvesFrom s π := by
  intro π hπ
  have h1 := C64_value_partial hc herr hsolve h hs
  rw [hd] at h1
  rcases correct_admissible hc herr hs h1 hπ with ⟨k, h1, _⟩ | ⟨h1, _⟩ <;> simp at h1

/-! ### Strength -/

theorem sum_charged (ls : List CostedSet) {n : Nat} (hops : ∀ l ∈ ls, l.1.Nodup ∧ ∀ x ∈ l.1, ∃ i, x = some i ∧ i < n) {x : Nat → Rat} (hx : ∀ i < n, 0 ≤ x i) (hl : ∀ l ∈ ls, LandmarkUsed x l.1) :
    (((ls.map (·.2)).sum : Nat) : Rat) ≤ ∑ i ∈ Finset.range n, (charged ls i : Rat) * x i := by
  induction ls with
  | nil => simp [charged]
  | cons l ls ih =>
    have h1 := ih (fun l h => hops l (by simp [h])) (fun l h => hl l (by simp [h]))
    have h2 : ∀ i, (charged (l :: ls) i : Rat) * x i = (if some i ∈ l.1 then (l.2 : Rat) * x i else 0) + (charged ls i : Rat) * x i := by
      intro i
      unfold charged
      rw [List.filter_cons]
      by_cases h : some i ∈ l.1
      · rw [if_pos (by simpa using h), if_pos h]
        simp only [List.map_cons, List.sum_cons]
        push_cast
        ring
      · rw [if_neg (by simpa using h), if_neg h]
        ring
    rw [Finset.sum_congr rfl (fun i _ => h2 i), Finset.sum_add_distrib]
    have h3 : (l.2 : Rat) ≤ ∑ i ∈ Finset.range n, (if some i ∈ l.1 then (l.2 : Rat) * x i else 0) := by
      have hu := hl l (by simp)
      obtain ⟨hn, hr⟩ := hops l (by simp)
      unfold LandmarkUsed at hu
      obtain ⟨es, _, _, k3, k4, k5⟩ := mapM_ids (l := l.1) (fun x hx => by
        obtain ⟨i, e, _⟩ := hr x hx
        exact ⟨i, e⟩)
      rw [← List.sum_toFinset (fun (i : Option Nat) => (i.map x).getD 0) hn] at hu
      have e1 : ∑ i ∈ Finset.range n, (if some i ∈ l.1 then (l.2 : Rat) * x i else 0) = (l.2 : Rat) * ∑ i ∈ (Finset.range n).filter (fun i => some i ∈ l.1), x i := by
        rw [← Finset.sum_filter, Finset.mul_sum]
      have e2 : ∑ i ∈ (Finset.range n).filter (fun i => some i ∈ l.1), x i = ∑ o ∈ l.1.toFinset, ((o.map x).getD 0) := by
        refine Finset.sum_bij (fun i _ => some i) ?_ ?_ ?_ ?_
        · intro i hi
          exact List.mem_toFinset.mpr (Finset.mem_filter.mp hi).2
        · intro i _ j _ h
          simpa using h
        · intro o ho
          obtain ⟨i, rfl, hi⟩ := hr o (List.mem_toFinset.mp ho)
          exact ⟨i, Finset.mem_filter.mpr ⟨Finset.mem_range.mpr hi, List.mem_toFinset.mp ho⟩, rfl⟩
        · intro i _
          rfl
      rw [e1, e2]
      have : (0 : Rat) ≤ l.2 := by exact_mod_cast Nat.zero_le _
      nlinarith
    simp only [List.map_cons, List.sum_cons]
    push_cast
    push_cast at h1
    linarith

theorem countCost_eq (t : Task) (x : Nat → Rat) : t.countCost x = ∑ i ∈ Finset.range t.ops.length, (t.opCost i : Rat) * x i := by
  unfold Task.countCost
  rw [zipIdx_sum0 (fun (o : Operator) i => (o.cost : Rat) * x i)]
  refine Finset.sum_congr rfl (fun i _ => ?_)
  unfold Task.opCost
  cases t.ops[i]? <;> simp

include hc herr hsolve in
/-- C64: the heuristic is at least as large as each of the heuristics that it combines: the value is at least that of each pattern database, at least the
sum of the landmark costs of each LM-cut generator, and hence at least h^max if there is one; it is never negative. -/
theorem C64_dominates {obj obj' : Object} (h : Reached H t kind int gs solve obj) {s : State} (hs : t.ValidState s) {k : Int} (hv : compute H t solve int s obj = some (some k, obj')) :
    0 ≤ k ∧
    (∀ Ps P, .pho Ps ∈ gs → P ∈ Ps → ∃ n : Nat, (t.project P).PerfectValue t.opCost s (some n) ∧ n ≤ k) ∧
    (.lmcut ∈ gs → ∃ ls, t.LandmarksOk s ls ∧ (((ls.map (·.2)).sum : Nat) : Int) ≤ k ∧ ∃ m : Nat, IsLeast? (t.HmaxGoalLe s) (some m) ∧ m ≤ k) := by
  have h1 := C64_value_partial hc herr hsolve h hs
  rw [hv] at h1
  obtain ⟨hd, lm, h2, v, ⟨⟨x, hx, hxv⟩, _⟩, rfl, _⟩ := h1
  refine ⟨?_, fun Ps P hPs hP => ?_, fun hg => ?_⟩
  · refine le_ceil_of (n := 0) herr ?_
    have := countCost_nonneg (t := t) (x := x) (fun i hi => (hx.1 i hi).1)
    push_cast
    linarith
  · obtain ⟨j, hj⟩ := List.mem_iff_getElem?.mp hPs
    have hall := hx.2 j _ hj P hP
    obtain ⟨hpdb, hpat⟩ := hc.supports _ hPs
    obtain ⟨q1, q2, q3, C, q4, q5⟩ := hpat P hP
    obtain ⟨db, _, k2, _⟩ := pdb_spec H hpdb q1 (.inl rfl) (C := C) (by rw [costWith_nil]; exact q4) q3 q5
    rw [costWith_nil] at k2
    obtain ⟨w, _, w2, _⟩ := k2 s hs
    cases w with
    | none => exact absurd ⟨P, hP, w2⟩ (hd _ hPs)
    | some n =>
      refine ⟨n, w2, ?_⟩
      have h3 := hall n w2
      unfold Task.RelevantCost at h3
      rw [sum_relevant] at h3
      refine le_ceil_of (n := n) herr ?_
      rw [countCost_eq] at hxv
      have h4 : ∑ i ∈ Finset.range t.ops.length, (t.costOn t.opCost P i : Rat) * x i ≤ ∑ i ∈ Finset.range t.ops.length, (t.opCost i : Rat) * x i := by
        refine Finset.sum_le_sum (fun i hi => mul_le_mul_of_nonneg_right ?_ (hx.1 i (Finset.mem_range.mp hi)).1)
        unfold Task.costOn
        split
        · exact le_refl _
        · exact_mod_cast Nat.zero_le _
      push_cast
      linarith
  · obtain ⟨j, hj⟩ := List.mem_iff_getElem?.mp hg
    obtain ⟨l1, m, l2, l3⟩ := h2 j hj
    have hsum : (((lm j).map (·.2)).sum : Nat) ≤ ⌈v - 1 / 100⌉ := by
      refine le_ceil_of (n := (((lm j).map (·.2)).sum : Nat)) herr ?_
      have h3 := sum_charged (lm j) (n := t.ops.length) (fun l hl => ⟨(l1.ops l hl).1, fun y hy => by
        obtain ⟨i, o, e1, e2, _⟩ := (l1.ops l hl).2 y hy
        exact ⟨i, e1, (List.getElem?_eq_some_iff.mp e2).1⟩⟩) (fun i hi => (hx.1 i hi).1) (hx.2 j _ hj)
      rw [countCost_eq] at hxv
      have h4 : ∑ i ∈ Finset.range t.ops.length, (charged (lm j) i : Rat) * x i ≤ ∑ i ∈ Finset.range t.ops.length, (t.opCost i : Rat) * x i := by
        refine Finset.sum_le_sum (fun i hi => mul_le_mul_of_nonneg_right ?_ (hx.1 i (Finset.mem_range.mp hi)).1)
        have ho := List.getElem?_eq_getElem (Finset.mem_range.mp hi)
        have := l1.partition i _ ho
        rw [Task.opCost, ho]
        exact_mod_cast this
      have h5 := (h3.trans h4).trans hxv
      generalize ((lm j).map (·.2)).sum = N at h5 ⊢
      exact_mod_cast h5
    refine ⟨lm j, l1, hsum, m, l3, ?_⟩
    omega

end

/-! ### Consistency -/

section
variable {H : StdHeap Nat} {t : Task} {kind : SolverType} {int : Bool} {gs : List Gen} (hc : Config t kind int gs) (hno : Gen.lmcut ∉ gs) {solve : Program → Bool → Option Rat} (hsolve : MinSolver 0 solve)

include hno in
theorem allows_lm {s : State} {lm lm' : Nat → List CostedSet} {x : Nat → Rat} (h : Feasible t s gs lm int x) : Feasible t s gs lm' int x := by
  refine ⟨h.1, fun j g hj => ?_⟩
  have := h.2 j g hj
  cases g with
  | stateEquation => exact this
  | pho Ps => exact this
  | lmcut => exact absurd (List.mem_of_getElem? hj) hno

include hno in
theorem minimum_unique {s : State} {lm lm' : Nat → List CostedSet} {v w : Rat} (hv : IsMinimum t s gs lm int 0 v) (hw : IsMinimum t s gs lm' int 0 w) : v ≤ w := by
  obtain ⟨x, h1, h2⟩ := hw.1
  have := hv.2 x (allows_lm hno h1)
  linarith

include hc hno hsolve in
/-- C64: without LM-cut constraints the value of a state does not depend on what has been evaluated before, nor on the LP solver. -/
theorem C64_independent {solve' : Program → Bool → Option Rat} (hsolve' : MinSolver 0 solve') {obj obj' : Object} (h : Reached H t kind int gs solve obj) (h' : Reached H t kind int gs solve' obj') {s : State} (hs : t.ValidState s) :
    (compute H t solve int s obj).map (·.1) = (compute H t solve' int s obj').map (·.1) := by
  have h1 := C64_value_partial hc (by norm_num) hsolve h hs
  have h2 := C64_value_partial hc (by norm_num) hsolve' h' hs
  generalize (compute H t solve int s obj).map (·.1) = r at h1 ⊢
  generalize (compute H t solve' int s obj').map (·.1) = r' at h2 ⊢
  have hval : ∀ {lm lm' : Nat → List CostedSet} {v w : Rat}, IsMinimum t s gs lm int 0 v → IsMinimum t s gs lm' int 0 w → v = w := fun hv hw => le_antisymm (minimum_unique hno hv hw) (minimum_unique hno hw hv)
  have hbad : ∀ {lm : Nat → List CostedSet} {v : Rat}, (∀ g ∈ gs, ¬Dead t s g) → IsMinimum t s gs lm int 0 v → Correct t s gs int 0 (some none) → False := by
    rintro lm v hd hv (⟨g, hg, hdead⟩ | ⟨lm', _, hn⟩)
    · exact hd g hg hdead
    · obtain ⟨x, hx, _⟩ := hv.1
      exact hn ⟨x, allows_lm hno hx⟩
  rcases r with _ | _ | k <;> rcases r' with _ | _ | k'
  · rfl
  · obtain ⟨hd, lm, _, v, hv, _⟩ := h1
    exact (hbad hd hv h2).elim
  · obtain ⟨hd, lm, _, v, hv, hv'⟩ := h1
    obtain ⟨_, lm', _, w, hw, hw', hw''⟩ := h2
    rw [hval hv hw] at hv'
    omega
  · obtain ⟨hd, lm, _, v, hv, _⟩ := h2
    exact (hbad hd hv h1).elim
  · rfl
  · obtain ⟨hd, lm, _, v, hv, _⟩ := h2
    exact (hbad hd hv h1).elim
  · obtain ⟨hd, lm, _, v, hv, hv', hv''⟩ := h1
    obtain ⟨_, lm', _, w, hw, hw'⟩ := h2
    rw [hval hv hw] at hv'
    omega
  · obtain ⟨hd, lm, _, v, hv, _⟩ := h1
    exact (hbad hd hv h2).elim
  · obtain ⟨hd, lm, _, v, hv, rfl, _⟩ := h1
    obtain ⟨_, lm', _, w, hw, rfl, _⟩ := h2
    rw [hval hv hw]

theorem countCost_add {t : Task} {x : Nat → Rat} {i : Nat} {o : Operator} (ho : t.ops[i]? = some o) : t.countCost (fun j => (if j = i then 1 else 0) + x j) = o.cost + t.countCost x := by
  rw [countCost_eq, countCost_eq]
  have h1 : ∀ j, (t.opCost j : Rat) * ((if j = i then 1 else 0) + x j) = (if j = i then (t.opCost j : Rat) else 0) + (t.opCost j : Rat) * x j := by
    intro j
    split <;> ring
  rw [Finset.sum_congr rfl (fun j _ => h1 j), Finset.sum_add_distrib, Finset.sum_ite_eq', if_pos (Finset.mem_range.mpr (List.getElem?_eq_some_iff.mp ho).1)]
  simp [Task.opCost, ho]

theorem weighted_add {n i : Nat} (hi : i < n) (c : Nat → Rat) (x : Nat → Rat) : ∑ j ∈ Finset.range n, c j * ((if j = i then 1 else 0) + x j) = c i + ∑ j ∈ Finset.range n, c j * x j := by
  have h1 : ∀ j, c j * ((if j = i then 1 else 0) + x j) = (if j = i then c j else 0) + c j * x j := by
    intro j
    split <;> ring
  rw [Finset.sum_congr rfl (fun j _ => h1 j), Finset.sum_add_distrib, Finset.sum_ite_eq', if_pos (Finset.mem_range.mpr hi)]

/-- consistency of the perfect heuristic of a projection -/
theorem project_step (H : StdHeap Nat) {Ps : List (List Nat)} (hsup : Supports t (.pho Ps)) {P : List Nat} (hP : P ∈ Ps) {s s' : State} (hs : t.ValidState s) {i : Nat} {o : Operator} (ho : t.ops[i]? = some o) (ha : o.applicable s) (hsu : t.SuccRel o s s')
    (hd : ∃ π, (t.project P).SolvesFrom s' π) : ∃ m n : Nat, (t.project P).PerfectValue t.opCost s (some m) ∧ (t.project P).PerfectValue t.opCost s' (some n) ∧ m ≤ t.costOn t.opCost P i + n := by
  obtain ⟨hpdb, hpat⟩ := hsup
  obtain ⟨q1, q2, q3, C, q4, q5⟩ := hpat P hP
  obtain ⟨db, _, k2, k3⟩ := pdb_spec H hpdb q1 (.inl rfl) (C := C) (by rw [costWith_nil]; exact q4) q3 q5
  rw [costWith_nil] at k2
  have hsp : PdbSpec t P t.opCost _ db := ⟨k2, k3⟩
  obtain ⟨w, w1, w2, _⟩ := k2 s' (succ_valid hpdb.wf hs ho ha hsu)
  cases w with
  | none =>
    obtain ⟨π, hπ⟩ := hd
    exact absurd hπ (w2 π)
  | some n =>
    obtain ⟨m, m1, m2⟩ := hsp.consistent hpdb.simple hs ho ha hsu w1
    obtain ⟨w', u1, u2, _⟩ := k2 s hs
    rw [m1] at u1
    simp only [Option.some.injEq] at u1
    subst u1
    exact ⟨m, n, u2, w2, m2⟩

include hc hno in
/-- one use of an operator more satisfies the constraints of the state before the operator -/
theorem feasible_step (H : StdHeap Nat) {s s' : State} (hs : t.ValidState s) {i : Nat} {o : Operator} (ho : t.ops[i]? = some o) (ha : o.applicable s) (hsu : t.SuccRel o s s') (hd : ∀ g ∈ gs, ¬Dead t s' g) {lm : Nat → List CostedSet} {x : Nat → Rat}
    (hx : Feasible t s' gs lm int x) : Feasible t s gs lm int (fun j => (if j = i then 1 else 0) + x j) := by
  refine ⟨fun j hj => ?_, fun j g hj => ?_⟩
  · obtain ⟨h1, h2⟩ := hx.1 j hj
    refine ⟨?_, fun h => ?_⟩
    · simp only
      split <;> linarith
    · obtain ⟨z, hz⟩ := h2 h
      refine ⟨(if j = i then 1 else 0) + z, ?_⟩
      simp only [hz]
      split <;> simp
  · have hall := hx.2 j g hj
    have hmem := List.mem_of_getElem? hj
    have hsup := hc.supports g hmem
    have hlt := (List.getElem?_eq_some_iff.mp ho).1
    cases g with
    | lmcut => exact absurd hmem hno
    | stateEquation =>
      intro f hf hex
      have h1 := hall f hf hex
      have h2 := step_change hsup hs ho ha hsu hf
      rw [netChange_eq] at h1 ⊢
      rw [weighted_add hlt]
      linarith
    | pho Ps =>
      intro P hP m hm
      have hd' : ∃ π, (t.project P).SolvesFrom s' π := by
        by_contra hn
        exact hd _ hmem ⟨P, hP, fun π hπ => hn ⟨π, hπ⟩⟩
      obtain ⟨m', n, k1, k2, k3⟩ := project_step H hsup hP hs ho ha hsu hd'
      have := perfect_unique hm k1
      simp only [Option.some.injEq] at this
      subst this
      have h3 := hall P hP n k2
      unfold Task.RelevantCost at h3 ⊢
      rw [sum_relevant] at h3
      rw [sum_relevant t P (fun j => (if j = i then 1 else 0) + x j), weighted_add hlt (fun i => (t.costOn t.opCost P i : Rat))]
      have : (m : Rat) ≤ (t.costOn t.opCost P i : Rat) + n := by exact_mod_cast k3
      linarith

include hc hno hsolve in
/-- C64: without LM-cut constraints and with an exact LP solver the heuristic is consistent: applying an operator decreases the value by at most
the cost of the operator, and a state with a successor that is not recognised as a dead end is not recognised either. -/
theorem C64_consistent {obj1 obj2 obj1' obj2' : Object} (h1 : Reached H t kind int gs solve obj1) (h2 : Reached H t kind int gs solve obj2) {s s' : State} (hs : t.ValidState s) {i : Nat} {o : Operator} (ho : t.ops[i]? = some o) (ha : o.applicable s)
    (hsu : t.SuccRel o s s') {r : Option Int} {k' : Int} (hr : compute H t solve int s obj1 = some (r, obj1')) (hr' : compute H t solve int s' obj2 = some (some k', obj2')) : ∃ k, r = some k ∧ k ≤ o.cost + k' := by
  obtain ⟨g0, hg0⟩ := List.exists_mem_of_ne_nil _ hc.nonempty
  have hwf : t.WF := by
    have := hc.supports g0 hg0
    cases g0 with
    | stateEquation => exact Task.CountingOk.wf this
    | lmcut => exact Task.LmCutOk.wf this
    | pho Ps => exact this.1.wf
  have hs' := succ_valid hwf hs ho ha hsu
  have c1 := C64_value_partial hc (by norm_num) hsolve h1 hs
  have c2 := C64_value_partial hc (by norm_num) hsolve h2 hs'
  rw [hr] at c1
  rw [hr'] at c2
  obtain ⟨hd, lm, _, v, hv, rfl, _⟩ := c2
  obtain ⟨x, hx, hxv⟩ := hv.1
  have hstep := feasible_step hc hno H hs ho ha hsu hd hx
  cases r with
  | none =>
    rcases c1 with ⟨g, hg, hdead⟩ | ⟨lm', _, hn⟩
    · exfalso
      cases g with
      | stateEquation => exact hdead
      | lmcut => exact hno hg
      | pho Ps =>
        obtain ⟨P, hP, hn⟩ := hdead
        have hd' : ∃ π, (t.project P).SolvesFrom s' π := by
          by_contra hn'
          exact hd _ hg ⟨P, hP, fun π hπ => hn' ⟨π, hπ⟩⟩
        obtain ⟨m, n, ⟨⟨π, k1, _⟩, _⟩, _⟩ := project_step H (hc.supports _ hg) hP hs ho ha hsu hd'
        exact hn π k1
    · exact absurd ⟨_, allows_lm hno hstep⟩ hn
  | some k =>
    obtain ⟨_, lm', _, w, hw, rfl, _⟩ := c1
    refine ⟨_, rfl, ?_⟩
    have := hw.2 _ (allows_lm hno hstep)
    rw [countCost_add ho] at this
    have h3 : w - 1 / 100 ≤ (v - 1 / 100) + ((o.cost : Int) : Rat) := by
      push_cast
      linarith
    have h4 := Int.ceil_le_ceil h3
    rw [Int.ceil_add_intCast] at h4
    omega

include hc in
/-- C64: goal states have the value 0. -/
theorem C64_goal {err : Rat} (herr : err < 1 / 100) {solve : Program → Bool → Option Rat} (hsolve : MinSolver err solve) {obj : Object} (h : Reached H t kind int gs solve obj) {s : State} (hs : t.ValidState s) (hg : allHold t.goal s) :
    ∃ obj', compute H t solve int s obj = some (some 0, obj') := by
  obtain ⟨k, obj', h1, h2⟩ := C64_admissible_partial hc herr hsolve h hs (π := []) ⟨s, .nil s, hg⟩ (by simp [Task.planCost])
  have h3 := (C64_dominates hc herr hsolve h hs h1).1
  simp only [Task.planCost, List.map_nil, List.sum_nil] at h2
  have : k = 0 := by omega
  exact ⟨obj', by rw [h1, this]⟩

end

/-! ### A* -/

/-- C64 and C23: A* with the operator-counting heuristic, on a task whose costs fit into the C++ types and for which constraints that can be satisfied can be satisfied with costs less than
2^30, ends; it returns a plan of minimal cost if there is a plan, and fails otherwise. -/
theorem C64_astar {H : StdHeap Nat} {t : Task} {kind : SolverType} {int : Bool} {gs : List Gen} (hc : Config t kind int gs) {err : Rat} (herr : err < 1 / 100) {solve : Program → Bool → Option Rat} (hsolve : MinSolver err solve)
    (hb : ∀ s lm, t.ValidState s → (∀ j, gs[j]? = some Gen.lmcut → LmOk t s (lm j)) → (∃ x, Feasible t s gs lm int x) → ∃ x, Feasible t s gs lm int x ∧ t.countCost x ≤ 2 ^ 30 - 1)
    (hwf : t.WF) (hfit : t.FitsTypes .normal) (hC : ∀ i, t.opCost i < 2 ^ 29) :
    ∃ hobj : AdmissibleObject t (ObjOk t kind gs) (fun s obj => (compute H t solve int s obj).map (fun r => (r.1.map Int.toNat, r.2))),
      (∀ obj, create H t kind int gs = some obj → ObjOk t kind gs obj) ∧
      ∀ (u : Nat → Nat → Bool) (H' : OpenList.StdHeap State) (rel : Nat → Bool) (rng : OpenList.Rng) (σ : { obj : Object // ObjOk t kind gs obj }),
        ∃ n, OptimalResult t (Eager.search (World.ofTask t u .normal) (objEnv hobj) H' rel ⟨true, 2147483647⟩ (.tiebreaking false false [1, 0]) rng σ n) := by
  have hobj : AdmissibleObject t (ObjOk t kind gs) (fun s obj => (compute H t solve int s obj).map (fun r => (r.1.map Int.toNat, r.2))) := by
    intro s obj hs hm
    obtain ⟨h1, h2⟩ := compute_spec H hc.supports hc.single herr hsolve (int := int) hs hm
    have hbound : ∀ lm v, (∀ j, gs[j]? = some Gen.lmcut → LmOk t s (lm j)) → IsMinimum t s gs lm int err v → ⌈v - 1 / 100⌉ ≤ 2 ^ 30 - 1 := by
      intro lm v hlm hv
      obtain ⟨x, hx, _⟩ := hv.1
      obtain ⟨y, hy, hy'⟩ := hb s lm hs hlm ⟨x, hx⟩
      refine ceil_le_of herr ?_
      have := hv.2 y hy
      push_cast
      linarith
    cases hr : compute H t solve int s obj with
    | none =>
      rw [hr] at h1
      obtain ⟨_, lm, h3, v, h4, h5⟩ := h1
      have := hbound lm v h3 h4
      omega
    | some r =>
      obtain ⟨v, obj'⟩ := r
      refine ⟨v.map Int.toNat, obj', by simp only [hr, Option.map_some], h2 v obj' hr, fun n hn => ?_, fun π hπ => ?_⟩
      · obtain ⟨k, rfl, rfl⟩ := Option.map_eq_some_iff.mp hn
        rw [hr] at h1
        obtain ⟨_, lm, h3, w, h4, h5, _⟩ := h1
        have := hbound lm w h3 h4
        omega
      · rcases correct_admissible hc herr hs h1 hπ with ⟨k, k1, k2⟩ | ⟨k1, _⟩
        · rw [hr] at k1
          simp only [Option.map_some, Option.some.injEq] at k1
          exact ⟨k.toNat, by rw [k1]; rfl, by omega⟩
        · rw [hr] at k1
          simp at k1
  refine ⟨hobj, fun obj h => ?_, fun u H' rel rng σ => astar_object hobj hwf hfit hC u H' rel rng σ⟩
  obtain ⟨obj', k1, k2⟩ := create_spec H hc.nonempty hc.integer hc.supports
  rw [h] at k1
  simp only [Option.some.injEq] at k1
  subst k1
  exact k2

end Verif.Counting
