import Verif.Model.SimpleHeuristics
import Verif.Lemmas.AstarHeuristic
import Verif.Lemmas.SimpleTask
import Verif.Lemmas.MasAtomic
import Verif.Lemmas.SimpleSucc
import Verif.Props.OperatorCost
import Mathlib.Data.List.Perm.Subperm

/-
C65: the blind heuristic, the goal-count heuristic and evaluators on tasks with modified costs are what their documentation says.
-/
namespace Verif.SimpleHeuristics
open Verif.Search

theorem foldl_min : ∀ (ops : List Operator) (m : Nat), ops.foldl (fun m o => min m o.cost) m ≤ m ∧ (∀ o ∈ ops, ops.foldl (fun m o => min m o.cost) m ≤ o.cost) ∧
    (ops.foldl (fun m o => min m o.cost) m = m ∨ ∃ o ∈ ops, ops.foldl (fun m o => min m o.cost) m = o.cost)
  | [], m => ⟨Nat.le_refl _, by simp, Or.inl rfl⟩
  | o :: ops, m => by
    obtain ⟨h1, h2, h3⟩ := foldl_min ops (min m o.cost)
    simp only [List.foldl_cons]
    refine ⟨by omega, ?_, ?_⟩
    · intro o' ho'
      rcases List.mem_cons.mp ho' with rfl | h
      · omega
      · exact h2 o' h
    · rcases h3 with h3 | ⟨o', h4, h5⟩
      · rcases Nat.le_total m o.cost with h | h
        · left; omega
        · right; exact ⟨o, by simp, by omega⟩
      · right; exact ⟨o', by simp [h4], h5⟩

/-- **C65** (blind): the value of a goal state is 0, that of any other state is the cost of a cheapest operator (if some operator costs less than INT_MAX). -/
theorem C65_blind_value {t : Task} (hwf : t.WF) {s : State} (hs : t.ValidState s) :
    (allHold t.goal s → blind t s = some 0) ∧
    (¬allHold t.goal s → ∃ n, blind t s = some n ∧ (∀ o ∈ t.ops, n ≤ o.cost) ∧ ((∃ o ∈ t.ops, o.cost < 2147483647) → ∃ o ∈ t.ops, o.cost = n) ∧ (t.ops = [] → n = 2147483647)) := by
  unfold blind
  rw [isGoalState_spec hs _ hwf.goalFacts]
  constructor
  · intro h
    simp only [h, decide_true]
  · intro h
    simp only [h, decide_false]
    obtain ⟨h1, h2, h3⟩ := foldl_min t.ops 2147483647
    refine ⟨_, rfl, h2, ?_, ?_⟩
    · rintro ⟨o, ho, hlt⟩
      rcases h3 with h3 | ⟨o', h4, h5⟩
      · have := h2 o ho
        unfold minOperatorCost
        omega
      · exact ⟨o', h4, h5.symm⟩
    · intro e
      rw [e]
      rfl

/-- **C65** (blind): the heuristic is consistent: its value decreases by at most the cost of an operator. -/
theorem C65_blind_consistent {t : Task} (hwf : t.WF) {s s' : State} (hs : t.ValidState s) (hs' : t.ValidState s') {o : Operator} (ho : o ∈ t.ops) {n n' : Nat}
    (hn : blind t s = some n) (hn' : blind t s' = some n') : n ≤ o.cost + n' := by
  obtain ⟨h1, h2⟩ := C65_blind_value hwf hs
  by_cases hg : allHold t.goal s
  · have := h1 hg
    rw [hn] at this
    simp only [Option.some.injEq] at this
    omega
  · obtain ⟨k, h3, h4, _⟩ := h2 hg
    rw [hn] at h3
    simp only [Option.some.injEq] at h3
    subst h3
    have := h4 o ho
    omega

/-- the blind heuristic as an object without members -/
def blindObject (t : Task) (s : State) (_ : Unit) : Option (Option Nat × Unit) := (blind t s).map (fun h => (seen h, ()))

/-- **C65** (blind): what the search sees is admissible, if operator costs are below 2^30; states reported as dead ends have no plans. -/
theorem C65_blind_admissible {t : Task} (hwf : t.WF) (hc : ∀ o ∈ t.ops, o.cost < 2 ^ 30) : AdmissibleObject t (fun _ => True) (blindObject t) := by
  intro s m hs _
  obtain ⟨h1, h2⟩ := C65_blind_value hwf hs
  unfold blindObject
  by_cases hg : allHold t.goal s
  · rw [h1 hg]
    refine ⟨some 0, (), rfl, trivial, ?_, fun π hπ => ⟨0, rfl, Nat.zero_le _⟩⟩
    intro n hn
    simp only [Option.some.injEq] at hn
    omega
  · obtain ⟨n, h3, h4, h5, h6⟩ := h2 hg
    rw [h3]
    refine ⟨seen n, (), rfl, trivial, ?_, ?_⟩
    · intro k hk
      unfold seen at hk
      split at hk
      · cases hk
      · rename_i hne
        simp only [Option.some.injEq] at hk
        subst hk
        cases hops : t.ops with
        | nil => exact absurd (h6 hops) hne
        | cons o os =>
          have h7 := h4 o (by simp [hops])
          have h8 := hc o (by simp [hops])
          omega
    · intro π hπ
      obtain ⟨u, hex, hgoal⟩ := hπ
      cases hex with
      | nil => exact absurd hgoal hg
      | cons _ i o s' π _ k1 k2 k3 k4 =>
        have hm : o ∈ t.ops := List.mem_of_getElem? k1
        have h7 := h4 o hm
        have h8 := hc o hm
        refine ⟨n, by unfold seen; rw [if_neg (by omega)], ?_⟩
        have : t.opCost i = o.cost := by simp [Task.opCost, k1]
        simp only [Task.planCost, List.map_cons, List.sum_cons]
        omega

/-- **C65** and C23: A* with the blind heuristic ends; it returns a plan of minimal cost if there is a plan, and fails otherwise. -/
theorem C65_blind_astar {t : Task} (hwf : t.WF) (hfit : t.FitsTypes .normal) (hc : ∀ i, t.opCost i < 2 ^ 29) (u : Nat → Nat → Bool) (H : OpenList.StdHeap State) (rel : Nat → Bool)
    (rng : OpenList.Rng) (σ : { m : Unit // True }) :
    ∃ n, OptimalResult t (Eager.search (World.ofTask t u .normal)
      (objEnv (C65_blind_admissible hwf (fun o ho => by
        obtain ⟨i, hi⟩ := List.mem_iff_getElem?.mp ho
        have := hc i
        simp only [Task.opCost, hi, Option.map_some, Option.getD_some] at this
        omega))) H rel ⟨true, 2147483647⟩ (.tiebreaking false false [1, 0]) rng σ n) :=
  astar_object _ hwf hfit hc u H rel rng σ

/-- a task with one operator that costs INT_MAX -/
def expensive : Task where
  vars := [⟨2, none, 0⟩]
  ops := [⟨[], [⟨[], ⟨0, 1⟩⟩], 2147483647⟩]
  axioms := []
  init := [0]
  goal := [⟨0, 1⟩]

/-- **C65** fails for operators that cost INT_MAX (which the reader accepts): a state with a plan is reported as a dead end. -/
theorem C65_blind_int_max_fails : expensive.WF ∧ expensive.IsPlan [0] ∧ (blind expensive expensive.init).map seen = some none :=
  ⟨taskOK_wf (by decide), execOK_spec (taskOK_wf (by decide)) _ _ (taskOK_wf (by decide)).init (by decide), by decide⟩

/-! ### Goal count -/

theorem countLoop_spec {t : Task} {s : State} (hs : t.ValidState s) : ∀ (fs : List Fact) (n : Nat), (∀ f ∈ fs, t.ValidFact f) →
    countLoop s fs n = some (n + (fs.filter (fun f => decide (¬f.holds s))).length)
  | [], n, _ => rfl
  | f :: fs, n, h => by
    obtain ⟨d, hd, _⟩ := h f (by simp)
    have hlt : f.var < s.length := by rw [hs.1]; exact (List.getElem?_eq_some_iff.mp hd).1
    have ih := fun n => countLoop_spec hs fs n (fun f hf => h f (by simp [hf]))
    simp only [countLoop, List.getElem?_eq_getElem hlt, ih]
    by_cases hx : s[f.var] = f.val
    · have hf : f.holds s := by unfold Fact.holds; rw [List.getElem?_eq_getElem hlt, hx]
      rw [if_neg (by simpa using hx), List.filter_cons_of_neg (by simpa using hf)]
    · have hf : ¬f.holds s := by
        unfold Fact.holds
        rw [List.getElem?_eq_getElem hlt]
        intro e
        exact hx (Option.some.inj e)
      rw [if_pos hx, List.filter_cons_of_pos (by simpa using hf), List.length_cons]
      congr 1
      omega

/-- **C65** (goal count): the value is the number of goals that do not hold; it is 0 for goal states only, and never infinite for less than INT_MAX goals. -/
theorem C65_goal_count {t : Task} (hwf : t.WF) {s : State} (hs : t.ValidState s) :
    ∃ n, goalCount t s = some n ∧ n = (t.goal.filter (fun f => decide (¬f.holds s))).length ∧ (n = 0 ↔ allHold t.goal s) ∧ (t.goal.length < 2147483647 → seen n = some n) := by
  refine ⟨_, countLoop_spec hs _ _ hwf.goalFacts, by omega, ?_, ?_⟩
  · rw [Nat.zero_add, List.length_eq_zero_iff, List.filter_eq_nil_iff]
    simp only [decide_eq_true_eq, not_not]
    rfl
  · intro h
    have := List.length_filter_le (fun f : Fact => decide (¬f.holds s)) t.goal
    unfold seen
    rw [if_neg (by omega)]

/-- an operator achieves at most as many goals as it has effects -/
theorem count_step {t : Task} (hwf : t.WF) (hax : t.axioms = []) (hg : t.goal.Nodup) {s s' : State} (hs : t.ValidState s) {o : Operator} (h : t.SuccRel o s s') :
    (t.goal.filter (fun f => decide (¬f.holds s))).length ≤ (t.goal.filter (fun f => decide (¬f.holds s'))).length + o.effects.length := by
  have hsplit : (t.goal.filter (fun f => decide (¬f.holds s))).length ≤ (t.goal.filter (fun f => decide (¬f.holds s'))).length + (t.goal.filter (fun f => decide (¬f.holds s ∧ f.holds s'))).length := by
    induction t.goal with
    | nil => simp
    | cons f fs ih =>
      by_cases h1 : f.holds s <;> by_cases h2 : f.holds s' <;> simp [List.filter_cons, h1, h2] at ih ⊢ <;> omega
  have hsub : (t.goal.filter (fun f => decide (¬f.holds s ∧ f.holds s'))).length ≤ (o.effects.map (·.fact)).length := by
    apply List.Subperm.length_le
    apply List.subperm_of_subset (hg.filter _)
    intro f hf
    simp only [List.mem_filter, decide_eq_true_eq] at hf
    obtain ⟨hfg, hn, hh⟩ := hf
    obtain ⟨d, hd, _⟩ := hwf.goalFacts f hfg
    have hlt : f.var < s.length := by rw [hs.1]; exact (List.getElem?_eq_some_iff.mp hd).1
    have := Mas.succ_value hwf hax h (List.getElem?_eq_getElem hlt)
    unfold Fact.holds at hn hh
    rw [hh] at this
    simp only [Option.some.injEq] at this
    cases ha : o.assigned s f.var with
    | none =>
      rw [ha] at this
      simp only [Option.getD_none] at this
      exact absurd (by rw [List.getElem?_eq_getElem hlt, this]) hn
    | some y =>
      rw [ha] at this
      simp only [Option.getD_some] at this
      subst this
      unfold Operator.assigned at ha
      rw [Option.map_eq_some_iff] at ha
      obtain ⟨e, h1, h2⟩ := ha
      have hm := List.mem_of_getLast? h1
      simp only [List.mem_filter, Bool.and_eq_true, decide_eq_true_eq, beq_iff_eq] at hm
      refine List.mem_map.mpr ⟨e, hm.1, ?_⟩
      cases f
      cases hf' : e.fact
      simp_all
  simp only [List.length_map] at hsub
  omega

/-- **C65** (goal count): it is admissible for tasks without axioms in which operators cost at least as much as they have effects. -/
theorem C65_goal_count_admissible {t : Task} (hwf : t.WF) (hax : t.axioms = []) (hg : t.goal.Nodup) (hc : ∀ o ∈ t.ops, o.effects.length ≤ o.cost) {s : State} (hs : t.ValidState s) {π : List Nat}
    (hπ : t.SolvesFrom s π) {n : Nat} (hn : goalCount t s = some n) : n ≤ t.planCost π := by
  have hn' := countLoop_spec hs _ 0 hwf.goalFacts
  unfold goalCount at hn
  rw [hn] at hn'
  simp only [Option.some.injEq, Nat.zero_add] at hn'
  rw [hn']
  clear hn hn'
  obtain ⟨u, hex, hgoal⟩ := hπ
  induction hex with
  | nil s =>
    rw [List.filter_eq_nil_iff.mpr (fun f hf => by simpa using hgoal f hf)]
    exact Nat.zero_le _
  | cons s i o s' π u k1 k2 k3 _ ih =>
    have h1 := count_step hwf hax hg hs k3
    have h2 := ih (succ_valid hwf hs k1 k2 k3) hgoal
    have h3 := hc o (List.mem_of_getElem? k1)
    have : t.opCost i = o.cost := by simp [Task.opCost, k1]
    simp only [Task.planCost, List.map_cons, List.sum_cons] at h2 ⊢
    omega

/-- one operator of cost 1 achieves two goals -/
def twoGoals : Task where
  vars := [⟨2, none, 0⟩, ⟨2, none, 0⟩]
  ops := [⟨[], [⟨[], ⟨0, 1⟩⟩, ⟨[], ⟨1, 1⟩⟩], 1⟩]
  axioms := []
  init := [0, 0]
  goal := [⟨0, 1⟩, ⟨1, 1⟩]

/-- **C65** (goal count): in general it is not admissible (as documented). -/
theorem C65_goal_count_inadmissible : twoGoals.WF ∧ twoGoals.IsPlan [0] ∧ twoGoals.planCost [0] = 1 ∧ goalCount twoGoals twoGoals.init = some 2 :=
  ⟨taskOK_wf (by decide), execOK_spec (taskOK_wf (by decide)) _ _ (taskOK_wf (by decide)).init (by decide), by decide, by decide⟩

/-! ### Modified costs -/

/-- **C65** (eval_modify_costs): a nested evaluator that is admissible for the task with modified costs is admissible for the task if the modification does not increase the
costs (as documented). -/
theorem C65_modify_costs {t : Task} (ct : CostType) {M : Type} {R : M → Prop} {f : State → M → Option (Option Nat × M)} (hf : AdmissibleObject (OperatorCost.costAdaptedTask t ct) R f)
    (hc : ∀ i < t.ops.length, t.costUnder ct i ≤ t.opCost i) : AdmissibleObject t R f := by
  intro s m hs hm
  have hs' : (OperatorCost.costAdaptedTask t ct).ValidState s := hs
  obtain ⟨v, m', h1, h2, h3, h4⟩ := hf s m hs' hm
  refine ⟨v, m', h1, h2, h3, fun π hπ => ?_⟩
  obtain ⟨n, h5, h6⟩ := h4 π ((OperatorCost.C44_same_plans ct s π).mpr hπ)
  refine ⟨n, h5, h6.trans ?_⟩
  rw [OperatorCost.C44_plan_cost ct hπ]
  obtain ⟨u, hex, _⟩ := hπ
  have hi := OperatorCost.exec_indices hex
  unfold Task.planCostUnder Task.planCost
  clear h5 h6 h4 hex
  induction π with
  | nil => simp
  | cons i π ih =>
    have := hc i (hi i (by simp))
    have := ih (fun j hj => hi j (by simp [hj]))
    simp only [List.map_cons, List.sum_cons]
    omega

/-- the cost type `one` does not increase costs unless there are operators without cost; `plusone` only for unit costs -/
theorem C65_modify_costs_types (t : Task) :
    ((∀ i < t.ops.length, t.costUnder .one i ≤ t.opCost i) ↔ ∀ o ∈ t.ops, 1 ≤ o.cost) ∧ ((∀ i < t.ops.length, t.costUnder .plusone i ≤ t.opCost i) ↔ ∀ o ∈ t.ops, o.cost = 1) := by
  have hop : ∀ i (h : i < t.ops.length), t.opCost i = t.ops[i].cost := by
    intro i h
    simp [Task.opCost, h]
  constructor
  · constructor
    · intro h o ho
      obtain ⟨i, hi, rfl⟩ := List.mem_iff_getElem.mp ho
      have := h i hi
      rw [hop i hi] at this
      simpa [Task.costUnder] using this
    · intro h i hi
      rw [hop i hi]
      have := h _ (List.getElem_mem hi)
      simpa [Task.costUnder] using this
  · constructor
    · intro h
      by_contra hne
      obtain ⟨o, ho, hc⟩ := by
        simpa using hne
      obtain ⟨i, hi, rfl⟩ := List.mem_iff_getElem.mp ho
      have := h i hi
      have hu : ¬t.unitCost := fun hu => hc (hu _ ho)
      simp only [Task.costUnder, hu, if_false] at this
      omega
    · intro h i hi
      have hu : t.unitCost := h
      rw [hop i hi]
      have := h _ (List.getElem_mem hi)
      simp only [Task.costUnder, hu, if_true]
      omega

/-- an operator without cost -/
def gratis : Task where
  vars := [⟨2, none, 0⟩]
  ops := [⟨[], [⟨[], ⟨0, 1⟩⟩], 0⟩]
  axioms := []
  init := [0]
  goal := [⟨0, 1⟩]

/-- **C65** (eval_modify_costs): without the condition on the costs it fails: the blind heuristic for unit costs is 1 where a plan of cost 0 exists. -/
theorem C65_modify_costs_inadmissible : gratis.WF ∧ gratis.IsPlan [0] ∧ gratis.planCost [0] = 0 ∧ blind (OperatorCost.costAdaptedTask gratis .one) gratis.init = some 1 :=
  ⟨taskOK_wf (by decide), execOK_spec (taskOK_wf (by decide)) _ _ (taskOK_wf (by decide)).init (by decide), by decide, by decide⟩

/-! ### Examples -/

example : twoGoals.WF ∧ (∀ i, twoGoals.opCost i < 2 ^ 29) ∧ twoGoals.FitsTypes .normal := by
  have h : ∀ i, twoGoals.opCost i ≤ 1 := by
    intro i
    match i with
    | 0 => decide
    | n + 1 => simp [Task.opCost, twoGoals]
  exact ⟨taskOK_wf (by decide), fun i => by have := h i; omega, 1, fun i => ⟨h i, h i⟩, by decide⟩

example : AdmissibleObject twoGoals (fun _ => True) (blindObject (OperatorCost.costAdaptedTask twoGoals .one)) :=
  C65_modify_costs .one (C65_blind_admissible (t := OperatorCost.costAdaptedTask twoGoals .one) (taskOK_wf (by decide)) (by decide)) (by decide)

/-- operators that cost as much as they have effects -/
def fair : Task := { twoGoals with ops := [⟨[], [⟨[], ⟨0, 1⟩⟩, ⟨[], ⟨1, 1⟩⟩], 2⟩] }

example : fair.WF ∧ fair.axioms = [] ∧ fair.goal.Nodup ∧ (∀ o ∈ fair.ops, o.effects.length ≤ o.cost) ∧ fair.IsPlan [0] ∧ goalCount fair fair.init = some 2 ∧ blind fair fair.init = some 2 :=
  ⟨taskOK_wf (by decide), rfl, by decide, by decide, execOK_spec (taskOK_wf (by decide)) _ _ (taskOK_wf (by decide)).init (by decide), by decide, by decide⟩

end Verif.SimpleHeuristics
