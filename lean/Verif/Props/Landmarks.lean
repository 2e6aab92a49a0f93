import Verif.Lemmas.LandmarkHeuristics
import Verif.Lemmas.SimpleTask
import Verif.Lemmas.MasAtomic

/-
C42: tracking of landmarks along paths, and heuristics that are based on landmarks.
-/
namespace Verif.Landmarks
open Relation
variable {t : Task} {g : Graph}

/-- However the search reports its transitions, the tracking is defined (no assertion fails, nothing is accessed outside of its
range), and a landmark is marked as not past in a state if and only if the search has reported a path to the state on which the
landmark never holds. -/
theorem C42_past (hwf : t.WF) (hg : g.Valid t) (progGoals progGn progR : Bool) (es : List Event) (hle : ∀ e ∈ es, e.Legal t) :
    ∃ st, observe t.init (Manager.new g progGoals progGn progR) es = some st ∧ ∀ (s : State) (i : Nat) (n : Node), g[i]? = some n →
      ((st.past s)[i]? = some false ∨ (st.past s)[i]? = some true) ∧
      ((st.past s)[i]? = some false ↔ ∃ r, Observed t es r s ∧ ∀ k, ¬HoldsAt n.landmark.Holds (runStates t.init r) k) := by
  obtain ⟨st, h1, h2⟩ := inv_observe hwf hg progGoals progGn progR es hle
  refine ⟨st, h1, fun s i n hn => ?_⟩
  have hlt := (List.getElem?_eq_some_iff.mp hn).1
  refine ⟨(bit_cases (by rw [(h2.len s).1]; exact hlt)).symm, ?_⟩
  rw [h2.past s i hlt, L_eq hn]
  rfl

/-- A landmark that is marked as future in a state has to become true on every plan from the state. -/
theorem C42_future_sound (hwf : t.WF) (hg : g.Valid t) (progGoals progGn progR : Bool) (es : List Event) (hle : ∀ e ∈ es, e.Legal t) :
    ∃ st, observe t.init (Manager.new g progGoals progGn progR) es = some st ∧ ∀ (s : State) (i : Nat) (n : Node), g[i]? = some n →
      (st.future s)[i]? = some true → MustAchieve t s n.landmark.Holds := by
  obtain ⟨st, h1, h2⟩ := inv_observe hwf hg progGoals progGn progR es hle
  refine ⟨st, h1, fun s i n hn hf => ?_⟩
  rw [← L_eq hn]
  exact h2.sound s i (List.getElem?_eq_some_iff.mp hn).1 hf

/-- A landmark is marked as future in a state if the search has reported a path to the state on which the landmark does not become
true, and the landmark or one of its parents does not hold in the initial state.  If the three options for the progression are
switched off, the landmark is marked as future only in this case. -/
theorem C42_future_complete (hwf : t.WF) (hg : g.Valid t) (progGoals progGn progR : Bool) (es : List Event) (hle : ∀ e ∈ es, e.Legal t) :
    ∃ st, observe t.init (Manager.new g progGoals progGn progR) es = some st ∧ ∀ (s : State) (i : Nat) (n : Node), g[i]? = some n →
      ((¬n.landmark.Holds t.init ∨ ∃ q ∈ n.parents, ∃ m : Node, g[q.1]? = some m ∧ ¬m.landmark.Holds t.init) →
        (∃ r, Observed t es r s ∧ ∀ k, ¬AddedAt n.landmark.Holds (runStates t.init r) (k + 1)) → (st.future s)[i]? = some true) ∧
      (progGoals = false → progGn = false → progR = false → (st.future s)[i]? = some true →
        (¬n.landmark.Holds t.init ∨ ∃ q ∈ n.parents, ∃ m : Node, g[q.1]? = some m ∧ ¬m.landmark.Holds t.init) ∧
        ∃ r, Observed t es r s ∧ ∀ k, ¬AddedAt n.landmark.Holds (runStates t.init r) (k + 1)) := by
  obtain ⟨st, h1, h2⟩ := inv_observe hwf hg progGoals progGn progR es hle
  refine ⟨st, h1, fun s i n hn => ?_⟩
  have hlt := (List.getElem?_eq_some_iff.mp hn).1
  refine ⟨fun h3 h4 => ?_, fun ha hb hc hf => ?_⟩
  · obtain ⟨r, hr1, hr2⟩ := h4
    refine h2.complete s i hlt ⟨r, hr1, ?_, ?_⟩
    · rcases h3 with h3 | ⟨q, hq, m, hm, h3⟩
      · left; rwa [L_eq hn]
      · exact Or.inr ⟨n, hn, q, hq, by rwa [L_eq hm]⟩
    · rw [L_eq hn]; exact hr2
  · obtain ⟨r, hr1, hr2, hr3⟩ := h2.exact ha hb hc s i hlt hf
    rw [L_eq hn] at hr2 hr3
    refine ⟨?_, r, hr1, hr3⟩
    rcases hr2 with hr2 | ⟨n', hn', q, hq, hr2⟩
    · exact Or.inl hr2
    · rw [hn] at hn'
      cases hn'
      obtain ⟨m, hm, _⟩ := hg.parents n (List.mem_of_getElem? hn) q.1 q.2 hq
      rw [L_eq hm] at hr2
      exact Or.inr ⟨q, hq, m, hm, hr2⟩

/-- The search for cycles always ends.  It finds a cycle if and only if there is a cycle of orderings that are not just
reasonable, and then the task has no plan. -/
theorem C42_cycles (hg : g.Valid t) : ∃ found, hasCycleOfNaturalOrderings g = some found ∧
    (found = true ↔ ∃ x, TransGen (fun a b => ∃ (n : Node) (ty : OrderingType), g[a]? = some n ∧ (b, ty) ∈ n.children ∧ ty ≠ .reasonable) x x) ∧
    (found = true → ∀ π, ¬t.IsPlan π) := by
  obtain ⟨b, h1, h2⟩ := hasCycle_spec (children_lt hg)
  refine ⟨b, h1, h2, fun hb π hπ => ?_⟩
  subst hb
  obtain ⟨u, hu, hgoal⟩ := hπ
  obtain ⟨r, hr, _⟩ := exec_run hu
  exact cycle_deadEnd hg (.nil _) h1 r ⟨u, hr, hgoal⟩

/-- Uniform cost partitioning is defined and admissible in all reachable states, whatever the search has reported before: the
value is at most the cost of each plan from the state, and a reported dead end has no plan. -/
theorem C42_uniform_admissible (hwf : t.WF) (hg : g.Valid t) (hc : g.AchieversComplete t) (hw : g.WithoutAxioms t.ops.length) (progGoals progGn progR useAlm : Bool)
    (es : List Event) (hle : ∀ e ∈ es, e.Legal t) :
    ∃ st, observe t.init (Manager.new g progGoals progGn progR) es = some st ∧ ∀ s, t.Reachable s →
      ((uniformHeuristic g (t.ops.map (·.cost)) useAlm st s = some .deadEnd ∧ ∀ π, ¬t.SolvesFrom s π) ∨
        ∃ h, uniformHeuristic g (t.ops.map (·.cost)) useAlm st s = some (.value h) ∧ 0 ≤ h ∧ h ≤ (t.ops.map (·.cost)).sum ∧ ∀ π, t.SolvesFrom s π → h ≤ t.planCost π) := by
  obtain ⟨st, h1, h2⟩ := inv_observe hwf hg progGoals progGn progR es hle
  refine ⟨st, h1, fun s ⟨π0, hs⟩ => ?_⟩
  obtain ⟨r0, hr0, _⟩ := exec_run hs
  rcases uniformHeuristic_spec hg hc h2 hw hr0 useAlm with ⟨k1, k2⟩ | ⟨x, k0, k1, k2, k3, k4⟩
  · refine Or.inl ⟨k1, fun π ⟨u, hu, hgoal⟩ => ?_⟩
    obtain ⟨r, hr, _⟩ := exec_run hu
    exact k2 r ⟨u, hr, hgoal⟩
  · refine Or.inr ⟨_, k1, roundValue_nonneg k2, roundValue_le (by linarith), fun π ⟨u, hu, hgoal⟩ => ?_⟩
    obtain ⟨r, hr, hπ⟩ := exec_run hu
    rw [← hπ]
    have := k4 r ⟨u, hr, hgoal⟩
    exact roundValue_le (by linarith)

/-- The code computes with numbers of type `double`.  The estimate is still admissible if the computed sum `x` exceeds the exact
sum by at most 1/100. -/
theorem C42_uniform_rounding (hwf : t.WF) (hg : g.Valid t) (hc : g.AchieversComplete t) (hw : g.WithoutAxioms t.ops.length) (progGoals progGn progR useAlm : Bool)
    (es : List Event) (hle : ∀ e ∈ es, e.Legal t) :
    ∃ st, observe t.init (Manager.new g progGoals progGn progR) es = some st ∧ ∀ s, t.Reachable s → ∀ exact, uniformValue g (t.ops.map (·.cost)) useAlm (st.past s) (st.future s) = some (some exact) →
      ∀ x ≤ exact + 1 / 100, ∀ π, t.SolvesFrom s π → roundValue x ≤ t.planCost π := by
  obtain ⟨st, h1, h2⟩ := inv_observe hwf hg progGoals progGn progR es hle
  refine ⟨st, h1, fun s ⟨π0, hs⟩ exact hex x hx π ⟨u, hu, hgoal⟩ => ?_⟩
  obtain ⟨r0, hr0, _⟩ := exec_run hs
  obtain ⟨r, hr, hπ⟩ := exec_run hu
  rcases uniformHeuristic_spec hg hc h2 hw hr0 useAlm with ⟨_, k2⟩ | ⟨x', k0, _, _, _, k4⟩
  · exact absurd ⟨u, hr, hgoal⟩ (k2 r)
  · rw [hex] at k0
    simp only [Option.some.injEq] at k0
    subst k0
    rw [← hπ]
    have := k4 r ⟨u, hr, hgoal⟩
    exact roundValue_le (by linarith)

/-- Optimal cost partitioning is defined and admissible in all reachable states: its linear program is solvable, and if the solver
returns the optimal value up to an error of less than 1/100, the estimate is at most the cost of each plan. -/
theorem C42_optimal_admissible (hwf : t.WF) (hg : g.Valid t) (hc : g.AchieversComplete t) (hw : g.WithoutAxioms t.ops.length) (progGoals progGn progR : Bool)
    (solver : LP.Program → Rat) {err : Rat} (herr : err < 1 / 100) (hsolver : ∀ lp : LP.Program, lp.maximize = true → lp.Solvable → lp.MaxValue (solver lp) err)
    (es : List Event) (hle : ∀ e ∈ es, e.Legal t) :
    ∃ st, observe t.init (Manager.new g progGoals progGn progR) es = some st ∧ ∀ s, t.Reachable s →
      ((optimalHeuristic g (t.ops.map (·.cost)) solver st s = some .deadEnd ∧ ∀ π, ¬t.SolvesFrom s π) ∨
        ∃ h, optimalHeuristic g (t.ops.map (·.cost)) solver st s = some (.value h) ∧ ∀ π, t.SolvesFrom s π → h ≤ t.planCost π) := by
  obtain ⟨st, h1, h2⟩ := inv_observe hwf hg progGoals progGn progR es hle
  refine ⟨st, h1, fun s ⟨π0, hs⟩ => ?_⟩
  obtain ⟨r0, hr0, _⟩ := exec_run hs
  rcases optimalHeuristic_spec hg hc h2 hw hr0 solver with ⟨k1, k2⟩ | ⟨lp, _, k1, k2, k3, k4⟩
  · refine Or.inl ⟨k1, fun π ⟨u, hu, hgoal⟩ => ?_⟩
    obtain ⟨r, hr, _⟩ := exec_run hu
    exact k2 r ⟨u, hr, hgoal⟩
  · refine Or.inr ⟨_, k1, fun π ⟨u, hu, hgoal⟩ => ?_⟩
    obtain ⟨r, hr, hπ⟩ := exec_run hu
    rw [← hπ]
    obtain ⟨x, hx1, hx2⟩ := (hsolver lp k2 k3).2 (1 / 100 - err) (by linarith)
    have := k4 r ⟨u, hr, hgoal⟩ x hx1
    exact roundValue_le (by linarith)

/-- Optimal cost partitioning is at least as good as uniform cost partitioning: the latter is a feasible solution of the linear
program. -/
theorem C42_optimal_dominates (hwf : t.WF) (hg : g.Valid t) (hw : g.WithoutAxioms t.ops.length) (progGoals progGn progR useAlm : Bool)
    (es : List Event) (hle : ∀ e ∈ es, e.Legal t) :
    ∃ st, observe t.init (Manager.new g progGoals progGn progR) es = some st ∧ ∀ s v, uniformValue g (t.ops.map (·.cost)) useAlm (st.past s) (st.future s) = some (some v) →
      ∃ lp x, optimalLp g (t.ops.map (·.cost)) (st.past s) (st.future s) = some (some lp) ∧ lp.Feasible x ∧ lp.value x = v := by
  obtain ⟨st, h1, h2⟩ := inv_observe hwf hg progGoals progGn progR es hle
  refine ⟨st, h1, fun s v hu => ?_⟩
  have hlen := h2.len s
  have hvl : ∀ as ∈ futs (st.past s) (st.future s) g.zipIdx, ValidIds (t.ops.map (·.cost)).length as := by simpa using futs_valid h2 hw s
  rcases optimalLp_spec hlen.1 hlen.2 hvl with ⟨k1, _⟩ | ⟨_, lp, k2, _⟩
  · rcases uniformValue_parts (useAlm := useAlm) hlen.1 hlen.2 hvl with ⟨_, k3⟩ | ⟨k3, _⟩
    · rw [hu] at k3; cases k3
    · exact absurd k1 k3
  · obtain ⟨x, hx⟩ := uniform_feasible hlen.1 hlen.2 hvl k2 hu
    exact ⟨lp, x, k2, hx⟩

/-- The landmark sum only reports dead ends for states without plans (also for tasks with derived landmarks), if no operator has the
largest possible cost. -/
theorem C42_sum_dead_ends (hwf : t.WF) (hg : g.Valid t) (hc : g.AchieversComplete t) (hcost : ∀ o ∈ t.ops, o.cost < 2 ^ 31 - 1) (progGoals progGn progR : Bool)
    (es : List Event) (hle : ∀ e ∈ es, e.Legal t) :
    ∃ st, observe t.init (Manager.new g progGoals progGn progR) es = some st ∧ ∀ s, t.Reachable s → sumHeuristic t g st s = some .deadEnd → ∀ π, ¬t.SolvesFrom s π := by
  obtain ⟨st, h1, h2⟩ := inv_observe hwf hg progGoals progGn progR es hle
  refine ⟨st, h1, fun s ⟨π0, hs⟩ hd π ⟨u, hu, hgoal⟩ => ?_⟩
  obtain ⟨r0, hr0, _⟩ := exec_run hs
  obtain ⟨r, hr, _⟩ := exec_run hu
  exact sumHeuristic_deadEnd hg hc h2 hcost hr0 hd r ⟨u, hr, hgoal⟩

/-- The preferred operators are, in the order of the given operators, those with an effect that fires in the state and makes an atom
of a future landmark true; conjunctive landmarks are ignored. -/
theorem C42_preferred (hwf : t.WF) (hg : g.Valid t) (progGoals progGn progR : Bool) (es : List Event) (hle : ∀ e ∈ es, e.Legal t) :
    ∃ st, observe t.init (Manager.new g progGoals progGn progR) es = some st ∧ ∀ s, t.ValidState s → ∀ applicable : List Nat, (∀ i ∈ applicable, i < t.ops.length) →
      ∃ p, generatePreferredOperators t g s (st.future s) applicable = some p ∧ p.Sublist applicable ∧
        ∀ i ∈ applicable, (i ∈ p ↔ ∃ o, t.ops[i]? = some o ∧ AchievesFuture g s (st.future s) o.effects) := by
  obtain ⟨st, h1, h2⟩ := inv_observe hwf hg progGoals progGn progR es hle
  exact ⟨st, h1, fun s hs l hl => generatePreferred_spec hwf hs (h2.len s).2 l hl⟩

/-! ### A concrete landmark graph -/

/-- a task with one variable that has to be changed twice; there are two operators for the second step -/
def exTask : Task where
  vars := [⟨3, none, 0⟩]
  ops := [⟨[⟨0, 0⟩], [⟨[], ⟨0, 1⟩⟩], 2⟩, ⟨[⟨0, 1⟩], [⟨[], ⟨0, 2⟩⟩], 3⟩, ⟨[⟨0, 1⟩], [⟨[], ⟨0, 2⟩⟩], 4⟩]
  axioms := []
  init := [0]
  goal := [⟨0, 2⟩]

/-- the landmarks of the two steps, with a greedy-necessary ordering -/
def exGraph : Graph :=
  [⟨⟨[⟨0, 1⟩], .atomic, false, false, [0], [0]⟩, [], [(1, .greedyNecessary)]⟩,
   ⟨⟨[⟨0, 2⟩], .atomic, true, false, [1, 2], [1, 2]⟩, [(0, .greedyNecessary)], []⟩]

theorem exTask_wf : exTask.WF := Search.taskOK_wf (by decide)

theorem exTask_step {x i : Nat} {s : State} (h : exTask.Step [x] i s) : (x = 0 ∧ i = 0 ∧ s = [1]) ∨ (x = 1 ∧ (i = 1 ∨ i = 2) ∧ s = [2]) := by
  obtain ⟨o, ho, ha, hsu⟩ := h
  have hv := Mas.succ_value exTask_wf rfl hsu (v := 0) (x := x) (by simp)
  have hl : s.length = 1 := by
    obtain ⟨m, h1, h2⟩ := hsu
    exact h2.length.trans h1.1
  obtain ⟨y, rfl⟩ : ∃ y, s = [y] := by
    match s, hl with
    | [y], _ => exact ⟨y, rfl⟩
  match i, ho with
  | 0, ho =>
    cases ho
    have h0 : x = 0 := by simpa [Operator.applicable, allHold, Fact.holds] using ha
    refine Or.inl ⟨h0, rfl, ?_⟩
    subst h0
    simpa [Operator.assigned, Effect.fires, allHold] using hv
  | 1, ho =>
    cases ho
    have h0 : x = 1 := by simpa [Operator.applicable, allHold, Fact.holds] using ha
    refine Or.inr ⟨h0, Or.inl rfl, ?_⟩
    subst h0
    simpa [Operator.assigned, Effect.fires, allHold] using hv
  | 2, ho =>
    cases ho
    have h0 : x = 1 := by simpa [Operator.applicable, allHold, Fact.holds] using ha
    refine Or.inr ⟨h0, Or.inr rfl, ?_⟩
    subst h0
    simpa [Operator.assigned, Effect.fires, allHold] using hv
  | i + 3, ho => simp [exTask] at ho

theorem exTask_runs {r : List (Nat × State)} (h : exTask.GoalRun exTask.init r) : ∃ i, (i = 1 ∨ i = 2) ∧ r = [(0, [1]), (i, [2])] := by
  obtain ⟨u, hr, hu⟩ := h
  have h2 : ∀ {r u}, exTask.Run [2] r u → r = [] := by
    intro r u h
    cases h with
    | nil => rfl
    | cons _ i s' r u hst _ => rcases exTask_step hst with ⟨h, _⟩ | ⟨h, _⟩ <;> omega
  cases hr with
  | nil => simp [allHold, exTask, Fact.holds] at hu
  | cons _ i s' r u hst hr =>
    rcases exTask_step hst with ⟨_, rfl, rfl⟩ | ⟨h, _⟩
    · cases hr with
      | nil => simp [allHold, exTask, Fact.holds] at hu
      | cons _ i s' r u hst hr =>
        rcases exTask_step hst with ⟨h, _⟩ | ⟨_, hi, rfl⟩
        · omega
        · rw [h2 hr]
          exact ⟨i, hi, rfl⟩
    · omega

theorem holds_atom {l : Landmark} {f : Fact} (ht : l.type = .atomic) (hf : l.atoms = [f]) (s : State) : l.Holds s ↔ f.holds s := by
  unfold Landmark.Holds
  rw [ht]
  simp [hf, allHold]

/-- where the atoms of the example hold -/
theorem ex_holdsAt {y i : Nat} {k : Nat} {l : Landmark} (ht : l.type = .atomic) (hf : l.atoms = [⟨0, y⟩]) :
    HoldsAt l.Holds (runStates exTask.init [(0, [1]), (i, [2])]) k ↔ k = y ∧ k ≤ 2 := by
  unfold HoldsAt
  simp only [holds_atom ht hf, Fact.holds]
  match k with
  | 0 => simp [runStates, exTask]
  | 1 => simp [runStates, exTask]
  | 2 => simp [runStates, exTask]
  | k + 3 => simp [runStates, exTask]

theorem exGraph_valid : exGraph.Valid exTask where
  atoms := by
    intro n hn f hf
    simp only [exGraph, List.mem_cons, List.not_mem_nil, or_false] at hn
    rcases hn with rfl | rfl <;> (simp only [List.mem_cons, List.not_mem_nil, or_false] at hf; subst hf; exact Search.factOK_spec (by decide))
  landmark := by
    intro n hn r hr
    obtain ⟨i, _, rfl⟩ := exTask_runs hr
    simp only [exGraph, List.mem_cons, List.not_mem_nil, or_false] at hn
    rcases hn with rfl | rfl
    · exact ⟨1, (ex_holdsAt rfl rfl).mpr ⟨rfl, by omega⟩⟩
    · exact ⟨2, (ex_holdsAt rfl rfl).mpr ⟨rfl, by omega⟩⟩
  goal := by
    intro n hn ht s _ hgoal
    simp only [exGraph, List.mem_cons, List.not_mem_nil, or_false] at hn
    rcases hn with rfl | rfl
    · cases ht
    · rw [holds_atom rfl rfl]
      exact hgoal ⟨0, 2⟩ (by simp [exTask])
  parents := by
    intro b hb A ty hA
    simp only [exGraph, List.mem_cons, List.not_mem_nil, or_false] at hb
    rcases hb with rfl | rfl
    · cases hA
    · simp only [List.mem_cons, List.not_mem_nil, or_false, Prod.mk.injEq] at hA
      obtain ⟨rfl, rfl⟩ := hA
      refine ⟨_, rfl, fun r hr k hk => ?_⟩
      obtain ⟨i, _, rfl⟩ := exTask_runs hr
      obtain ⟨rfl, _⟩ := (ex_holdsAt rfl rfl).mp hk.1
      exact ⟨1, rfl, (ex_holdsAt rfl rfl).mpr ⟨rfl, by omega⟩⟩
  children := by
    intro a ha B ty hB
    simp only [exGraph, List.mem_cons, List.not_mem_nil, or_false] at ha
    rcases ha with rfl | rfl
    · simp only [List.mem_cons, List.not_mem_nil, or_false, Prod.mk.injEq] at hB
      obtain ⟨rfl, rfl⟩ := hB
      refine ⟨_, rfl, fun r hr k hk => ?_⟩
      obtain ⟨i, _, rfl⟩ := exTask_runs hr
      obtain ⟨rfl, _⟩ := (ex_holdsAt rfl rfl).mp hk.1
      exact ⟨1, rfl, (ex_holdsAt rfl rfl).mpr ⟨rfl, by omega⟩⟩
    · cases hB

theorem exGraph_possible : ∀ n ∈ exGraph, ∀ r, exTask.GoalRun exTask.init r → ∀ (k i : Nat) (s' : State), r[k]? = some (i, s') → HoldsAt n.landmark.Holds (runStates exTask.init r) (k + 1) →
    (i : Int) ∈ n.landmark.firstAchievers ∧ (i : Int) ∈ n.landmark.possibleAchievers := by
  intro n hn r hr k i s' hk hh
  obtain ⟨j, hj, rfl⟩ := exTask_runs hr
  simp only [exGraph, List.mem_cons, List.not_mem_nil, or_false] at hn
  rcases hn with rfl | rfl
  · obtain ⟨h1, _⟩ := (ex_holdsAt rfl rfl).mp hh
    have : k = 0 := by omega
    subst this
    cases hk
    simp
  · obtain ⟨h1, _⟩ := (ex_holdsAt rfl rfl).mp hh
    have : k = 1 := by omega
    subst this
    cases hk
    rcases hj with rfl | rfl <;> simp

theorem exGraph_complete : exGraph.AchieversComplete exTask where
  first := fun n hn _ r hr k i s' hk hf => (exGraph_possible n hn r hr k i s' hk hf.1).1
  possible := fun n hn _ r hr k i s' hk hf => (exGraph_possible n hn r hr k i s' hk hf.1).2

theorem exGraph_withoutAxioms : exGraph.WithoutAxioms exTask.ops.length := ⟨by decide, by decide, by decide⟩

/-- the example meets the hypotheses, for all sequences of reports -/
example (es : List Event) (hle : ∀ e ∈ es, e.Legal exTask) := C42_uniform_admissible exTask_wf exGraph_valid exGraph_complete exGraph_withoutAxioms true true true true es hle

example (es : List Event) (hle : ∀ e ∈ es, e.Legal exTask) := C42_sum_dead_ends exTask_wf exGraph_valid exGraph_complete (by decide) true true true es hle

/-- in the initial state both landmarks are future, and all three values are 5 -/
example : (observe exTask.init (Manager.new exGraph true true true) [.initial]).map (fun st => (st.past [0], st.future [0], uniformHeuristic exGraph (exTask.ops.map (·.cost)) true st [0],
    uniformHeuristic exGraph (exTask.ops.map (·.cost)) false st [0], sumHeuristic exTask exGraph st [0])) = some ([false, false], [true, true], some (.value 5), some (.value 5), some (.value 5)) := by
  decide +kernel

/-- after the first step, only the second landmark is future -/
example : (observe exTask.init (Manager.new exGraph true true true) [.initial, .transition [0] 0 [1]]).map (fun st => (st.past [1], st.future [1])) = some ([true, false], [false, true]) := by
  decide +kernel

example : (observe exTask.init (Manager.new exGraph true true true) [.initial, .transition [0] 0 [1]]).map (fun st =>
    (uniformHeuristic exGraph (exTask.ops.map (·.cost)) true st [1], sumHeuristic exTask exGraph st [1], generatePreferredOperators exTask exGraph [1] (st.future [1]) [1, 2])) =
    some (some (.value 3), some (.value 3), some [1, 2]) := by
  decide +kernel

end Verif.Landmarks
