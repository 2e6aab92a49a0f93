import Verif.Lemmas.CartExact
import Verif.Lemmas.CartDist
import Verif.Lemmas.SimpleTask

/-
C40: Cartesian abstractions.
-/
namespace Verif.Cart
open Verif.AdaptiveQueue

variable {t : Task}

/-- The values `wanted` of the variable `var` can be split off from the abstract state `v`: they are some, but not all, of its values. -/
def Abs.CanSplit (t : Task) (a : Abs) (v var : Nat) (wanted : List Nat) : Prop :=
  ∃ st, a.states[v]? = some st ∧ var < t.vars.length ∧ wanted ≠ [] ∧ (∀ x ∈ wanted, st.set var x = true) ∧ ∃ x, st.set var x = true ∧ x ∉ wanted

/-- the abstractions that can be built with splits -/
inductive Abs.Built (t : Task) : Abs → Prop where
  | trivial : Abs.Built t (Abs.trivial t)
  | split (a v var wanted a') : Abs.Built t a → a.CanSplit t v var wanted → a.refine t v var wanted = some a' → Abs.Built t a'

/-- the goals are the abstract states that contain the goal facts -/
def GoalsExact (t : Task) (a : Abs) : Prop := ∀ i, i ∈ a.goals ↔ ∃ st, a.states[i]? = some st ∧ st.set.includesFacts t.goal = true

theorem goals_trivial (ht : CartesianTask t) : GoalsExact t (Abs.trivial t) := by
  intro i
  simp only [Abs.trivial, List.mem_singleton]
  constructor
  · rintro rfl
    refine ⟨_, rfl, ?_⟩
    rw [includesFacts_iff]
    intro f hf
    exact full_iff.mpr (ht.wf.goalFacts f hf)
  · rintro ⟨st, h, _⟩
    rcases List.getElem?_eq_some_iff.mp h with ⟨hl, _⟩
    simpa using hl

theorem goals_refine {a a' : Abs} {v var : Nat} {wanted : List Nat} (h : GoalsExact t a) (hw : ∀ st : AState, a.states[v]? = some st → ∀ x ∈ wanted, st.set var x = true) (hr : Refined t a v var wanted a') : GoalsExact t a' := by
  obtain ⟨st, st1, st2, p1, p2, p3, p4, p5⟩ := hr.parts
  obtain ⟨_, q1, q2⟩ := hr.goals
  rw [p1] at q1; simp at q1; subst q1
  have hvl := (List.getElem?_eq_some_iff.mp p1).1
  have hsub1 : (st.set.split var wanted).1.includesFacts t.goal = true → st.set.includesFacts t.goal = true := by
    rw [includesFacts_iff, includesFacts_iff]
    exact fun h f hf => ((split_fst _ _ _ _ _).mp (h f hf)).1
  have hsub2 : (st.set.split var wanted).2.includesFacts t.goal = true → st.set.includesFacts t.goal = true := by
    rw [includesFacts_iff, includesFacts_iff]
    intro h f hf
    rcases (split_snd _ _ _ _ _).mp (h f hf) with ⟨_, k⟩ | ⟨k1, k2⟩
    · exact k
    · rw [k1]; exact hw st p1 _ k2
  have hv : v ∈ a.goals ↔ st.set.includesFacts t.goal = true := by
    rw [h v]
    constructor
    · rintro ⟨u, k1, k2⟩; rw [p1] at k1; simp at k1; subst k1; exact k2
    · exact fun k => ⟨st, p1, k⟩
  have hlt : ∀ i ∈ a.goals, i < a.states.length := by
    intro i hi
    obtain ⟨u, k, _⟩ := (h i).mp hi
    exact (List.getElem?_eq_some_iff.mp k).1
  intro i
  rw [q2]
  unfold newGoals
  by_cases hiv : i = v
  · subst hiv
    have hne : i ≠ a.states.length := by omega
    have e : (∃ u : AState, a'.states[i]? = some u ∧ u.set.includesFacts t.goal = true) ↔ (st.set.split var wanted).1.includesFacts t.goal = true := by
      rw [← p4]
      constructor
      · rintro ⟨u, k1, k2⟩; rw [p2] at k1; simp at k1; subst k1; exact k2
      · exact fun k => ⟨st1, p2, k⟩
    rw [e]
    by_cases hg : i ∈ a.goals
    · rw [if_pos hg]
      constructor
      · intro hm
        by_contra hno
        rw [if_neg hno] at hm
        simp only [List.nil_append, List.mem_append, List.mem_filter] at hm
        rcases hm with hm | hm
        · split at hm
          · simp at hm; exact hne hm
          · simp at hm
        · simp at hm
      · intro k; rw [if_pos k]; simp
    · rw [if_neg hg]
      constructor
      · exact fun k => absurd k hg
      · exact fun k => absurd (hv.mpr (hsub1 k)) hg
  · by_cases hin : i = a.states.length
    · subst hin
      have e : (∃ u : AState, a'.states[a.states.length]? = some u ∧ u.set.includesFacts t.goal = true) ↔ (st.set.split var wanted).2.includesFacts t.goal = true := by
        rw [← p5]
        constructor
        · rintro ⟨u, k1, k2⟩; rw [p3] at k1; simp at k1; subst k1; exact k2
        · exact fun k => ⟨st2, p3, k⟩
      rw [e]
      have hnm : a.states.length ∉ a.goals := fun hm => by have := hlt _ hm; omega
      by_cases hg : v ∈ a.goals
      · rw [if_pos hg]
        constructor
        · intro hm
          by_contra hno
          rw [if_neg hno] at hm
          simp only [List.nil_append, List.mem_append, List.mem_filter] at hm
          rcases hm with hm | hm
          · split at hm
            · simp at hm; exact hiv hm
            · simp at hm
          · exact hnm hm.1
        · intro k; rw [if_pos k]; simp
      · rw [if_neg hg]
        constructor
        · exact fun k => absurd k hnm
        · exact fun k => absurd (hv.mpr (hsub2 k)) hg
    · have e1 : (∃ u : AState, a'.states[i]? = some u ∧ u.set.includesFacts t.goal = true) ↔ (∃ u : AState, a.states[i]? = some u ∧ u.set.includesFacts t.goal = true) := by
        by_cases hl : i < a.states.length
        · obtain ⟨u, u', k1, k2, k3⟩ := hr.old i hiv hl
          rw [k1, k2]
          simp [k3]
        · rw [List.getElem?_eq_none (l := a'.states) (by rw [hr.length]; omega), List.getElem?_eq_none (l := a.states) (by omega)]
      rw [e1, ← h i]
      by_cases hg : v ∈ a.goals
      · rw [if_pos hg]
        simp only [List.mem_append, List.mem_filter, decide_eq_true_eq]
        constructor
        · rintro (hm | hm | hm)
          · split at hm
            · simp at hm; exact absurd hm hin
            · simp at hm
          · split at hm
            · simp at hm; exact absurd hm hiv
            · simp at hm
          · exact hm.1
        · exact fun k => Or.inr (Or.inr ⟨k, hiv⟩)
      · rw [if_neg hg]

theorem built_inv (ht : CartesianTask t) {a : Abs} (h : a.Built t) : Inv t a ∧ Tight t a ∧ GoalsExact t a := by
  induction h with
  | trivial => exact ⟨Inv.trivial ht, Tight.trivial ht, goals_trivial ht⟩
  | split a v var wanted a' _ hc hr ih =>
    obtain ⟨st, c1, c2, c3, c4, c5⟩ := hc
    obtain ⟨i1, i2, i3⟩ := ih
    have hw : ∀ st' : AState, a.states[v]? = some st' → ∀ x ∈ wanted, st'.set var x = true := by
      intro st' h; rw [c1] at h; simp at h; subst h; exact c4
    obtain ⟨a'', k1, k2, k3⟩ := refine_inv ht i1 (List.getElem?_eq_some_iff.mp c1).1 c2 hw
    rw [hr] at k1
    simp at k1
    subst k1
    exact ⟨k2, refine_tight ht i1 i2 c1 c2 c5 c3 k3, goals_refine i3 hw k3⟩

/-- C40: every legal split is carried out. -/
theorem C40_split_defined (ht : CartesianTask t) {a : Abs} (h : a.Built t) {v var : Nat} {wanted : List Nat} (hs : a.CanSplit t v var wanted) : ∃ a', a.refine t v var wanted = some a' ∧ a'.states.length = a.states.length + 1 := by
  obtain ⟨i1, _, _⟩ := built_inv ht h
  obtain ⟨st, c1, c2, c3, c4, c5⟩ := hs
  obtain ⟨a', k1, _, k3⟩ := refine_inv ht i1 (v := v) (var := var) (wanted := wanted) (List.getElem?_eq_some_iff.mp c1).1 c2 (by intro st' h; rw [c1] at h; simp at h; subst h; exact c4)
  exact ⟨a', k1, k3.length⟩

/-- C40: after every sequence of splits, looking up states in the refinement hierarchy maps them to the abstract states of an abstraction; the abstract states are Cartesian sets, and the
transitions, the initial state and the goal states are exactly those that are induced by the task. -/
theorem C40_exact (ht : CartesianTask t) {a : Abs} (h : a.Built t) :
    ExactAbstraction t a.states.length a.stateOf (fun i op j => (⟨op, j⟩ : Trans) ∈ a.ts.outgoing i) (fun i op => op ∈ a.ts.loops i) a.init (fun i => i ∈ a.goals) := by
  obtain ⟨hi, hx, hg⟩ := built_inv ht h
  refine ⟨fun s hs => ?_, fun i hl => ?_, fun i hl => ?_, fun i op j => ?_, fun i op => ?_, ?_, fun i => ?_⟩
  · obtain ⟨i, k⟩ := hi.exists_in hs
    exact ⟨i, k.lt, (hi.stateOf_iff hs).mpr k⟩
  · obtain ⟨s, hs, k⟩ := hx.member hi hl
    exact ⟨s, hs, (hi.stateOf_iff hs).mpr k⟩
  · refine ⟨fun v x => (a.states[i]'hl).set v x = true, fun s hs => ?_⟩
    rw [hi.stateOf_iff hs]
    unfold In
    rw [List.getElem?_eq_getElem hl]
    simp only [Option.some.injEq, exists_eq_left', includesState_iff]
  · constructor
    · intro hm
      obtain ⟨r1, r2, r3, r4⟩ := hi.ts.range i op j hm
      have e1 := List.getElem?_eq_getElem r1
      have e2 := List.getElem?_eq_getElem r2
      obtain ⟨s, s', k1, k2, k3, k4⟩ := compat_step ht r4 (hi.within i _ e1) (fun v hv => hx.nonempty i _ v e1 hv) (hx.edge i op j _ _ hm e1 e2)
      exact ⟨r3, s, s', k1, k2, (hi.stateOf_iff k1).mpr ⟨_, e1, k3⟩, (hi.stateOf_iff (step_values ht k1 k2).1).mpr ⟨_, e2, k4⟩⟩
    · rintro ⟨hne, s, s', k1, k2, k3, k4⟩
      exact (hi.step s s' op i j k1 k2 ((hi.stateOf_iff k1).mp k3) ((hi.stateOf_iff (step_values ht k1 k2).1).mp k4)).1 hne
  · constructor
    · intro hm
      obtain ⟨r1, r4⟩ := hi.ts.lrange i op hm
      have e1 := List.getElem?_eq_getElem r1
      obtain ⟨s, s', k1, k2, k3, k4⟩ := compat_step ht r4 (hi.within i _ e1) (fun v hv => hx.nonempty i _ v e1 hv) (hx.loop i op _ hm e1)
      exact ⟨s, s', k1, k2, (hi.stateOf_iff k1).mpr ⟨_, e1, k3⟩, (hi.stateOf_iff (step_values ht k1 k2).1).mpr ⟨_, e1, k4⟩⟩
    · rintro ⟨s, s', k1, k2, k3, k4⟩
      exact (hi.step s s' op i i k1 k2 ((hi.stateOf_iff k1).mp k3) ((hi.stateOf_iff (step_values ht k1 k2).1).mp k4)).2 rfl
  · exact (hi.stateOf_iff ht.wf.init).mpr hi.init
  · rw [hg i]
    constructor
    · rintro ⟨st, k1, k2⟩
      rw [includesFacts_iff] at k2
      have hval : ∀ v, ∃ x, v < t.vars.length → st.set v x = true ∧ ∀ f ∈ t.goal, f.var = v → f.val = x := by
        intro v
        by_cases hv : v < t.vars.length
        · by_cases hf : ∃ f ∈ t.goal, f.var = v
          · obtain ⟨f, hf, rfl⟩ := hf
            refine ⟨f.val, fun _ => ⟨k2 f hf, fun f' hf' e => ?_⟩⟩
            have := List.inj_on_of_nodup_map ht.goal hf' hf e
            rw [this]
          · push Not at hf
            obtain ⟨x, hx⟩ := hx.nonempty i st v k1 hv
            exact ⟨x, fun _ => ⟨hx, fun f hm e => absurd e (hf f hm)⟩⟩
        · exact ⟨0, fun h => absurd h hv⟩
      choose f hf using hval
      obtain ⟨m1, m2⟩ := state_of t.vars.length f
      have hs : t.ValidState ((List.range t.vars.length).map f) := by
        refine ⟨m1, fun v x d hx hd => ?_⟩
        obtain ⟨hv, rfl⟩ := (m2 v x).mp hx
        obtain ⟨d', hd', hlt⟩ := hi.within i st k1 v (f v) (hf v hv).1
        rw [hd] at hd'; simp at hd'; subst hd'; exact hlt
      refine ⟨_, hs, fun g hm => ?_, (hi.stateOf_iff hs).mpr ⟨st, k1, ?_⟩⟩
      · obtain ⟨d, hd, _⟩ := ht.wf.goalFacts g hm
        have hv := (List.getElem?_eq_some_iff.mp hd).1
        exact (m2 g.var g.val).mpr ⟨hv, (hf g.var hv).2 g hm rfl⟩
      · rw [includesState_iff]
        intro v x hx
        obtain ⟨hv, rfl⟩ := (m2 v x).mp hx
        exact (hf v hv).1
    · rintro ⟨s, hs, k1, k2⟩
      obtain ⟨st, m1, m2⟩ := (hi.stateOf_iff hs).mp k2
      refine ⟨st, m1, ?_⟩
      rw [includesState_iff] at m2
      rw [includesFacts_iff]
      exact fun f hf => m2 f.var f.val (k1 f hf)

theorem goalCost_iff {a : Abs} {nops : Nat} (hts : TSOk a.ts a.states.length nops) {costs : List Nat} (hfin : ∀ op, op < nops → costAt costs op < infinite) {i k : Nat} :
    Dijkstra.Cost (fun v => v ∈ a.goals) (edgesOf a.ts.incoming costs) i k ↔ GoalCost (fun i op j => (⟨op, j⟩ : Trans) ∈ a.ts.outgoing i) (fun i => i ∈ a.goals) (costAt costs) i k := by
  constructor
  · intro h
    induction h with
    | src v hv => exact .goal v hv
    | edge v k p c _ he ih =>
      obtain ⟨op, h1, h2, _⟩ := mem_edgesOf.mp he
      rw [h2, Nat.add_comm]
      exact .step p op v k ((hts.sym _ _ _).mpr h1) ih
  · intro h
    induction h with
    | goal i hi => exact .src i hi
    | step i op j k he _ ih =>
      rw [Nat.add_comm]
      exact .edge j k i _ ih (mem_edgesOf.mpr ⟨op, (hts.sym _ _ _).mp he, rfl, Nat.ne_of_lt (hfin op (hts.range i op j he).2.2.2)⟩)

/-- C40: the goal distances of the abstraction are computed, unless distances exceed the range of ints: the distance of an abstract state is the least cost of a path to a goal; it
is infinite if there is none. -/
theorem C40_distances (H : StdHeap Nat) (ht : CartesianTask t) {a : Abs} (h : a.Built t) {costs : List Nat} (hlen : costs.length = t.ops.length) {C : Nat} (hC : ∀ c ∈ costs, c ≤ C) (hb : a.states.length * C < 2 ^ 31 - 1) (hCb : C < 2 ^ 31 - 1) :
    ∃ ds, computeDistances H a.states.length a.ts.incoming costs a.goals = some ds ∧ ds.length = a.states.length ∧ ∀ i d, ds[i]? = some d →
      (∀ k, GoalCost (fun i op j => (⟨op, j⟩ : Trans) ∈ a.ts.outgoing i) (fun i => i ∈ a.goals) (costAt costs) i k → d ≤ k ∧ d < 2 ^ 31 - 1) ∧
      (d < 2 ^ 31 - 1 → GoalCost (fun i op j => (⟨op, j⟩ : Trans) ∈ a.ts.outgoing i) (fun i => i ∈ a.goals) (costAt costs) i d) := by
  obtain ⟨hi, hx, hg⟩ := built_inv ht h
  have hinf : infinite = 2 ^ 31 - 1 := rfl
  have hgl : ∀ i ∈ a.goals, i < a.states.length := fun i hm => by
    obtain ⟨u, k, _⟩ := (hg i).mp hm
    exact (List.getElem?_eq_some_iff.mp k).1
  have hfin : ∀ op, op < t.ops.length → costAt costs op < infinite := by
    intro op ho
    unfold costAt
    rw [List.getElem?_eq_getElem (by omega)]
    exact Nat.lt_of_le_of_lt (hC _ (List.getElem_mem _)) (by rw [hinf]; exact hCb)
  obtain ⟨dist, h1, h2⟩ := computeDistances_spec H (n := a.states.length) (trans := a.ts.incoming) (costs := costs) (sources := a.goals) hgl
    (fun v _ tr htr => by have := hi.ts.range tr.target tr.op v ((hi.ts.sym _ _ _).mpr htr); omega) (fun v hv => List.eq_nil_iff_forall_not_mem.mpr (fun tr htr => hv (hi.ts.range tr.target tr.op v ((hi.ts.sym _ _ _).mpr htr)).2.1))
    (fun c hc => by have := hC c hc; omega) (fun c hc _ => hC c hc) (by rw [hinf]; exact hb)
  refine ⟨_, h1, by simp, fun i d hd => ?_⟩
  have hil : i < a.states.length := by have := (List.getElem?_eq_some_iff.mp hd).1; simpa using this
  have e : ((List.range a.states.length).map dist)[i]? = some (dist i) := by simp [hil]
  rw [e] at hd
  simp at hd
  subst hd
  refine ⟨fun k hk => ?_, fun hlt => ?_⟩
  · have := h2.low i k ((goalCost_iff hi.ts hfin).mpr hk)
    exact ⟨this.1, by rw [← hinf]; exact this.2⟩
  · exact (goalCost_iff hi.ts hfin).mp (h2.sound i hil hlt)

/-- C40: the goal distance of the abstract state of `s` is at most the cost of every plan for `s`. -/
theorem C40_admissible (H : StdHeap Nat) (ht : CartesianTask t) {a : Abs} (h : a.Built t) {C : Nat} (hC : ∀ o ∈ t.ops, o.cost ≤ C) (hb : a.states.length * C < 2 ^ 31 - 1) (hCb : C < 2 ^ 31 - 1) :
    ∃ ds, computeDistances H a.states.length a.ts.incoming (t.ops.map (·.cost)) a.goals = some ds ∧ ∀ s, t.ValidState s → ∃ i d, a.stateOf s = some i ∧ ds[i]? = some d ∧ ∀ π, t.SolvesFrom s π → d ≤ t.planCost π ∧ d < 2 ^ 31 - 1 := by
  obtain ⟨ds, h1, h2, h3⟩ := C40_distances H ht h (costs := t.ops.map (·.cost)) (by simp) (by intro c hc; obtain ⟨o, ho, rfl⟩ := List.mem_map.mp hc; exact hC o ho) hb hCb
  have hex := C40_exact ht h
  refine ⟨ds, h1, fun s hs => ?_⟩
  obtain ⟨i, k1, k2⟩ := hex.total s hs
  refine ⟨i, ds[i], k2, List.getElem?_eq_getElem (by omega), fun π hπ => ?_⟩
  have key : ∀ s π u, t.Exec s π u → t.ValidState s → allHold t.goal u → ∀ i, a.stateOf s = some i → ∃ k, k ≤ t.planCost π ∧ GoalCost (fun i op j => (⟨op, j⟩ : Trans) ∈ a.ts.outgoing i) (fun i => i ∈ a.goals) (costAt (t.ops.map (·.cost))) i k := by
    intro s π u h
    induction h with
    | nil s => intro hs hg i hi; exact ⟨0, Nat.zero_le _, .goal i ((hex.goal i).mpr ⟨s, hs, hg, hi⟩)⟩
    | cons s o op s' π u e1 e2 e3 _ ih =>
      intro hs hg i hi
      have hst : t.Step s o s' := ⟨op, e1, e2, e3⟩
      have hs' := (step_values ht hs hst).1
      obtain ⟨j, j1, j2⟩ := hex.total s' hs'
      obtain ⟨k, m1, m2⟩ := ih hs' hg j j2
      have hcost : t.planCost (o :: π) = t.opCost o + t.planCost π := by simp [Task.planCost]
      by_cases hij : i = j
      · exact ⟨k, by omega, hij ▸ m2⟩
      · refine ⟨_, ?_, .step i o j k ((hex.out i o j).mpr ⟨hij, s, s', hs, hst, hi, j2⟩) m2⟩
        have : costAt (t.ops.map (·.cost)) o = t.opCost o := by simp [costAt, Task.opCost]
        omega
  obtain ⟨u, hu, hg⟩ := hπ
  obtain ⟨k, m1, m2⟩ := key s π u hu hs hg i k2
  have := (h3 i _ (List.getElem?_eq_getElem (by omega))).1 k m2
  exact ⟨by omega, this.2⟩

/-! ### Non-vacuity -/

/-- two switches (the second has three positions) that are turned by operators with preconditions and effects on both of them -/
def exTask : Task where
  vars := [⟨2, none, 0⟩, ⟨3, none, 0⟩]
  ops := [⟨[⟨0, 0⟩], [⟨[], ⟨0, 1⟩⟩], 2⟩, ⟨[⟨1, 0⟩], [⟨[], ⟨1, 1⟩⟩], 1⟩, ⟨[⟨0, 1⟩, ⟨1, 1⟩], [⟨[], ⟨1, 2⟩⟩, ⟨[], ⟨0, 0⟩⟩], 3⟩]
  axioms := []
  init := [0, 0]
  goal := [⟨1, 2⟩]

theorem exTask_ok : CartesianTask exTask where
  wf := Search.taskOK_wf (by decide)
  noAxioms := rfl
  unconditional := by decide
  pre := by decide
  eff := by decide
  goal := by decide

/-- the value 2 of the second variable is split off, then the value 1 -/
theorem exTask_built : ∃ a b, (Abs.trivial exTask).refine exTask 0 1 [2] = some a ∧ a.Built exTask ∧ a.CanSplit exTask 0 1 [1] ∧ a.refine exTask 0 1 [1] = some b ∧ b.Built exTask := by
  have h0 : (Abs.trivial exTask).CanSplit exTask 0 1 [2] := ⟨_, rfl, by decide, by decide, by decide, 0, by decide, by decide⟩
  obtain ⟨a, ha, _⟩ := C40_split_defined exTask_ok .trivial h0
  have hb : a.Built exTask := .split _ _ _ _ _ .trivial h0 ha
  have h1 : a.CanSplit exTask 0 1 [1] := by
    obtain ⟨i1, _, _⟩ := built_inv exTask_ok (Abs.Built.trivial (t := exTask))
    obtain ⟨a'', k1, _, k3⟩ := refine_inv exTask_ok i1 (v := 0) (var := 1) (wanted := [2]) (by decide) (by decide) (by
      intro st hst x hx
      simp [Abs.trivial] at hst
      subst hst
      simp at hx
      subst hx
      decide)
    rw [ha] at k1; simp at k1; subst k1
    obtain ⟨st, st1, _, p1, p2, _, p4, _⟩ := k3.parts
    simp [Abs.trivial] at p1
    subst p1
    exact ⟨st1, p2, by decide, by decide, by rw [p4]; decide, 0, by rw [p4]; decide, by decide⟩
  obtain ⟨b, hb', _⟩ := C40_split_defined exTask_ok hb h1
  exact ⟨a, b, ha, hb, h1, hb', .split _ _ _ _ _ hb h1 hb'⟩

/-- the abstraction after the two splits -/
def exAbs : Option Abs := ((Abs.trivial exTask).refine exTask 0 1 [2]).bind (fun a => a.refine exTask 0 1 [1])

example : exAbs.map (fun a => (a.states.length, a.init, a.goals)) = some (3, 0, [1]) := by decide
example : exAbs.map (fun a => (a.ts.outgoing 0, a.ts.outgoing 2, a.ts.outgoing 1)) = some ([⟨1, 2⟩], [⟨2, 1⟩], []) := by decide
example : exAbs.map (fun a => (a.ts.loops 0, a.ts.loops 2, a.ts.loops 1)) = some ([0], [0], [0]) := by decide

end Verif.Cart
