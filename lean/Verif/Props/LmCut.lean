import Verif.Lemmas.LmCutTask

/-
C33: LM-cut.

In all theorems: `H` any implementation of the standard heap functions, `t` any task that LM-cut supports,
`ss` any sequence of valid states evaluated one after the other by the same object.
-/
namespace Verif.LmCut
open Verif.AdaptiveQueue Verif.Relax

section
variable (H : StdHeap Nat) {t : Task} (h : t.LmCutOk)
include h

/-- the result for a state: DEAD_END, or landmarks -/
def Correct (t : Task) (s : State) : Option (List CostedSet) → Prop
  | none => ¬t.IsRelaxedPlan (fun _ => True) s
  | some ls => t.LandmarksOk s ls

/-- the value for a state: at least h^max, at most the cost of every set of operators that is a relaxed plan -/
def ValueCorrect (t : Task) (s : State) : Option Nat → Prop
  | none => ¬t.IsRelaxedPlan (fun _ => True) s
  | some v => (∀ S : List Nat, t.IsRelaxedPlan (· ∈ S) s → v ≤ t.planCost S) ∧ ∃ k, k ≤ v ∧ IsLeast? (t.HmaxGoalLe s) (some k)

theorem landmarks_result {s : State} (hs : t.ValidState s) {st : St} (hst : ∃ bag, Rep st.queue bag) :
    ∃ r st', landmarks H t s st = some (r, st') ∧ Rep st'.queue [] ∧ Correct t s r ∧
      ∀ ls, r = some ls → (ls.map (·.2)).sum < 2 ^ 31 ∧ ∃ k, k ≤ (ls.map (·.2)).sum ∧ IsLeast? (t.HmaxGoalLe s) (some k) := by
  obtain ⟨bag, hb⟩ := hst
  have hc : t.opCost = fun i => (((LTask.ofTask t).ops[i]?).map (·.base)).getD 0 := by funext i; exact (base_cost i).symm
  have hS : sumN (LTask.ofTask t).ops.length t.opCost < 2 ^ 31 := by rw [sumN_opCost]; exact h.cost
  rcases computeLandmarks_spec H (ofTask_lok h) (facts_lt hs) (facts_nodup hs) hc hS hb with ⟨h1, st', h2, h3⟩ | ⟨cuts, st', c', K, h1, h2, h3, h4⟩
  · refine ⟨none, st', h2, h3, fun hp => h1 ?_, by simp⟩
    have := lreach_of_plan h hp
    clear h2 h3
    exact (fun hr : LReach _ _ _ _ => by
      suffices ∀ p, LReach (LTask.ofTask t) (fun i => True ∨ i = t.ops.length) (factsOf t s ++ [(LTask.ofTask t).artPre]) p → LReach (LTask.ofTask t) (fun _ => True) (factsOf t s ++ [(LTask.ofTask t).artPre]) p from this _ hr
      intro p hp
      induction hp with
      | init p hp => exact .init p hp
      | op i o e ho _ _ he ih => exact .op i o e ho trivial ih he) this
  · -- operators in cuts are operators of the task
    have hops : ∀ l ∈ cuts, ∀ i ∈ l.1, ∃ o, t.ops[i]? = some o ∧ 0 < o.cost ∧ ((LTask.ofTask t).ops[i]?).bind (·.opId) = some i := by
      intro l hl i hi
      obtain ⟨a, r, hr⟩ := h2.ops l hl i hi
      rcases ofTask_cases hr with ⟨o, ho, rfl⟩ | ⟨rfl, _⟩
      · refine ⟨o, ho, ?_, by rw [hr]; rfl⟩
        simpa [Task.opCost, ho] using a
      · simp [Task.opCost] at a
    have hmem : ∀ l ∈ cuts, ∀ i, some i ∈ l.1.map (fun i => ((LTask.ofTask t).ops[i]?).bind (·.opId)) ↔ i ∈ l.1 := by
      intro l hl i
      rw [List.mem_map]
      constructor
      · rintro ⟨j, hj, e⟩
        obtain ⟨_, _, _, e'⟩ := hops l hl j hj
        rw [e'] at e
        simp only [Option.some.injEq] at e
        exact e ▸ hj
      · intro hi
        obtain ⟨_, _, _, e'⟩ := hops l hl i hi
        exact ⟨i, hi, e'⟩
    have hcharge : ∀ i, charged (cuts.map (fun l => (l.1.map (fun i => ((LTask.ofTask t).ops[i]?).bind (·.opId)), l.2))) i = charge cuts i := by
      intro i
      clear h1 h2 hops
      unfold charged charge
      induction cuts with
      | nil => rfl
      | cons l cuts ih =>
        have hi := hmem l (by simp) i
        have hrec := ih (fun l' hl' => hmem l' (by simp [hl']))
        simp only [List.map_cons, List.filter_cons, List.sum_cons]
        by_cases e : i ∈ l.1
        · simp only [hi, e, decide_true, if_true, List.map_cons, List.sum_cons]; rw [hrec]
        · simp only [hi, e, decide_false, Bool.false_eq_true, if_false]; rw [hrec]; omega
    have hsum : ((cuts.map (fun l => (l.1.map (fun i => ((LTask.ofTask t).ops[i]?).bind (·.opId)), l.2))).map (·.2)).sum = (cuts.map (·.2)).sum := by
      rw [List.map_map]; rfl
    refine ⟨_, st', h1, h2.stable.rep, ⟨?_, ?_, ?_, ?_, ?_⟩, ?_⟩
    · intro l hl
      obtain ⟨l', hl', rfl⟩ := List.mem_map.mp hl
      constructor
      · refine List.Nodup.map_on ?_ (h2.nodup l' hl')
        intro i hi j hj e
        obtain ⟨_, _, _, e1⟩ := hops l' hl' i hi
        obtain ⟨_, _, _, e2⟩ := hops l' hl' j hj
        rw [e1, e2] at e
        simpa using e
      · intro x hx
        obtain ⟨i, hi, rfl⟩ := List.mem_map.mp hx
        obtain ⟨o, e1, e2, e3⟩ := hops l' hl' i hi
        exact ⟨i, o, e3, e1, e2⟩
    · intro l hl
      obtain ⟨l', hl', rfl⟩ := List.mem_map.mp hl
      exact h2.pos l' hl'
    · intro l hl R hR
      obtain ⟨l', hl', rfl⟩ := List.mem_map.mp hl
      obtain ⟨i, hi, hRi⟩ := h2.landmark l' hl' _ (lreach_of_plan h hR)
      refine ⟨i, (hmem l' hl' i).mpr hi, ?_⟩
      rcases hRi with hRi | rfl
      · exact hRi
      · obtain ⟨o, e, _⟩ := hops l' hl' _ hi
        simp at e
    · intro i o ho
      rw [hcharge]
      have := h2.charge i
      have e : t.opCost i = o.cost := by simp [Task.opCost, ho]
      omega
    · have hres : (fun i => t.opCost i - charged (cuts.map (fun l => (l.1.map (fun i => ((LTask.ofTask t).ops[i]?).bind (·.opId)), l.2))) i) = c' := by
        funext i
        rw [hcharge]
        have := h2.charge i
        omega
      rw [hres]
      have := hmaxGoal_of_lle h hs (h2.stable.sound _ h2.goal.1)
      rw [h2.goal.2] at this
      exact this
    · intro ls hls
      simp only [Option.some.injEq] at hls
      subst hls
      rw [hsum]
      have htot := h2.total
      refine ⟨by omega, K, h2.hmax, ?_, fun n hn => h4 n (lle_goal h hn)⟩
      have := hmaxGoal_of_lle h hs h3
      rw [withCosts_self] at this
      exact this

end

theorem evalAll_total {α : Type} {f : State → St → Option (α × St)} {V : State → Prop} {P : State → α → Prop}
    (hf : ∀ s st, V s → (∃ bag, Rep st.queue bag) → ∃ r st', f s st = some (r, st') ∧ (∃ bag, Rep st'.queue bag) ∧ P s r) :
    ∀ (ss : List State) (st : St), (∀ s ∈ ss, V s) → (∃ bag, Rep st.queue bag) → ∃ rs, evalAll f ss st = some rs ∧ AllResults P ss rs
  | [], st, _, _ => ⟨[], rfl, .nil⟩
  | s :: ss, st, hV, hst => by
    obtain ⟨r, st', h1, h2, h3⟩ := hf s st (hV s (by simp)) hst
    obtain ⟨rs, h4, h5⟩ := evalAll_total hf ss st' (fun x hx => hV x (by simp [hx])) h2
    exact ⟨r :: rs, by simp [evalAll, h1, h4], .cons h3 h5⟩

section
variable (H : StdHeap Nat) {t : Task} (h : t.LmCutOk)
include h

theorem lmcut_result {s : State} (hs : t.ValidState s) {st : St} (hst : ∃ bag, Rep st.queue bag) :
    ∃ v st', lmcut H t s st = some (v, st') ∧ (∃ bag, Rep st'.queue bag) ∧ ValueCorrect t s v := by
  obtain ⟨r, st', h1, h2, h3, h4⟩ := landmarks_result H h hs hst
  unfold lmcut
  rw [h1]
  cases r with
  | none => exact ⟨none, st', rfl, ⟨[], h2⟩, h3⟩
  | some ls =>
    obtain ⟨h5, h6⟩ := h4 ls rfl
    simp only
    rw [sumLandmarks_spec ls 0 (by omega)]
    refine ⟨_, st', rfl, ⟨[], h2⟩, ?_, by simpa using h6⟩
    intro S hS
    rw [Nat.zero_add]
    have h3' : t.LandmarksOk s ls := h3
    refine cost_ge t.opCost S ls ?_ ?_
    · intro i _
      cases ho : t.ops[i]? with
      | none =>
        have : charged ls i = 0 := by
          unfold charged
          have : ls.filter (fun l => some i ∈ l.1) = [] := by
            rw [List.filter_eq_nil_iff]
            intro l hl hin
            simp only [decide_eq_true_eq] at hin
            obtain ⟨j, o, e1, e2, _⟩ := (h3'.ops l hl).2 _ hin
            simp only [Option.some.injEq] at e1
            rw [← e1, ho] at e2
            simp at e2
          rw [this]; rfl
        omega
      | some o =>
        have := h3'.partition i o ho
        simpa [Task.opCost, ho] using this
    · intro l hl
      obtain ⟨i, h7, h8⟩ := h3'.landmark l hl _ hS
      exact ⟨i, h8, h7⟩

/-- C33: every evaluation returns.  DEAD_END is returned iff the goal cannot be reached in the delete
relaxation.  Otherwise every reported set is a disjunctive action landmark, the costs of the sets are
positive and do not charge an operator more than its cost, and with the costs that are left h^max is 0. -/
theorem C33_landmarks (ss : List State) (hss : ∀ s ∈ ss, t.ValidState s) :
    ∃ rs, evalAll (landmarks H t) ss St.init = some rs ∧ AllResults (fun s r => Correct t s r ∧ (r = none ↔ ¬t.IsRelaxedPlan (fun _ => True) s)) ss rs := by
  refine evalAll_total (V := t.ValidState) ?_ ss _ hss ⟨[], Rep.new⟩
  intro s st hs hst
  obtain ⟨r, st', h1, h2, h3, h4⟩ := landmarks_result H h hs hst
  refine ⟨r, st', h1, ⟨[], h2⟩, h3, ?_⟩
  cases r with
  | none => exact ⟨fun _ => h3, fun _ => rfl⟩
  | some ls =>
    obtain ⟨_, k, _, h5, _⟩ := h4 ls rfl
    simp only [reduceCtorEq, false_iff, not_not]
    exact fun g hg => reach_of_hmax (h5 g hg)

/-- C33: every evaluation of the heuristic returns; its value is at least h^max and at most the cost of every relaxed plan (the
optimal cost in the delete relaxation), and DEAD_END is only returned if there is none. -/
theorem C33_value (ss : List State) (hss : ∀ s ∈ ss, t.ValidState s) :
    ∃ vs, evalAll (lmcut H t) ss St.init = some vs ∧ AllResults (ValueCorrect t) ss vs :=
  evalAll_total (V := t.ValidState) (fun _ _ hs hst => lmcut_result H h hs hst) ss _ hss ⟨[], Rep.new⟩

/-- C33: LM-cut is admissible: the value of a state is at most the cost of every plan for it, and DEAD_END
is only returned if there is none. -/
theorem C33_admissible (ss : List State) (hss : ∀ s ∈ ss, t.ValidState s) {vs : List (Option Nat)} (hv : evalAll (lmcut H t) ss St.init = some vs) :
    AllResults (fun s v => ∀ π, t.SolvesFrom s π → ∃ n, v = some n ∧ n ≤ t.planCost π) ss vs := by
  obtain ⟨vs', h1, h2⟩ := C33_value H h ss hss
  rw [hv] at h1
  simp only [Option.some.injEq] at h1
  subst h1
  refine List.Forall₂.imp ?_ h2
  intro s v hr π hπ
  have hrel := relaxed_of_solves h.wf h.axioms hπ
  cases v with
  | none =>
    refine absurd (fun g hg => ?_) hr
    obtain ⟨n, hn⟩ := hmax_of_reach (hrel g hg)
    exact reach_of_hmax hn
  | some n => exact ⟨n, rfl, hr.1 π hrel⟩

/-- C33: a landmark contains an operator of every plan. -/
theorem C33_plans_meet_landmarks (ss : List State) (hss : ∀ s ∈ ss, t.ValidState s) {rs : List (Option (List CostedSet))} (hr : evalAll (landmarks H t) ss St.init = some rs) :
    AllResults (fun s r => ∀ π, t.SolvesFrom s π → ∃ ls, r = some ls ∧ ∀ l ∈ ls, ∃ i ∈ π, some i ∈ l.1) ss rs := by
  obtain ⟨rs', h1, h2⟩ := C33_landmarks H h ss hss
  rw [hr] at h1
  simp only [Option.some.injEq] at h1
  subst h1
  refine List.Forall₂.imp ?_ h2
  rintro s r ⟨h3, h4⟩ π hπ
  have hrel := relaxed_of_solves h.wf h.axioms hπ
  cases r with
  | none =>
    refine absurd (fun g hg => ?_) (h4.mp rfl)
    obtain ⟨n, hn⟩ := hmax_of_reach (hrel g hg)
    exact reach_of_hmax hn
  | some ls =>
    refine ⟨ls, rfl, fun l hl => ?_⟩
    obtain ⟨i, h5, h6⟩ := (show t.LandmarksOk s ls from h3).landmark l hl _ hrel
    exact ⟨i, h6, h5⟩

end

/-! ### non-vacuity: two goals that need an operator each, h^max is 3 and LM-cut is 5 -/

/-- operators 0 and 1 achieve the goals with cost 2 and 3 -/
def cutTask : Task where
  vars := [⟨2, none, 0⟩, ⟨3, none, 0⟩]
  ops := [⟨[⟨0, 0⟩], [⟨[], ⟨0, 1⟩⟩], 2⟩, ⟨[], [⟨[], ⟨1, 2⟩⟩], 3⟩, ⟨[⟨1, 1⟩], [⟨[], ⟨1, 0⟩⟩], 1⟩]
  axioms := []
  init := [0, 0]
  goal := [⟨0, 1⟩, ⟨1, 2⟩]

theorem cutTask_ok : cutTask.LmCutOk := ⟨Search.taskOK_wf (by decide), rfl, by decide, by decide, by decide, by decide⟩

theorem cutTask_valid : ∀ s ∈ [[0, 0], [1, 1], [1, 2]], cutTask.ValidState s := by
  intro s hs
  apply Search.stateOK_spec
  revert s
  decide

example : cutTask.IsPlan [0, 1] ∧ cutTask.planCost [0, 1] = 5 := ⟨Search.execOK_spec cutTask_ok.wf _ _ cutTask_ok.wf.init (by decide), rfl⟩

example : ∃ rs, evalAll (landmarks (insertHeap Nat) cutTask) [[0, 0], [1, 1], [1, 2]] St.init = some rs ∧
    AllResults (fun s r => Correct cutTask s r ∧ (r = none ↔ ¬cutTask.IsRelaxedPlan (fun _ => True) s)) [[0, 0], [1, 1], [1, 2]] rs :=
  C33_landmarks (insertHeap Nat) cutTask_ok _ cutTask_valid

example : ∃ v1 v2 v3, evalAll (lmcut (insertHeap Nat) cutTask) [[0, 0], [1, 1], [1, 2]] St.init = some [some v1, v2, v3] ∧ v1 ≤ 5 := by
  obtain ⟨vs, h1, h2⟩ := C33_value (insertHeap Nat) cutTask_ok _ cutTask_valid
  have h3 := C33_admissible (insertHeap Nat) cutTask_ok _ cutTask_valid h1
  obtain ⟨v1, l1, h4, h5, rfl⟩ := List.forall₂_cons_left_iff.mp h3
  obtain ⟨v2, l2, _, h6, rfl⟩ := List.forall₂_cons_left_iff.mp h5
  obtain ⟨v3, l3, _, h7, rfl⟩ := List.forall₂_cons_left_iff.mp h6
  cases h7
  obtain ⟨n, rfl, hn⟩ := h4 [0, 1] (Search.execOK_spec cutTask_ok.wf _ _ cutTask_ok.wf.init (by decide))
  exact ⟨n, v2, v3, h1, hn⟩

end Verif.LmCut
