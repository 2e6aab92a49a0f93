import Verif.Lemmas.DefaultReach
import Verif.Lemmas.AxiomTask
import Verif.Lemmas.AstarHeuristic
import Verif.Props.Relaxation
import Verif.Props.Axioms

/-
C54: the task with axioms for default values makes the delete relaxation safe for tasks with axioms.
-/
namespace Verif.DefaultAxioms
open Verif.Search Verif.Relax Verif.AdaptiveQueue

/-- **C54** (the new axioms): the transformation is defined for every well-formed task and every order of hash sets, and only adds axioms.  They set exactly those derived variables to
their default value for which this value matters.  Variables that are approximated (all of them, or those on cycles) get one axiom without conditions.  For all other variables
the disjunction of the conditions is in every state equivalent to none of the axioms of the variable having a body that holds. -/
theorem C54_axioms {t : Task} (hwf : t.WF) (h : Handling) {o : HashOrders} (ho : o.Legal) :
    ∃ as, construct t h o = some { t with axioms := t.axioms ++ as } ∧
      (∀ a ∈ as, ∃ v b, t.Needed (Approx t h) v true ∧ a = ⟨[⟨v, 1 - t.defaultOf v⟩], [⟨b, ⟨v, t.defaultOf v⟩⟩], 0⟩) ∧
      (∀ v, t.Needed (Approx t h) v true → (h = .approximateNegative ∨ t.OnCycle v) → ∀ b, ⟨[⟨v, 1 - t.defaultOf v⟩], [⟨b, ⟨v, t.defaultOf v⟩⟩], 0⟩ ∈ as ↔ b = []) ∧
      ∀ v, t.Needed (Approx t h) v true → ¬(h = .approximateNegative ∨ t.OnCycle v) → ∀ s, t.ValidState s →
        ((∃ b, ⟨[⟨v, 1 - t.defaultOf v⟩], [⟨b, ⟨v, t.defaultOf v⟩⟩], 0⟩ ∈ as ∧ allHold b s) ↔ ∀ r ∈ t.rules, r.head.var = v → ¬allHold r.body s) := by
  obtain ⟨as, h1, h2⟩ := construct_ok hwf h ho
  refine ⟨as, h1, ?_, h2.approx, h2.exact⟩
  intro a ha
  obtain ⟨v, b, k1, k2, _⟩ := h2.form a ha
  exact ⟨v, b, k1, k2⟩

theorem ifNeeded_cases {t : Task} (hwf : t.WF) (h : Handling) {o : HashOrders} (ho : o.Legal) :
    ∃ t', ifNeeded t h o = some t' ∧ ((t.axioms = [] ∧ t' = t) ∨ ∃ as, t' = { t with axioms := t.axioms ++ as } ∧ NewOk t h as) := by
  unfold ifNeeded
  split
  · rename_i hax
    exact ⟨t, rfl, Or.inl ⟨hax, rfl⟩⟩
  · obtain ⟨as, h1, h2⟩ := construct_ok hwf h ho
    exact ⟨_, h1, Or.inr ⟨as, rfl, h2⟩⟩

/-- **C54** (tasks without axioms stay the same). -/
theorem C54_no_axioms {t : Task} (hax : t.axioms = []) (h : Handling) (o : HashOrders) : ifNeeded t h o = some t := by
  unfold ifNeeded
  rw [if_pos hax]

/-- what the transformation yields for the heuristics -/
theorem ifNeeded_ok {t : Task} (hwf : t.WF) (hform : t.AxiomForm) (h : Handling) (hself : h = .approximateNegative ∨ ¬t.SelfSupporting) {o : HashOrders} (ho : o.Legal) :
    ∃ t', ifNeeded t h o = some t' ∧ t'.vars = t.vars ∧ t'.ops = t.ops ∧ t'.FactsValid ∧ ∀ s π, t.ValidState s → t.SolvesFrom s π → t'.HmaxGoalLe s (t.planCost π) := by
  obtain ⟨t', h1, ⟨hax, rfl⟩ | ⟨as, rfl, h2⟩⟩ := ifNeeded_cases hwf h ho
  · exact ⟨t', h1, rfl, rfl, WF_factsValid hwf hax, fun s π _ hπ => Relax.hmax_plan hwf hax hπ⟩
  · exact ⟨_, h1, rfl, rfl, new_valid hwf hform h2, fun s π hs hπ => DefaultAxioms.hmax_plan hwf hform h2 hself hs hπ⟩

theorem defined_eq {α : Type} {a : Option α} {x y : α} (h1 : a = some x) (h2 : a = some y) : x = y := by rw [h1] at h2; exact Option.some.inj h2

/-- **C54** (delete relaxation): if a plan leads to the goal then the goal can be reached in the delete relaxation of the new task, with a cost (h^max) that is not greater than that
of the plan. -/
theorem C54_relaxation {t t' : Task} (hwf : t.WF) (hform : t.AxiomForm) (h : Handling) (hself : h = .approximateNegative ∨ ¬t.SelfSupporting) {o : HashOrders} (ho : o.Legal)
    (ht : ifNeeded t h o = some t') {s : State} (hs : t.ValidState s) {π : List Nat} (hπ : t.SolvesFrom s π) :
    t'.IsRelaxedPlan (fun _ => True) s ∧ t'.HmaxGoalLe s (t.planCost π) := by
  obtain ⟨t'', h1, _, _, _, h2⟩ := ifNeeded_ok hwf hform h hself ho
  cases defined_eq ht h1
  exact ⟨fun g hg => reach_of_hmax (h2 s π hs hπ g hg), h2 s π hs hπ⟩

section
variable {t t' : Task} (hwf : t.WF) (hform : t.AxiomForm) (h : Handling) (hself : h = .approximateNegative ∨ ¬t.SelfSupporting) {o : HashOrders} (ho : o.Legal) (ht : ifNeeded t h o = some t')
include hwf hform hself ho ht

/-- **C54** (h^max): for tasks with axioms the value of h^max does not exceed the cost of any plan, and dead ends have no plans. -/
theorem C54_hmax (H : StdHeap Nat) (ss : List State) (hss : ∀ s ∈ ss, t.ValidState s) {vs : List (Option Nat)} (hv : evalAll (hmax H t') ss RSt.init = some vs) :
    AllResults (fun s v => ∀ π, t.SolvesFrom s π → ∃ n, v = some n ∧ n ≤ t.planCost π) ss vs := by
  obtain ⟨t'', h1, h2, h3, h4, h5⟩ := ifNeeded_ok hwf hform h hself ho
  cases defined_eq ht h1
  have hvalid : ∀ s, t.ValidState s → t'.ValidState s := fun s hs => by unfold Task.ValidState; rw [h2]; exact hs
  have hr := C31_hmax_exact H h4 ss (fun s hs => hvalid s (hss s hs)) hv
  have : AllResults (fun s v => t.ValidState s → ∀ π, t.SolvesFrom s π → ∃ n, v = some n ∧ n ≤ t.planCost π) ss vs := by
    refine List.Forall₂.imp ?_ hr
    intro s v hr hs π hπ
    have := h5 s π hs hπ
    cases v with
    | none => exact absurd this (hr _)
    | some n => exact ⟨n, rfl, hr.2 _ this⟩
  clear hr hv
  induction this with
  | nil => exact .nil
  | cons hx _ ih => exact .cons (hx (hss _ (by simp))) (ih (fun s hs => hss s (by simp [hs])))

/-- **C54** (h^add): dead ends have no plans, for tasks with axioms. -/
theorem C54_hadd (hc : ∀ o ∈ t.ops, o.cost ≤ 100000000) (H : StdHeap Nat) (ss : List State) (hss : ∀ s ∈ ss, t.ValidState s) :
    ∃ rs, evalAll (hadd H t') ss RSt.init = some rs ∧ AllResults (fun s r => r.1 = none → ¬∃ π, t.SolvesFrom s π) ss rs := by
  obtain ⟨t'', h1, h2, h3, h4, h5⟩ := ifNeeded_ok hwf hform h hself ho
  cases defined_eq ht h1
  have hvalid : ∀ s, t.ValidState s → t'.ValidState s := fun s hs => by unfold Task.ValidState; rw [h2]; exact hs
  have hc' : ∀ o ∈ t'.ops, o.cost ≤ 100000000 := by rw [h3]; exact hc
  obtain ⟨rs, k1, k0⟩ := C32_hadd_exact_partial H h4 hc' ss (fun s hs => hvalid s (hss s hs))
  refine ⟨rs, k1, ?_⟩
  have : AllResults (fun s r => t.ValidState s → r.1 = none → ¬∃ π, t.SolvesFrom s π) ss rs := by
    refine List.Forall₂.imp ?_ (C32_hadd_dead_end_partial H h4 hc' ss (fun s hs => hvalid s (hss s hs)) k1)
    rintro s r hr hs hn ⟨π, hπ⟩
    exact hr.1.mp hn (fun g hg => reach_of_hmax (h5 s π hs hπ g hg))
  clear k1 k0
  induction this with
  | nil => exact .nil
  | cons hx _ ih => exact .cons (hx (hss _ (by simp))) (ih (fun s hs => hss s (by simp [hs])))

/-- **C54** (FF): dead ends have no plans, for tasks with axioms. -/
theorem C54_ff (hc : ∀ o ∈ t.ops, o.cost ≤ 100000000) (hsum : (t.ops.map (·.cost)).sum < 2 ^ 31) (H : StdHeap Nat) (ss : List State) (hss : ∀ s ∈ ss, t.ValidState s) :
    ∃ rs, evalAll (hff H t') ss RSt.init = some rs ∧ AllResults (fun s r => r = none → ¬∃ π, t.SolvesFrom s π) ss rs := by
  obtain ⟨t'', h1, h2, h3, h4, h5⟩ := ifNeeded_ok hwf hform h hself ho
  cases defined_eq ht h1
  have hvalid : ∀ s, t.ValidState s → t'.ValidState s := fun s hs => by unfold Task.ValidState; rw [h2]; exact hs
  have hc' : ∀ o ∈ t'.ops, o.cost ≤ 100000000 := by rw [h3]; exact hc
  obtain ⟨rs, k1, k2⟩ := C32_ff_relaxed_plan_partial H h4 hc' (by rw [h3]; exact hsum) ss (fun s hs => hvalid s (hss s hs))
  refine ⟨rs, k1, ?_⟩
  have : AllResults (fun s r => t.ValidState s → r = none → ¬∃ π, t.SolvesFrom s π) ss rs := by
    refine List.Forall₂.imp ?_ k2
    rintro s r hr hs rfl ⟨π, hπ⟩
    exact hr (fun g hg => reach_of_hmax (h5 s π hs hπ g hg))
  clear k1 k2
  induction this with
  | nil => exact .nil
  | cons hx _ ih => exact .cons (hx (hss _ (by simp))) (ih (fun s hs => hss s (by simp [hs])))

/-- h^max as the object of a search on a task with axioms -/
theorem hmax_object (H : StdHeap Nat) {B : Nat} (hB : ∀ o ∈ t.ops, o.cost ≤ B) (hov : ((t.vars.map (·.domain)).sum + 1) * B < 2 ^ 30) :
    AdmissibleObject t (fun st : RSt => ∃ bag, Rep st.queue bag) (hmax H t') := by
  obtain ⟨t'', h1, h2, h3, h4, h5⟩ := ifNeeded_ok hwf hform h hself ho
  cases defined_eq ht h1
  rintro s st hs ⟨bag, hb⟩
  have hs' : t'.ValidState s := by unfold Task.ValidState; rw [h2]; exact hs
  have hB' : ∀ o ∈ (RTask.ofTask t').ops, o.base ≤ B := by
    intro o ho
    obtain ⟨i, cs, f, c, h, rfl⟩ := mem_allUnary.mp (simplify_subset _ _ ho)
    cases h with
    | op i op e k1 k2 =>
      rw [h3] at k1
      exact hB op (List.mem_of_getElem? k1)
    | ax a e k1 k2 => exact Nat.zero_le _
  have hov' : ((t'.vars.map (·.domain)).sum + 1) * B < 2 ^ 30 := by rw [h2]; exact hov
  obtain ⟨v, st', k1, k2⟩ := max_defined H (ofTask_ok h4 (K := .max) (by simp)) hB' (show (countFacts t' + 1) * B < 2 ^ 31 by unfold countFacts; omega) (factsOf_lt hs') (ofTask_goals h4) hb
  have hm : hmax H t' s st = some (v, st') := k1
  obtain ⟨r1, r2⟩ := hmax_result H h4 hs' ⟨bag, hb⟩ hm
  refine ⟨v, st', hm, r2, ?_, ?_⟩
  · rintro n rfl
    have hn := max_value hB' k2
    have hle : (RTask.ofTask t').numProps * B ≤ ((t'.vars.map (·.domain)).sum + 1) * B := Nat.mul_le_mul_right _ (by show countFacts t' ≤ _; unfold countFacts; omega)
    omega
  · intro π hπ
    have := h5 s π hs hπ
    cases v with
    | none => exact absurd this (r1 _)
    | some n => exact ⟨n, rfl, r1.2 _ this⟩

/-- **C54** and C23: A* with h^max on a task with axioms ends with a plan of minimal cost, or fails and there is no plan. -/
theorem C54_astar_hmax (H : StdHeap Nat) {B : Nat} (hB : ∀ o ∈ t.ops, o.cost ≤ B) (hov : ((t.vars.map (·.domain)).sum + 1) * B < 2 ^ 30) (hfit : t.FitsTypes .normal) (hcost : ∀ i, t.opCost i < 2 ^ 29)
    (u : Nat → Nat → Bool) (H' : OpenList.StdHeap State) (rel : Nat → Bool) (rng : OpenList.Rng) (σ : { st : RSt // ∃ bag, Rep st.queue bag }) :
    ∃ n, OptimalResult t (Eager.search (World.ofTask t u .normal) (objEnv (hmax_object hwf hform h hself ho ht H hB hov)) H' rel ⟨true, 2147483647⟩ (.tiebreaking false false [1, 0]) rng σ n) :=
  astar_object _ hwf hfit hcost u H' rel rng σ

end

/-! ### Axioms that use the variable they set -/

/-- `v` is true if `d` is or if `v` is; the operator makes `d` false -/
def selfTask : Task where
  vars := [⟨2, none, 0⟩, ⟨2, some 0, 0⟩]
  ops := [⟨[], [⟨[], ⟨0, 0⟩⟩], 1⟩]
  axioms := [⟨[⟨1, 0⟩], [⟨[⟨0, 1⟩], ⟨1, 1⟩⟩], 0⟩, ⟨[⟨1, 0⟩], [⟨[⟨1, 1⟩], ⟨1, 1⟩⟩], 0⟩]
  init := [1, 1]
  goal := [⟨1, 0⟩]

theorem selfTask_wf : selfTask.WF := axiomTaskOK_wf (by decide)

theorem selfTask_noCycle : ¬Approx selfTask .approximateNegativeCycles 1 := by
  have hd : ∀ a b, selfTask.PosDep a b → a = 1 ∧ b = 1 := by
    rintro a b ⟨r, hr, rfl, c, hc, h, rfl⟩
    have : r = ⟨[⟨0, 1⟩], ⟨1, 1⟩⟩ ∨ r = ⟨[⟨1, 1⟩], ⟨1, 1⟩⟩ := by simpa [Task.rules, selfTask] using hr
    rcases this with rfl | rfl
    · simp only [List.mem_singleton] at hc
      subst hc
      exact absurd rfl h.1
    · simp only [List.mem_singleton] at hc
      subst hc
      exact ⟨rfl, rfl⟩
  rintro (h | ⟨w, hne, h1, _⟩)
  · cases h
  · rcases Relation.ReflTransGen.cases_tail h1 with h | ⟨x, _, h⟩
    · exact hne h
    · exact hne (hd _ _ h).2

/-- **C54** fails if an axiom uses the variable it sets (the reader accepts such files, the translator does not write them) and cycles are to be treated: only components with more
than one variable are recognised as cycles.  h^max reports a state with a plan as a dead end. -/
theorem C54_self_support_fails (H : StdHeap Nat) {o : HashOrders} (ho : o.Legal) :
    selfTask.WF ∧ selfTask.AxiomForm ∧ selfTask.IsPlan [0] ∧
      ∃ t', ifNeeded selfTask .approximateNegativeCycles o = some t' ∧ evalAll (hmax H t') [selfTask.init] RSt.init = some [none] := by
  have hform : selfTask.AxiomForm := axiomFormOK_spec (by decide)
  refine ⟨selfTask_wf, hform, ?_, ?_⟩
  · exact execOK_spec selfTask_wf _ _ (stateOK_spec (by decide)) (by decide)
  · obtain ⟨as, h1, h2⟩ := construct_ok selfTask_wf .approximateNegativeCycles ho
    have hfv := new_valid selfTask_wf hform h2
    have hs : ({ selfTask with axioms := selfTask.axioms ++ as } : Task).ValidState selfTask.init := stateOK_spec (t := selfTask) (by decide)
    obtain ⟨vs, hv⟩ := C31_hmax_defined H hfv (B := 1) (show ∀ o ∈ selfTask.ops, o.cost ≤ 1 by decide) (show ((selfTask.vars.map (·.domain)).sum + 1) * 1 < 2 ^ 31 by decide) [selfTask.init] (by simpa using hs)
    refine ⟨_, (show ifNeeded selfTask .approximateNegativeCycles o = _ from h1), ?_⟩
    have hd := C31_hmax_dead_end H hfv [selfTask.init] (by simpa using hs) hv
    have hneeded : selfTask.Needed (Approx selfTask .approximateNegativeCycles) 1 true := Task.Needed.goal ⟨1, 0⟩ (by simp [selfTask]) (by decide)
    have hcond : ∀ v b, selfTask.Needed (Approx selfTask .approximateNegativeCycles) v true → defaultAxiom v (selfTask.defaultOf v) b ∈ as → v = 1 → ⟨1, 0⟩ ∈ b := by
      rintro v b _ hb rfl
      by_contra hn
      have hx := (h2.exact 1 hneeded selfTask_noCycle [0, 1] (stateOK_spec (by decide))).mp ⟨b, hb, ?_⟩
      · exact hx ⟨[⟨1, 1⟩], ⟨1, 1⟩⟩ (by simp [Task.rules, selfTask]) rfl (by simp [allHold, Fact.holds])
      · intro f hf
        obtain ⟨r, hr, _, c, hc, e1, e2⟩ := h2.facts 1 b selfTask_noCycle hb f hf
        obtain ⟨v', b', _, hab, hform⟩ := h2.form _ hb
        have hbb : b = b' := by
          unfold defaultAxiom at hab
          simp only [Operator.mk.injEq, List.cons.injEq, Effect.mk.injEq] at hab
          exact hab.2.1.1.1
        subst hbb
        have hval : f.val < 2 := by
          obtain ⟨d, k1, k2⟩ := hform f hf
          have : d ∈ selfTask.vars := List.mem_of_getElem? k1
          have hall : ∀ d ∈ selfTask.vars, d.domain = 2 := by decide
          rw [← hall d this]
          exact k2
        have hr : r = ⟨[⟨0, 1⟩], ⟨1, 1⟩⟩ ∨ r = ⟨[⟨1, 1⟩], ⟨1, 1⟩⟩ := by simpa [Task.rules, selfTask] using hr
        obtain ⟨fv, fx⟩ := f
        rcases hr with rfl | rfl
        all_goals
          simp only [List.mem_singleton] at hc
          subst hc
          simp only at e1 e2 hval
          have : fx = 0 := by omega
          subst e1 this
        · simp [Fact.holds]
        · exact absurd hf hn
    have hnot : ∀ f, ({ selfTask with axioms := selfTask.axioms ++ as } : Task).RelReach (fun _ => True) selfTask.init f → f ≠ ⟨1, 0⟩ := by
      intro f hf
      induction hf with
      | state f hf => rintro rfl; simp [Fact.holds, selfTask] at hf
      | effect i cs f c he _ _ ih =>
        rintro rfl
        generalize hg : (⟨1, 0⟩ : Fact) = g at he
        cases he with
        | op i o e k1 k2 =>
          have hall : ∀ o ∈ selfTask.ops, ∀ e ∈ o.effects, (⟨1, 0⟩ : Fact) ≠ e.fact := by decide
          exact hall o (List.mem_of_getElem? k1) e k2 hg
        | ax a e k1 k2 =>
          rcases List.mem_append.mp k1 with k1 | k1
          · have hall : ∀ a ∈ selfTask.axioms, ∀ e ∈ a.effects, (⟨1, 0⟩ : Fact) ≠ e.fact := by decide
            exact hall a k1 e k2 hg
          · obtain ⟨v, b, j1, rfl, _⟩ := h2.form a k1
            have he : e = ⟨b, ⟨v, selfTask.defaultOf v⟩⟩ := by simpa [defaultAxiom] using k2
            subst he
            have hv1 : v = 1 := by simp only [Fact.mk.injEq] at hg; exact hg.1.symm
            exact ih ⟨1, 0⟩ (by simp [hcond v b j1 k1 hv1]) rfl
    have hdead : ¬({ selfTask with axioms := selfTask.axioms ++ as } : Task).IsRelaxedPlan (fun _ => True) selfTask.init := by
      intro hp
      exact hnot ⟨1, 0⟩ (hp ⟨1, 0⟩ (by simp [selfTask])) rfl
    cases hd with
    | cons x y =>
      cases y
      rw [hv, x.mpr hdead]

/-! ### A task with a cycle, a variable treated exactly and a negative condition -/

/-- `x` (0); `a` and `b` (1, 2) support each other, and `x` supports `a`; `c` (3) is true if `a` is false; `d` (4) is true if `x` is -/
def exTask : Task where
  vars := [⟨2, none, 0⟩, ⟨2, some 0, 0⟩, ⟨2, some 0, 0⟩, ⟨2, some 1, 0⟩, ⟨2, some 0, 0⟩]
  ops := [⟨[], [⟨[], ⟨0, 0⟩⟩], 1⟩]
  axioms := [⟨[⟨1, 0⟩], [⟨[⟨0, 1⟩], ⟨1, 1⟩⟩], 0⟩, ⟨[⟨1, 0⟩], [⟨[⟨2, 1⟩], ⟨1, 1⟩⟩], 0⟩, ⟨[⟨2, 0⟩], [⟨[⟨1, 1⟩], ⟨2, 1⟩⟩], 0⟩,
    ⟨[⟨3, 0⟩], [⟨[⟨1, 0⟩], ⟨3, 1⟩⟩], 0⟩, ⟨[⟨4, 0⟩], [⟨[⟨0, 1⟩], ⟨4, 1⟩⟩], 0⟩]
  init := [1, 1, 1, 0, 1]
  goal := [⟨3, 1⟩, ⟨4, 0⟩]

theorem exTask_wf : exTask.WF := axiomTaskOK_wf (by decide)

example (h : Handling) : exTask.WF ∧ exTask.AxiomForm ∧ (h = .approximateNegative ∨ ¬exTask.SelfSupporting) ∧ exTask.ValidState exTask.init ∧ exTask.SolvesFrom exTask.init [0] ∧
    exTask.Needed (Approx exTask h) 1 true ∧ exTask.OnCycle 1 ∧ exTask.Needed (Approx exTask h) 4 true ∧ (∀ o ∈ exTask.ops, o.cost ≤ 1) ∧ ((exTask.vars.map (·.domain)).sum + 1) * 1 < 2 ^ 30 := by
  refine ⟨exTask_wf, axiomFormOK_spec (by decide), Or.inr ?_, stateOK_spec (by decide), execOK_spec exTask_wf _ _ (stateOK_spec (by decide)) (by decide), ?_, ?_, ?_, by decide, by decide⟩
  · unfold Task.SelfSupporting; decide
  · exact Task.Needed.other false ⟨[⟨1, 0⟩], ⟨3, 1⟩⟩ ⟨1, 0⟩ (Task.Needed.goal ⟨3, 1⟩ (by simp [exTask]) (by decide)) (by simp) (by decide) (by simp) ⟨by decide, by decide⟩
  · refine ⟨2, by decide, .single ?_, .single ?_⟩
    · exact ⟨⟨[⟨2, 1⟩], ⟨1, 1⟩⟩, by decide, rfl, ⟨2, 1⟩, by simp, ⟨by decide, by decide⟩, rfl⟩
    · exact ⟨⟨[⟨1, 1⟩], ⟨2, 1⟩⟩, by decide, rfl, ⟨1, 1⟩, by simp, ⟨by decide, by decide⟩, rfl⟩
  · exact Task.Needed.goal ⟨4, 0⟩ (by simp [exTask]) (by decide)

end Verif.DefaultAxioms
