import Verif.Lemmas.EhcSearch
import Verif.Props.LazySearch

/-
C26: enforced hill climbing finds plans.
C24: the bound, for enforced hill climbing.
C52: the documented treatment of preferred operators does not hold.

The task, the choices of the successor generator, the cost type, the evaluators (`E`), the
heap functions, the options, the random number generator and the number of steps are
arbitrary.
-/
namespace Verif.Search
open Verif.OpenList

section
variable {σ : Type} {t : Task} (hwf : t.WF) (u : Nat → Nat → Bool) (ct : CostType) {E : HEnv State σ} (hE : E.Legal (World.ofTask t u ct))
  (H : StdHeap (State × Nat)) (opts : HOptions) (rng : Rng) (env : σ)
include hwf hE

theorem ehc_search_cases (n : Nat) {r : Option (Res (Ehc State σ))} {h : Int} {env' : σ} (hr : runFor (Ehc.step (World.ofTask t u ct) E H opts) n (Ehc.initial (World.ofTask t u ct) opts rng env' h) = r) :
    (∃ st', r = some (.inProgress st')) ∨ (∃ (st' : Ehc State σ) (l' : List (Unit × (State × Nat))), HInv (World.ofTask t u ct) t.ValidState opts st' l' ∧
      HResult (World.ofTask t u ct) t.ValidState E opts (bagSpec H (fun _ => true) opts.cfg (cfg_wf opts)) (Task.states t) st' l' r) := by
  rcases ehcRun (ofTask_total hwf u ct) hE (opts := opts) (bagSpec H (fun _ => true) opts.cfg (cfg_wf opts)) (states := Task.states t) (fun _ hs => mem_states.mpr hs) n _ []
    (OLSpec.create _) (ehc_initial (ofTask_total hwf u ct) (opts := opts) rng env' h) with ⟨st', l', k1, _⟩ | ⟨st', l', k1, k2, _⟩
  · left; exact ⟨st', by rw [← hr, k1]⟩
  · right; refine ⟨st', l', k1, ?_⟩; rw [← hr]; exact k2

/-- C26: a reported solution is a plan of the task. C24: it costs less than the bound, or it is
empty and the initial state is a goal state; this holds for all cost types. -/
theorem ehc_solved {n : Nat} {π : List Nat} (h : Ehc.search (World.ofTask t u ct) E H opts rng env n = some (.run (.solved π))) :
    t.IsPlan π ∧ ((t.planCost π : Int) < opts.bound ∨ π = [] ∧ allHold t.goal t.init) := by
  unfold Ehc.search at h
  split at h
  · simp at h
  · rename_i hv env' he
    split at h
    · simp at h
    · obtain ⟨r, hr, e⟩ := Option.map_eq_some_iff.mp h
      simp only [HRes.run.injEq] at e
      subst e
      rcases ehc_search_cases hwf u ct hE H opts rng n hr with ⟨st', k⟩ | ⟨st', l', k1, k2⟩
      · simp at k
      · cases k2 with
        | solved _ h1 h2 h3 =>
          obtain ⟨π', i1, i2, _⟩ := k1.nodes.trace h1
          rw [h3] at i1
          simp only [Option.some.injEq] at i1
          subst i1
          refine ⟨(ofTask_isPlan hwf u ct).mp ⟨_, i2, h2⟩, ?_⟩
          by_cases hc : st'.cur = (World.ofTask t u ct).init
          · right
            rw [hc] at h1 h2 h3
            refine ⟨?_, (ofTask_goal hwf u ct hwf.init).mp h2⟩
            obtain ⟨_, j | j⟩ := k1.nodes.ok _ h1
            · unfold tracePath at h3
              rw [traceLoop, j.2.2.1] at h3
              simpa using h3.symm
            · exact absurd rfl j.1
          · left
            have := k1.exact.trace k1.nodes h1 h3
            rw [← ofTask_cost (t := t) (u := u) (ct := ct), ← this]
            exact k1.bound _ h1 hc

/-- C26: a reported solution is a plan of the task. -/
theorem C26_ehc_sound {n : Nat} {π : List Nat} (h : Ehc.search (World.ofTask t u ct) E H opts rng env n = some (.run (.solved π))) : t.IsPlan π :=
  (ehc_solved hwf u ct hE H opts rng env h).1

/-- C24 for enforced hill climbing with every cost type: a reported plan costs less than the
bound, or it is empty and the initial state is a goal state. -/
theorem C24_ehc_bound {n : Nat} {π : List Nat} (h : Ehc.search (World.ofTask t u ct) E H opts rng env n = some (.run (.solved π))) :
    (t.planCost π : Int) < opts.bound ∨ π = [] ∧ allHold t.goal t.init :=
  (ehc_solved hwf u ct hE H opts rng env h).2

omit hwf hE in
/-- C26: the program reports that the task is unsolvable only if the evaluator is infinite for
the initial state and its dead ends are reliable; if that is given to dead ends only, there is
no plan. -/
theorem C26_ehc_unsolvable {n : Nat} (hsafe : E.Evals t.init infty → ¬ ∃ π, t.SolvesFrom t.init π)
    (h : Ehc.search (World.ofTask t u ct) E H opts rng env n = some (.exit true)) : E.reliable = true ∧ ¬ ∃ π, t.IsPlan π := by
  unfold Ehc.search at h
  split at h
  · simp at h
  · rename_i hv env' he
    split at h
    · rename_i hinf
      simp only [Option.some.injEq, HRes.exit.injEq] at h
      subst hinf
      exact ⟨h, hsafe ⟨E.notifyInitial env t.init, env', he⟩⟩
    · obtain ⟨r, hr, e⟩ := Option.map_eq_some_iff.mp h
      simp at e

/-- C26, termination: after finitely many steps the search is no longer in progress. -/
theorem C26_ehc_terminates : ∃ n, ∀ st, Ehc.search (World.ofTask t u ct) E H opts rng env n ≠ some (.run (.inProgress st)) := by
  unfold Ehc.search
  split
  · exact ⟨0, by simp⟩
  · rename_i hv env' he
    split
    · exact ⟨0, by simp⟩
    · obtain ⟨n, hn⟩ := ehcRun_terminates (ofTask_total hwf u ct) hE (opts := opts) (bagSpec H (fun _ => true) opts.cfg (cfg_wf opts)) (states := Task.states t) (fun _ hs => mem_states.mpr hs)
        _ _ _ _ [] rfl rfl rfl (OLSpec.create _) (ehc_initial (ofTask_total hwf u ct) (opts := opts) rng env' hv)
      refine ⟨n, fun st h => ?_⟩
      obtain ⟨r, hr, e⟩ := Option.map_eq_some_iff.mp h
      simp only [HRes.run.injEq] at e
      subst e
      exact hn st hr

/-- C26: if the evaluator returns and costs fit into the C++ types, no operation of the search
goes wrong. -/
theorem C26_ehc_defined (hT : E.Total) (hfit : t.FitsTypes ct) (n : Nat) : Ehc.search (World.ofTask t u ct) E H opts rng env n ≠ none := by
  unfold Ehc.search
  split
  · rename_i he
    obtain ⟨h, env', hh⟩ := hT (E.notifyInitial env (World.ofTask t u ct).init) (World.ofTask t u ct).init
    rw [he] at hh; simp at hh
  · rename_i hv env' he
    split
    · simp
    · intro h
      rw [Option.map_eq_none_iff] at h
      rcases ehc_search_cases hwf u ct hE H opts rng n h with ⟨st', k⟩ | ⟨st', l', k1, k2⟩
      · simp at k
      · cases k2 with
        | problem h2 =>
          rcases h2 with h2 | ⟨infos', s, k1, k2, k3⟩
          · exact h2 hT
          · exact k1.no_overflow (noOverflow_of hwf hfit) k2 k3

/-- C26: in the course of the search the state from which hill climbing proceeds changes only
when the value of the evaluator decreases. -/
theorem C26_ehc_improves {n m : Nat} {st st' : Ehc State σ} (h : Ehc.search (World.ofTask t u ct) E H opts rng env n = some (.run (.inProgress st)))
    (h' : Ehc.search (World.ofTask t u ct) E H opts rng env (n + m) = some (.run (.inProgress st'))) : st'.cur = st.cur ∧ st'.curH = st.curH ∨ st'.curH < st.curH := by
  unfold Ehc.search at h h'
  split at h
  · simp at h
  · rename_i hv env' he
    rw [he] at h'
    simp only at h'
    split at h
    · simp at h
    · rename_i hinf
      rw [if_neg hinf] at h'
      obtain ⟨r, hr, e⟩ := Option.map_eq_some_iff.mp h
      simp only [HRes.run.injEq] at e
      subst e
      obtain ⟨r', hr', e⟩ := Option.map_eq_some_iff.mp h'
      simp only [HRes.run.injEq] at e
      subst e
      have split : ∀ (a : Nat) (x y : Ehc State σ), runFor (Ehc.step (World.ofTask t u ct) E H opts) a x = some (.inProgress y) →
          runFor (Ehc.step (World.ofTask t u ct) E H opts) (a + m) x = runFor (Ehc.step (World.ofTask t u ct) E H opts) m y := by
        intro a
        induction a with
        | zero => intro x y h; simp only [runFor, Option.some.injEq, Res.inProgress.injEq] at h; subst h; simp
        | succ a ih =>
          intro x y h
          rw [Nat.add_right_comm, runFor]
          rw [runFor] at h
          cases hs : Ehc.step (World.ofTask t u ct) E H opts x with
          | none => rw [hs] at h; simp at h
          | some r =>
            rw [hs] at h
            cases r with
            | inProgress z => exact ih z y h
            | solved π => simp at h
            | failed => simp at h
      rcases ehcRun (ofTask_total hwf u ct) hE (opts := opts) (bagSpec H (fun _ => true) opts.cfg (cfg_wf opts)) (states := Task.states t) (fun _ hs => mem_states.mpr hs) n _ []
        (OLSpec.create _) (ehc_initial (ofTask_total hwf u ct) (opts := opts) rng env' hv) with ⟨st1, l1, k1, k2, k3, _⟩ | ⟨_, _, _, _, k⟩
      · rw [hr] at k1
        simp only [Option.some.injEq, Res.inProgress.injEq] at k1
        subst k1
        rw [split n _ _ hr] at hr'
        rcases ehcRun (ofTask_total hwf u ct) hE (opts := opts) (bagSpec H (fun _ => true) opts.cfg (cfg_wf opts)) (states := Task.states t) (fun _ hs => mem_states.mpr hs) m _ _ k2 k3 with
          ⟨st2, l2, j1, _, _, j2⟩ | ⟨_, _, _, _, j⟩
        · rw [hr'] at j1
          simp only [Option.some.injEq, Res.inProgress.injEq] at j1
          subst j1
          exact j2
        · exact absurd hr' (j _)
      · exact absurd hr (k _)

end

/-! ### C52: rank_preferred_first

According to its documentation the option rank_preferred_first means "first insert successors
achieved by preferred operators, then those by non-preferred operators".  In fact successors
achieved by non-preferred operators are never considered. -/

/-- an evaluator with fixed values and preferred operators -/
def plainHEnv (h : State → Int) (pref : State → List Nat) : HEnv State Unit where
  notifyInitial _ _ := ()
  notifyTransition _ _ _ _ := ()
  eval _ s := some (h s, ())
  progress _ := ()
  preferredOps _ s := (pref s, ())
  reliable := true

/-- from 0 an operator to 1 and an operator with cost 5 to 2; from 2 an operator to the goal 3 -/
def climbTask : Task where
  vars := [⟨4, none, 0⟩]
  ops := [move 0 1 0, move 0 2 5, move 2 3 1]
  axioms := []
  init := [0]
  goal := [⟨0, 3⟩]

/-- the number of steps to the goal of `climbTask` -/
def stepsH (s : State) : Int := if s = [3] then 0 else if s = [2] then 1 else 2

/-- the plan that is reported in the next step if the current state is a goal state -/
def ehcProbe (w : World State) : Option (HRes State Unit) → Option (List Nat)
  | some (.run (.inProgress st)) =>
    if st.atStep = true ∧ w.goal st.cur = some true then (traceFuel st.infos 100 st.cur []).map List.reverse else none
  | _ => none

theorem ehcProbe_solved {w : World State} {E : HEnv State Unit} {H : StdHeap (State × Nat)} {opts : HOptions} {rng : Rng} {n : Nat} {π : List Nat}
    (h : ehcProbe w (Ehc.search w E H opts rng () n) = some π) : Ehc.search w E H opts rng () (n + 1) = some (.run (.solved π)) := by
  unfold Ehc.search at h ⊢
  cases he : E.eval (E.notifyInitial () w.init) w.init with
  | none => rw [he] at h; simp [ehcProbe] at h
  | some x =>
    obtain ⟨h0, env⟩ := x
    rw [he] at h
    simp only at h ⊢
    by_cases hinf : h0 = infty
    · rw [if_pos hinf] at h; simp [ehcProbe] at h
    rw [if_neg hinf] at h ⊢
    cases hr : runFor (Ehc.step w E H opts) n (Ehc.initial w opts rng env h0) with
    | none => rw [hr] at h; simp [ehcProbe] at h
    | some r =>
      rw [hr] at h
      cases r with
      | solved π => simp [ehcProbe] at h
      | failed => simp [ehcProbe] at h
      | inProgress st =>
        rw [runFor_succ _ _ _ _ hr]
        simp only [Option.map_some, ehcProbe] at h
        split at h
        case isFalse => simp at h
        rename_i hc
        obtain ⟨p, h4, rfl⟩ := Option.map_eq_some_iff.mp h
        simp [runFor, Ehc.step, hc.1, Ehc.start, hc.2, tracePath, traceFuel_eq _ _ _ _ _ h4]

/-- With rank_preferred_first, inserting the edge of an operator that is not preferred does
not change the open list. -/
theorem C52_non_preferred_dropped (H : StdHeap (State × Nat)) {opts : HOptions} (h1 : opts.usePreferred = true) (h2 : opts.prune = false) {ol : OL (State × Nat)}
    (hol : ol.cfg = opts.cfg) (g : Int) (e : State × Nat) : ol.insert H (fun _ => true) (edgeCtx g false) e = some ol := by
  unfold HOptions.cfg at hol
  simp only [h1, h2, Bool.not_true, Bool.or_self, Bool.false_eq_true, if_false] at hol
  cases ol with
  | tiebreaking pref uns evs s =>
    simp only [OL.cfg, Cfg.tiebreaking.injEq] at hol
    simp [OL.insert, hol.1, edgeCtx]
  | _ => simp [OL.cfg] at hol

/-- C52 does not hold: a task in which the search fails with rank_preferred_first, where one of
the two operators applicable in the initial state is preferred, although it finds a plan when
the preferred operators are not used (so that all successors are considered). -/
theorem C52_rank_preferred_first_fails :
    (match Ehc.search (World.ofTask climbTask (fun _ _ => true) .normal) (plainHEnv stepsH (fun s => if s = [0] then [0] else [])) (sortHeap (State × Nat))
      ⟨2147483647, true, false⟩ ⟨fun _ => 0, 0⟩ () 3 with | some (.run .failed) => true | _ => false) = true ∧
    Ehc.search (World.ofTask climbTask (fun _ _ => true) .normal) (plainHEnv stepsH (fun s => if s = [0] then [0] else [])) (sortHeap (State × Nat))
      ⟨2147483647, false, false⟩ ⟨fun _ => 0, 0⟩ () 6 = some (.run (.solved [1, 2])) := by
  refine ⟨?_, ehcProbe_solved (n := 5) ?_⟩
  · rw [sortedWorld_eq (by decide)]
    decide +kernel
  · rw [sortedWorld_eq (by decide)]
    decide +kernel

/-! ### non-vacuity -/

theorem climbTask_wf : climbTask.WF := taskOK_wf (by decide)

theorem plainHEnv_total (h : State → Int) (pref : State → List Nat) : (plainHEnv h pref).Total := fun _ s => ⟨h s, (), rfl⟩

/-- all applicable operators are preferred -/
theorem plainHEnv_legal (w : World State) (h : State → Int) : (plainHEnv h (fun s => (w.ops s).getD [])).Legal w := by
  intro env s ops hops o ho
  simpa [plainHEnv, hops] using ho

/-- the theorems apply to a search that finds a plan with a bound and cost_type one -/
example : ∃ π, Ehc.search (World.ofTask climbTask (fun _ _ => true) .one) (plainHEnv stepsH (fun s => ((World.ofTask climbTask (fun _ _ => true) .one).ops s).getD [])) (sortHeap (State × Nat))
      ⟨12, true, true⟩ ⟨fun _ => 0, 0⟩ () 6 = some (.run (.solved π)) ∧ climbTask.IsPlan π ∧ climbTask.planCost π < 12 := by
  have h : Ehc.search (World.ofTask climbTask (fun _ _ => true) .one) (plainHEnv stepsH (fun s => ((World.ofTask climbTask (fun _ _ => true) .one).ops s).getD [])) (sortHeap (State × Nat))
      ⟨12, true, true⟩ ⟨fun _ => 0, 0⟩ () 6 = some (.run (.solved [1, 2])) := by
    refine ehcProbe_solved (n := 5) ?_
    rw [sortedWorld_eq (by decide)]
    decide +kernel
  refine ⟨_, h, C26_ehc_sound climbTask_wf _ _ (plainHEnv_legal _ _) _ _ _ _ h, ?_⟩
  rcases C24_ehc_bound climbTask_wf _ _ (plainHEnv_legal _ _) _ _ _ _ h with h | h
  · simp only at h; omega
  · simp at h

end Verif.Search
