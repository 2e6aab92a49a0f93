import Verif.Lemmas.LazyResults
import Verif.Lemmas.LazyProbe
import Verif.Props.EagerSearch

/-
C25: lazy search finds plans, and failure means that there is none.
C24: the bound, for lazy search.

As in Props/EagerSearch.lean the task, the choices of the successor generator, the cost type,
the evaluators, preferred operators and shuffling (`E`), the heap functions, the options, the
open list, the initial random number generator and the number of steps are arbitrary.
-/
namespace Verif.Search
open Verif.OpenList

theorem lsafe_of {σ : Type} {t : Task} (hwf : t.WF) {u : Nat → Nat → Bool} {ct : CostType} {rel : Nat → Bool} {E : LEnv State σ} {cfg : Cfg} (hcfg : Spec.WF cfg)
    (hun : Spec.Unrestricted cfg) (hs : E.SafeFor t (Spec.evaluators cfg)) : LSafe (World.ofTask t u ct) t.ValidState E rel cfg where
  dead s c hv hy hd := by
    rw [ofTask_solvable hwf u ct hv]
    exact hs s c hv hy (deadEnd_some rel c cfg hcfg hd)
  stored s c hv hy hd := by
    rw [ofTask_solvable hwf u ct hv]
    refine hs s c hv hy ?_
    by_contra hn
    have := stored_of_finite rel c cfg hcfg hun (fun ev hev h => hn ⟨ev, hev, h⟩)
    omega

section
variable {σ : Type} {t : Task} (hwf : t.WF) (u : Nat → Nat → Bool) (ct : CostType) {E : LEnv State σ} (hL : E.Legal (World.ofTask t u ct))
  (H : StdHeap (State × Nat)) (rel : Nat → Bool) (opts : LOptions) (cfg : Cfg) (rng : Rng) (env : σ) (hcfg : Spec.WF cfg)
include hwf hL hcfg

/-- C25: a reported solution is a plan of the task. -/
theorem C25_lazy_sound {n : Nat} {π : List Nat} (h : Lazy.search (World.ofTask t u ct) E H rel opts cfg rng env n = some (.solved π)) : t.IsPlan π :=
  (ofTask_isPlan hwf u ct).mp (lazy_solved (ofTask_total hwf u ct) hL (bagSpec H rel cfg hcfg) h).1

/-- C25: if the search fails, infinite values are given only to dead ends and the bound is
irrelevant, then there is no plan. -/
theorem C25_lazy_complete (hun : Spec.Unrestricted cfg) (hsafe : E.SafeFor t (Spec.evaluators cfg)) (hb : t.BoundIrrelevant ct opts.bound) {n : Nat}
    (h : Lazy.search (World.ofTask t u ct) E H rel opts cfg rng env n = some .failed) : ¬ ∃ π, t.IsPlan π := by
  obtain ⟨infos, h1, h2⟩ := lazy_failed (ofTask_total hwf u ct) hL (bagSpec H rel cfg hcfg) (lsafe_of hwf hcfg hun hsafe) h
  have := h2.unsolvable h1 (unbounded_of hwf hb)
  rwa [ofTask_solvable hwf u ct (by exact hwf.init)] at this

/-- C25 with a bound: with reopening and cost_type normal, failure means that every plan
reaches the bound. -/
theorem C25_lazy_complete_bound (hct : ct = .normal) (hun : Spec.Unrestricted cfg) (hsafe : E.SafeFor t (Spec.evaluators cfg)) (hre : opts.reopen = true) {n : Nat}
    (h : Lazy.search (World.ofTask t u ct) E H rel opts cfg rng env n = some .failed) {π : List Nat} (hπ : t.IsPlan π) : opts.bound ≤ t.planCost π := by
  subst hct
  obtain ⟨infos, h1, h2⟩ := lazy_failed (ofTask_total hwf u .normal) hL (bagSpec H rel cfg hcfg) (lsafe_of hwf hcfg hun hsafe) h
  have := h2.bounded h1 hre adj_normal ((ofTask_isPlan hwf u .normal).mpr hπ)
  rwa [ofTask_cost] at this

/-- C25, termination: after finitely many steps the search is no longer in progress, whatever
the evaluators return. -/
theorem C25_lazy_terminates : ∃ n, ∀ st, Lazy.search (World.ofTask t u ct) E H rel opts cfg rng env n ≠ some (.inProgress st) :=
  lazy_terminates (ofTask_total hwf u ct) hL (bagSpec H rel cfg hcfg) (states := Task.states t) (fun _ hs => mem_states.mpr hs) rng env

/-- C25: if evaluators return and costs fit into the C++ types, no operation of the search
goes wrong. -/
theorem C25_lazy_defined (hT : E.Total) (hfit : t.FitsTypes ct) (n : Nat) : Lazy.search (World.ofTask t u ct) E H rel opts cfg rng env n ≠ none :=
  lazy_defined (ofTask_total hwf u ct) hL (bagSpec H rel cfg hcfg) hT (noOverflow_of hwf hfit) rng env n

/-- C25: under these conditions the search ends with "solved" or "failed". -/
theorem C25_lazy_ends (hT : E.Total) (hfit : t.FitsTypes ct) :
    ∃ n, Lazy.search (World.ofTask t u ct) E H rel opts cfg rng env n = some .failed ∨
      ∃ π, Lazy.search (World.ofTask t u ct) E H rel opts cfg rng env n = some (.solved π) := by
  obtain ⟨n, hn⟩ := C25_lazy_terminates hwf u ct hL H rel opts cfg rng env hcfg
  refine ⟨n, ?_⟩
  cases h : Lazy.search (World.ofTask t u ct) E H rel opts cfg rng env n with
  | none => exact absurd h (C25_lazy_defined hwf u ct hL H rel opts cfg rng env hcfg hT hfit n)
  | some r =>
    cases r with
    | inProgress st => exact absurd h (hn st)
    | solved π => exact Or.inr ⟨π, rfl⟩
    | failed => exact Or.inl rfl

/-- C25: hence a plan is found for every task that has one. -/
theorem C25_lazy_finds_plan (hun : Spec.Unrestricted cfg) (hsafe : E.SafeFor t (Spec.evaluators cfg)) (hb : t.BoundIrrelevant ct opts.bound) (hT : E.Total) (hfit : t.FitsTypes ct)
    (hsolv : ∃ π, t.IsPlan π) : ∃ n π, Lazy.search (World.ofTask t u ct) E H rel opts cfg rng env n = some (.solved π) ∧ t.IsPlan π := by
  obtain ⟨n, h | ⟨π, h⟩⟩ := C25_lazy_ends hwf u ct hL H rel opts cfg rng env hcfg hT hfit
  · exact absurd hsolv (C25_lazy_complete hwf u ct hL H rel opts cfg rng env hcfg hun hsafe hb h)
  · exact ⟨n, π, h, C25_lazy_sound hwf u ct hL H rel opts cfg rng env hcfg h⟩

/-- C24 for lazy search without reopening or with cost_type normal: a reported plan costs less
than the bound, or it is empty and the initial state is a goal state. -/
theorem C24_lazy_bound_partial (hst : opts.reopen = false ∨ ct = .normal) {n : Nat} {π : List Nat}
    (h : Lazy.search (World.ofTask t u ct) E H rel opts cfg rng env n = some (.solved π)) :
    (t.planCost π : Int) < opts.bound ∨ π = [] ∧ allHold t.goal t.init := by
  have hst' : Steady (World.ofTask t u ct) opts := by
    rcases hst with h | rfl
    · exact Or.inl h
    · exact Or.inr adj_normal
  rcases (lazy_solved (ofTask_total hwf u ct) hL (bagSpec H rel cfg hcfg) h).2 hst' with h | ⟨h, h'⟩
  · exact Or.inl h
  · exact Or.inr ⟨h, (ofTask_goal hwf u ct hwf.init).mp h'⟩

end

/-! ### C24 fails for lazy search with reopening and other cost types

An edge stays in the open list when its source is reopened with a path which is better under
the cost type but more expensive, and the bound is not tested when an edge is removed from the
open list. -/

/-- evaluators which return fixed values, as `plainEnv`; all operators are preferred -/
def plainLEnv (w : World State) (h : State → Int) (wt : Int) : LEnv State Unit where
  notifyInitial _ _ := ()
  notifyTransition _ _ _ _ := ()
  eval _ s g := (plainEnv h wt).eval () s g false
  progress _ _ := (false, ())
  preferredOps _ s _ := ((w.ops s).getD [], ())
  shuffle _ l := (l, ())
  evalEdge _ s g pref := (plainEnv h wt).eval () s g pref

/-- heuristic of the counterexample -/
def lazyBoundH (s : State) : Int := if s = [0] then 1 else if s = [3] then 2 else 0

/-- C24 does not hold for lazy search with reopening and cost_type one: with bound 12 a plan of
cost 15 is returned. -/
theorem C24_lazy_bound_fails : ∃ n π,
    Lazy.search (World.ofTask boundTask (fun _ _ => true) .one) (plainLEnv (World.ofTask boundTask (fun _ _ => true) .one) lazyBoundH 0) (sortHeap (State × Nat)) (fun _ => true)
      ⟨true, 12, false, false⟩ (.bestFirst false 0) ⟨fun _ => 0, 0⟩ () n = some (.solved π) ∧ boundTask.planCost π = 15 := by
  refine ⟨7, [1, 5, 4], lazyProbe_solved (n := 6) ?_, by decide⟩
  rw [sortedWorld_eq (by decide)]
  decide +kernel

/-! ### non-vacuity -/

section
variable {w : World State} {h : State → Int} (h0 : ∀ s, 0 ≤ h s) (wt : Nat) (h1 : ∀ s, wt * h s < 2 ^ 30)

theorem plainLEnv_evals {s : State} {g : Int} {c : Ctx} (hy : (plainLEnv w h wt).Evals s g c ∨ (plainLEnv w h wt).EdgeEvals s g c) : (plainEnv h wt).Yields s g c := by
  rcases hy with ⟨env, env', he⟩ | ⟨env, pref, env', he⟩
  · exact Or.inl ⟨(), false, env', he⟩
  · exact Or.inl ⟨(), pref, env', he⟩

include h0 in
theorem plainLEnv_legal : (plainLEnv w h wt).Legal w where
  edge s g c hc := (plainEnv_legal h0 wt).1 s g c (by simpa [Env.Evals] using plainLEnv_evals (w := w) wt (Or.inr hc) |>.elim id (fun ⟨_, _, h⟩ => by simp [plainEnv] at h))
  preferred env s g ops hops o ho := by simpa [plainLEnv, hops] using ho
  shuffle env l := List.Perm.refl _

include h1 in
theorem plainLEnv_total : (plainLEnv w h wt).Total :=
  ⟨fun _ s g a b => plainEnv_total_eval wt h1 s g false a b, fun _ s g pref a b => plainEnv_total_eval wt h1 s g pref a b⟩

theorem plainLEnv_safe {t : Task} (hinf : ∀ s, h s < infty) (evs : List Nat) : (plainLEnv w h wt).SafeFor t evs := by
  rintro s c hs ⟨g, hg, hy⟩ ⟨ev, _, he⟩
  obtain ⟨k1, k2, k3⟩ := plainEnv_yields wt (plainLEnv_evals wt hy)
  rw [k3] at he
  have := hinf s
  split at he <;> omega

end

/-- lazy search with preferred operators first, an alternation open list and reopening solves
the task -/
example : ∃ n π, Lazy.search (World.ofTask boundTask (fun _ _ => true) .plusone) (plainLEnv (World.ofTask boundTask (fun _ _ => true) .plusone) exH 1) (sortHeap (State × Nat)) (fun _ => true)
      ⟨true, 2147483647, true, true⟩ (.alternation 1000 [.bestFirst false 0, .tiebreaking false false [0, 1]]) ⟨fun _ => 0, 0⟩ () n = some (.solved π) ∧ boundTask.IsPlan π := by
  refine C25_lazy_finds_plan boundTask_wf _ .plusone (plainLEnv_legal exH_nonneg 1) _ _ _ _ _ () (by simp [Spec.WF, Spec.WFAll]) (by simp [Spec.Unrestricted, Spec.UnrestrictedAny])
    (plainLEnv_safe 1 (fun s => by have := exH_small s; unfold infty; omega) _) (Or.inr ⟨5, boundTask_cost, by decide⟩)
    (plainLEnv_total 1 (fun s => by have := exH_small s; omega)) (boundTask_fits _) ⟨_, boundTask_plan⟩

/-- and respects the bound with cost_type normal -/
example : ∃ n π, Lazy.search (World.ofTask boundTask (fun _ _ => true) .normal) (plainLEnv (World.ofTask boundTask (fun _ _ => true) .normal) lazyBoundH 0) (sortHeap (State × Nat)) (fun _ => true)
      ⟨true, 12, false, false⟩ (.bestFirst false 0) ⟨fun _ => 0, 0⟩ () n = some (.solved π) := by
  refine ⟨7, [0, 2, 3, 4], lazyProbe_solved (n := 6) ?_⟩
  rw [sortedWorld_eq (by decide)]
  decide +kernel

/-- an unsolvable task -/
example : (match Lazy.search (World.ofTask deadTask (fun _ _ => true) .normal) (plainLEnv (World.ofTask deadTask (fun _ _ => true) .normal) exH 1) (sortHeap (State × Nat)) (fun _ => true)
      ⟨true, 2147483647, true, true⟩ (.tiebreaking false false [1, 0]) ⟨fun _ => 0, 0⟩ () 3 with | some .failed => true | _ => false) = true := by
  rw [sortedWorld_eq (by decide)]
  decide +kernel

end Verif.Search
