import Verif.Lemmas.EagerAbstract
import Verif.Lemmas.TaskWorld

/- Running eager search on concrete tasks inside the kernel. -/
namespace Verif.Search
open Verif.OpenList

variable {S σ : Type} [DecidableEq S]

/-- trace_path with a limit on the number of iterations -/
def traceFuel (infos : S → NodeInfo S) : Nat → S → List Nat → Option (List Nat)
  | 0, _, _ => none
  | n + 1, s, path =>
    match (infos s).op with
    | none => some path
    | some o =>
      match (infos s).parent with
      | none => none
      | some p => traceFuel infos n p (path ++ [o])

theorem traceFuel_eq (infos : S → NodeInfo S) : ∀ (n : Nat) (s : S) (path r : List Nat), traceFuel infos n s path = some r → traceLoop infos s path = some r
  | 0, s, path, r, h => by simp [traceFuel] at h
  | n + 1, s, path, r, h => by
    rw [traceLoop]
    simp only [traceFuel] at h
    cases ho : (infos s).op with
    | none => rw [ho] at h; exact h
    | some o =>
      rw [ho] at h
      simp only at h ⊢
      cases hp : (infos s).parent with
      | none => rw [hp] at h; simp at h
      | some p => rw [hp] at h; exact traceFuel_eq infos n p _ r h

/-- the state in which a search is after `n` steps: the plan it would report when the next
state removed from the open list is a goal state -/
def probe (w : World S) (H : StdHeap S) : Option (Res (Eager S σ)) → Option (List Nat)
  | some (.inProgress st) =>
    if st.openList.empty then none
    else
      match st.openList.removeMin H st.rng with
      | none => none
      | some (s, _, _) =>
        if (st.infos s).status = .opened ∧ 0 ≤ (st.infos s).g ∧ w.goal s = some true then
          (traceFuel (upd st.infos s { st.infos s with status := .closed }) 100 s []).map List.reverse
        else none
  | _ => none

theorem runFor_succ {σ : Type} (step : σ → Option (Res σ)) : ∀ (n : Nat) (st st' : σ), runFor step n st = some (.inProgress st') → runFor step (n + 1) st = runFor step 1 st'
  | 0, st, st', h => by
    simp only [runFor, Option.some.injEq, Res.inProgress.injEq] at h
    subst h; rfl
  | n + 1, st, st', h => by
    rw [runFor]
    rw [runFor] at h
    cases hs : step st with
    | none => rw [hs] at h; simp at h
    | some r =>
      rw [hs] at h
      cases r with
      | inProgress st1 => exact runFor_succ step n st1 st' h
      | solved π => simp at h
      | failed => simp at h

theorem probe_solved {w : World S} {E : Env S σ} {H : StdHeap S} {rel : Nat → Bool} {opts : Options} {cfg : Cfg} {rng : Rng} {env : σ} {n : Nat} {π : List Nat}
    (hlz : E.lazyEvaluator = none) (h : probe w H (Eager.search w E H rel opts cfg rng env n) = some π) :
    Eager.search w E H rel opts cfg rng env (n + 1) = some (.solved π) := by
  unfold Eager.search at h ⊢
  cases hi : Eager.initialize w E H rel cfg rng env with
  | none => rw [hi] at h; simp [probe] at h
  | some st0 =>
    rw [hi] at h
    simp only at h ⊢
    cases hr : runFor (Eager.step w E H rel opts) n st0 with
    | none => rw [hr] at h; simp [probe] at h
    | some r =>
      rw [hr] at h
      cases r with
      | solved π => simp [probe] at h
      | failed => simp [probe] at h
      | inProgress st =>
        rw [runFor_succ _ _ _ _ hr]
        simp only [probe] at h
        simp only [runFor, Eager.step]
        by_cases he : st.openList.empty = true
        · simp [he] at h
        simp only [he] at h ⊢
        cases hm : st.openList.removeMin H st.rng with
        | none => simp [hm] at h
        | some x =>
          obtain ⟨s, ol, rng'⟩ := x
          simp only [hm] at h ⊢
          by_cases hc : (st.infos s).status = .opened ∧ 0 ≤ (st.infos s).g ∧ w.goal s = some true
          case neg => simp [hc] at h
          obtain ⟨h1, h2, h3⟩ := hc
          simp only [h1, h2, h3, and_self, if_true] at h
          have hb : (false = true) = False := by simp
          rw [if_neg (by simp)]
          simp only [Eager.popped, h1, reduceCtorEq, if_false, NodeInfo.getG, h2, if_true, hlz, Eager.closeAndExpand, closeNode, h3]
          obtain ⟨p, h4, rfl⟩ := Option.map_eq_some_iff.mp h
          rw [tracePath, traceFuel_eq _ _ _ _ _ h4]
          rfl

/-- the operators with their preconditions, as listed in the task -/
def opInfos (t : Task) : List SuccGen.OpInfo := t.ops.zipIdx.map (fun p => ⟨p.2, p.1.pre⟩)

/-- nothing needs to be sorted when the successor generator is built -/
def PreSorted (t : Task) : Prop :=
  (∀ o ∈ t.ops, o.pre.Pairwise (fun a b => (!SuccGen.factLt b a) = true)) ∧ (opInfos t).Pairwise (fun a b => (!SuccGen.lexLt b.pre a.pre) = true)

instance (t : Task) : Decidable (PreSorted t) := inferInstanceAs (Decidable (_ ∧ _))

/-- the world of such a task, without sorting -/
def sortedWorld (t : Task) (u : Nat → Nat → Bool) (ct : CostType) : World State :=
  { World.ofTask t u ct with
    ops := fun s => (SuccGen.constructRecursive t u ((t.ops.map (·.pre.length)).foldl max 0 + 1) 0 (opInfos t)).bind (fun g => SuccGen.gen s g []) }

theorem sortedWorld_eq {t : Task} (h : PreSorted t) (u : Nat → Nat → Bool) (ct : CostType) : World.ofTask t u ct = sortedWorld t u ct := by
  have h1 : t.ops.zipIdx.map (fun p => (⟨p.2, SuccGen.buildSortedPrecondition p.1⟩ : SuccGen.OpInfo)) = opInfos t := by
    unfold opInfos
    refine List.map_congr_left (fun p hp => ?_)
    unfold SuccGen.buildSortedPrecondition
    rw [List.mergeSort_of_pairwise (h.1 p.1 (List.fst_mem_of_mem_zipIdx hp))]
  have h2 : ∀ s, SuccGen.generateApplicableOps t u s [] =
      (SuccGen.constructRecursive t u ((t.ops.map (·.pre.length)).foldl max 0 + 1) 0 (opInfos t)).bind (fun g => SuccGen.gen s g []) := by
    intro s
    unfold SuccGen.generateApplicableOps SuccGen.create
    simp only [h1]
    rw [List.mergeSort_of_pairwise h.2]
  unfold sortedWorld World.ofTask
  simp only [h2]

end Verif.Search
