import Verif.Lemmas.DomAbsTask
import Verif.Lemmas.SimpleTask

/-
C45: domain abstraction.
-/
namespace Verif.DomAbs

variable {t t' : Task} {vg : VarToGroups} {conv : State → Option State}

/-- C45: for legal groups of values (and tasks without axioms and conditional effects) the abstracted task is computed.  It is the task with renamed values, and two values get the same name if
and only if they belong to the same group.  States are converted by renaming their values. -/
theorem C45_abstraction (hwf : t.WF) (hax : t.axioms = []) (hc : ∀ o ∈ t.ops, ∀ e ∈ o.effects, e.conds = []) (hk : KeysOk t vg) (hl : LegalGroups t (groupsOf vg)) :
    ∃ t' conv α, abstractTask t vg = some (t', conv) ∧ DomainAbstraction t α t' ∧ (∀ s, t.ValidState s → conv s = some (renameState α s)) ∧
      ∀ (v : Nat) (d : Variable), t.vars[v]? = some d → ∀ x y, x < d.domain → y < d.domain → (α v x = α v y ↔ x = y ∨ ∃ g ∈ groupsOf vg v, x ∈ g ∧ y ∈ g) :=
  abstractTask_spec hwf hax hc hk hl

/-- C45: every plan for a state of the task is a plan for the converted state in the abstracted task, with the same operators and the same cost; in particular every plan of the task is a plan of
the abstracted task. -/
theorem C45_plans (hwf : t.WF) (hax : t.axioms = []) (hc : ∀ o ∈ t.ops, ∀ e ∈ o.effects, e.conds = []) (hk : KeysOk t vg) (hl : LegalGroups t (groupsOf vg)) (h : abstractTask t vg = some (t', conv)) :
    (∀ s, t.ValidState s → ∃ s', conv s = some s' ∧ t'.ValidState s' ∧ ∀ π, t.SolvesFrom s π → t'.SolvesFrom s' π ∧ t'.planCost π = t.planCost π) ∧ ∀ π, t.IsPlan π → t'.IsPlan π := by
  obtain ⟨t2, conv2, α, k1, k2, k3, _⟩ := abstractTask_spec hwf hax hc hk hl
  rw [h] at k1
  simp at k1
  obtain ⟨rfl, rfl⟩ := k1
  have hsolve : ∀ s π, t.SolvesFrom s π → t'.SolvesFrom (renameState α s) π := by
    rintro s π ⟨u, hu, hg⟩
    exact ⟨_, k2.exec hwf hax hc hu, by rw [k2.goal]; exact allHold_rename hg⟩
  have hcost : ∀ i, t'.opCost i = t.opCost i := by
    intro i
    unfold Task.opCost
    rw [k2.ops, List.getElem?_map]
    cases t.ops[i]? <;> rfl
  refine ⟨fun s hs => ⟨_, k3 s hs, k2.validState hs, fun π hπ => ⟨hsolve s π hπ, ?_⟩⟩, fun π hπ => ?_⟩
  · unfold Task.planCost
    congr 1
    exact List.map_congr_left (fun i _ => hcost i)
  · have := hsolve _ π hπ
    rw [← k2.init] at this
    exact this

/-- C45: tasks with axioms and tasks with conditional effects are rejected. -/
theorem C45_rejected (h : t.axioms ≠ [] ∨ ∃ o ∈ t.ops, ∃ e ∈ o.effects, e.conds ≠ []) : abstractTask t vg = none := by
  unfold abstractTask
  rw [if_neg]
  rintro ⟨h1, h2⟩
  rcases h with h | ⟨o, ho, e, he, hne⟩
  · exact h h1
  · simp only [List.all_eq_true, decide_eq_true_eq] at h2
    exact hne (h2 o ho e he)

/-! ### Non-vacuity -/

/-- a counter from 0 to 5 and a switch -/
def exDom : Task where
  vars := [⟨6, none, 0⟩, ⟨2, none, 0⟩]
  ops := [⟨[⟨0, 0⟩], [⟨[], ⟨0, 1⟩⟩], 1⟩, ⟨[⟨0, 1⟩], [⟨[], ⟨0, 2⟩⟩], 1⟩, ⟨[⟨0, 2⟩], [⟨[], ⟨0, 3⟩⟩], 1⟩, ⟨[⟨0, 3⟩, ⟨1, 1⟩], [⟨[], ⟨0, 5⟩⟩], 4⟩, ⟨[], [⟨[], ⟨1, 1⟩⟩], 2⟩]
  axioms := []
  init := [0, 0]
  goal := [⟨0, 5⟩]

/-- 1 and 3 become one value, 2 and 4 another one -/
def exGroups : VarToGroups := [(0, [[1, 3], [4, 2]])]

theorem exDom_legal : exDom.WF ∧ KeysOk exDom exGroups ∧ LegalGroups exDom (groupsOf exGroups) := by
  have hg : ∀ v, groupsOf exGroups v = if v = 0 then [[1, 3], [4, 2]] else [] := by
    intro v
    by_cases h : v = 0
    · subst h; rfl
    · have : (v == 0) = false := by simpa using h
      simp [groupsOf, exGroups, List.lookup, this, h]
  refine ⟨Search.taskOK_wf (by decide), by unfold KeysOk; decide, ⟨fun v h => ?_, fun v d hd => ?_, fun v => ?_, fun v => ?_⟩⟩
  all_goals
    first
    | rw [hg] at h
    | rw [hg]
    by_cases hv : v = 0
    · subst hv
      try simp [exDom] at hd
      try subst hd
      decide
    · simp [hv] at *

example : (abstractTask exDom exGroups).map (fun r => (r.1.vars.map (·.domain), r.1.goal, r.2 [3, 1])) = some ([4, 2], [⟨0, 1⟩], some [2, 1]) := by decide
example : (abstractTask exDom exGroups).map (fun r => r.1.ops.map (fun o => (o.pre, o.effects.map (·.fact)))) =
    some [([⟨0, 0⟩], [⟨0, 2⟩]), ([⟨0, 2⟩], [⟨0, 3⟩]), ([⟨0, 3⟩], [⟨0, 2⟩]), ([⟨0, 2⟩, ⟨1, 1⟩], [⟨0, 1⟩]), ([], [⟨1, 1⟩])] := by decide

end Verif.DomAbs
