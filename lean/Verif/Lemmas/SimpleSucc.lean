import Verif.Lemmas.TaskWorld
import Verif.Spec.Pdb

/-
Successors in tasks without axioms and conditional effects; projections of tasks.
-/
namespace Verif
open Verif.Search

/-- successors in tasks without axioms and conditional effects -/
theorem succ_simple {t : Task} (hwf : t.WF) (hax : t.axioms = []) {o : Operator} (hc : ∀ e ∈ o.effects, e.conds = []) (hn : (o.effects.map (·.fact.var)).Nodup) {s s' : State} (h : t.SuccRel o s s') :
    s'.length = s.length ∧ (∀ e ∈ o.effects, e.fact.var < s.length → s'[e.fact.var]? = some e.fact.val) ∧ (∀ v : Nat, (∀ e ∈ o.effects, e.fact.var ≠ v) → s'[v]? = s[v]?) := by
  obtain ⟨m, h1, h2⟩ := h
  have hm : ∀ v : Nat, s'[v]? = m[v]? := fun v => h2.base v (hwf.ax.someAxioms hax v)
  refine ⟨h2.length.trans h1.1, ?_, ?_⟩
  · intro e he hv
    rw [hm, h1.2 _ s[e.fact.var] (List.getElem?_eq_getElem hv)]
    have hmem : e ∈ o.effects.filter (fun e' => decide (e'.fires s) && e'.fact.var == e.fact.var) := by
      simp only [List.mem_filter, Bool.and_eq_true, decide_eq_true_eq, beq_self_eq_true, and_true]
      refine ⟨he, ?_⟩
      unfold Effect.fires
      rw [hc e he]
      simp [allHold]
    have hne : o.effects.filter (fun e' => decide (e'.fires s) && e'.fact.var == e.fact.var) ≠ [] := List.ne_nil_of_mem hmem
    obtain ⟨e', he'⟩ := Option.isSome_iff_exists.mp (List.getLast?_isSome.mpr hne)
    have hmem' := List.mem_of_getLast? he'
    simp only [List.mem_filter, Bool.and_eq_true, decide_eq_true_eq, beq_iff_eq] at hmem'
    have : e' = e := List.inj_on_of_nodup_map hn hmem'.1 he hmem'.2.2
    subst this
    simp [Operator.assigned, he']
  · intro v hv
    rw [hm]
    have hnil : o.effects.filter (fun e' => decide (e'.fires s) && e'.fact.var == v) = [] := by
      rw [List.filter_eq_nil_iff]
      intro e he
      simp [hv e he]
    by_cases hlt : v < s.length
    · rw [h1.2 v s[v] (List.getElem?_eq_getElem hlt), List.getElem?_eq_getElem hlt]
      simp [Operator.assigned, hnil]
    · rw [List.getElem?_eq_none (by rw [h1.1]; omega), List.getElem?_eq_none (by omega)]

/-- an operator of the projection -/
def Operator.project (o : Operator) (P : List Nat) : Operator :=
  { o with pre := o.pre.filter (fun f => decide (f.var ∈ P)), effects := o.effects.filter (fun e => decide (e.fact.var ∈ P)) }

theorem project_ops (t : Task) (P : List Nat) (i : Nat) : (t.project P).ops[i]? = (t.ops[i]?).map (fun o => o.project P) := by
  simp only [Task.project, List.getElem?_map]
  rfl

theorem project_mem {t : Task} {P : List Nat} {o' : Operator} (h : o' ∈ (t.project P).ops) : ∃ o ∈ t.ops, o' = o.project P := by
  simp only [Task.project, List.mem_map] at h
  obtain ⟨o, h1, h2⟩ := h
  exact ⟨o, h1, h2.symm⟩

theorem project_wf {t : Task} (h : t.WF) (P : List Nat) : (t.project P).WF where
  ax := ⟨h.ax.single, h.ax.headDerived, h.ax.headNonDefault, h.ax.oneValue, h.ax.validHead, h.ax.validBody, h.ax.someAxioms, h.ax.validDefault, h.ax.stratPos, h.ax.stratNeg⟩
  domains := h.domains
  init := h.init
  effFact o' ho' e he := by
    obtain ⟨o, ho, rfl⟩ := project_mem ho'
    exact h.effFact o ho e (List.mem_of_mem_filter he)
  effCond o' ho' e he := by
    obtain ⟨o, ho, rfl⟩ := project_mem ho'
    exact h.effCond o ho e (List.mem_of_mem_filter he)
  pre o' ho' f hf := by
    obtain ⟨o, ho, rfl⟩ := project_mem ho'
    exact h.pre o ho f (List.mem_of_mem_filter hf)
  goalFacts f hf := h.goalFacts f (List.mem_of_mem_filter hf)

theorem project_valid {t : Task} {P : List Nat} {s : State} : (t.project P).ValidState s ↔ t.ValidState s := Iff.rfl

/-- there is a successor -/
theorem exists_succ {t : Task} (hwf : t.WF) {s : State} (hs : t.ValidState s) {o : Operator} (ho : o ∈ t.ops) : ∃ s', t.ValidState s' ∧ t.SuccRel o s s' := by
  obtain ⟨s', h1, h2, h3⟩ := Registry.unregistered_spec hwf ho hs
  exact ⟨s', h2, h3⟩

/-- successors are valid -/
theorem succ_valid {t : Task} (hwf : t.WF) {s s' : State} (hs : t.ValidState s) {i : Nat} {o : Operator} (ho : t.ops[i]? = some o) (ha : o.applicable s) (h : t.SuccRel o s s') : t.ValidState s' :=
  exec_valid hwf hs (.cons s i o s' [] s' ho ha h (.nil s'))

end Verif
