import Verif.Props.TaskReader
import Verif.Spec.SasPlans
import Verif.Lemmas.TaskEmbedding

/-
Axioms of valid tasks of the translator: layers, and values of derived variables exist.
-/
namespace Verif.SasFile

variable {T : SasTask}

theorem task_var {v : Nat} {d : Variable} : T.task.vars[v]? = some d ↔ ∃ (x : SasVariable) (i : Nat), T.variables[v]? = some x ∧ T.init[v]? = some i ∧ d = ⟨x.valueNames.length, x.layer, i⟩ := by
  simp only [SasTask.task, List.getElem?_map, Option.map_eq_some_iff, Prod.exists, List.getElem?_zip_eq_some]
  constructor
  · rintro ⟨x, i, ⟨h1, h2⟩, rfl⟩
    exact ⟨x, i, h1, h2, rfl⟩
  · rintro ⟨x, i, h1, h2, rfl⟩
    exact ⟨x, i, ⟨h1, h2⟩, rfl⟩

theorem task_layer (hT : T.init.length = T.variables.length) (v : Nat) : T.task.layerOf v = layerOf T v := by
  unfold Task.layerOf layerOf
  cases hx : T.variables[v]? with
  | none =>
    have : T.task.vars[v]? = none := by
      rw [List.getElem?_eq_none_iff] at hx ⊢
      simpa [SasTask.task, hT] using hx
    rw [this]
    rfl
  | some x =>
    have hlt := (List.getElem?_eq_some_iff.mp hx).1
    have e := List.getElem?_eq_getElem (show v < T.init.length by omega)
    rw [task_var.mpr ⟨x, _, hx, e, rfl⟩]
    rfl

theorem task_default {v i : Nat} (hT : T.init.length = T.variables.length) (hi : T.init[v]? = some i) : T.task.defaultOf v = i := by
  have hlt := (List.getElem?_eq_some_iff.mp hi).1
  have e := List.getElem?_eq_getElem (show v < T.variables.length by omega)
  unfold Task.defaultOf
  rw [task_var.mpr ⟨_, i, e, hi, rfl⟩]
  rfl

theorem mem_task_rules {r : Rule} : r ∈ T.task.rules ↔ ∃ a ∈ T.axioms, r = ⟨a.conds, a.effect⟩ := by
  simp only [Task.rules, SasTask.task, List.mem_flatMap, List.mem_map]
  constructor
  · rintro ⟨_, ⟨a, ha, rfl⟩, e, he, rfl⟩
    simp only [List.mem_singleton] at he
    subst he
    exact ⟨a, ha, rfl⟩
  · rintro ⟨a, ha, rfl⟩
    exact ⟨_, ⟨a, ha, rfl⟩, ⟨a.conds, a.effect⟩, by simp, rfl⟩

theorem task_stratified (hT : T.Valid) : Axioms.Stratified T.task where
  pos := by
    intro r hr c hc ℓc ℓh h1 h2
    obtain ⟨a, ha, rfl⟩ := mem_task_rules.mp hr
    rw [task_layer hT.init] at h1 h2
    obtain ⟨l, h3, h4⟩ := (hT.axioms a ha).derived
    simp only at h2
    rw [h3, Option.some.injEq] at h2
    subst h2
    exact (h4 c hc ℓc h1).1
  neg := by
    intro r hr c hc ℓc ℓh h1 h2 h5
    obtain ⟨a, ha, rfl⟩ := mem_task_rules.mp hr
    rw [task_layer hT.init] at h1 h2
    obtain ⟨l, h3, h4⟩ := (hT.axioms a ha).derived
    simp only at h2
    rw [h3, Option.some.injEq] at h2
    subst h2
    obtain ⟨h6, h7⟩ := h4 c hc ℓc h1
    rcases Nat.lt_or_ge ℓc l with h | h
    · exact h
    · have heq : ℓc = l := by omega
      obtain ⟨x, hx, _⟩ := (hT.axioms a ha).conds.1 c hc
      have hlt := (List.getElem?_eq_some_iff.mp hx).1
      have e := List.getElem?_eq_getElem (show c.var < T.init.length by rw [hT.init]; exact hlt)
      rw [task_default hT.init e] at h5
      exact absurd (by rw [e, h5]) (h7 heq)

/-- the axioms give values to derived variables -/
theorem exists_stable (hT : T.Valid) (m : State) (hm : T.task.ValidState m) : ∃ s, StableModel T.task m s := by
  by_cases hax : T.axioms = []
  · have hno : ∀ (s : State) neg f, ¬ Derives T.task s neg f := by
      intro s neg f h
      cases h with
      | rule r hr _ _ _ =>
        obtain ⟨a, ha, _⟩ := mem_task_rules.mp hr
        rw [hax] at ha
        simp at ha
    have hget : ∀ v, (m.zipIdx.map (fun p => if T.task.layerOf p.2 ≠ none then T.task.defaultOf p.2 else p.1))[v]? = (m[v]?).map (fun x => if T.task.layerOf v ≠ none then T.task.defaultOf v else x) := by
      intro v
      rw [List.getElem?_map, List.getElem?_zipIdx]
      cases m[v]? <;> simp
    have hlay : ∀ v, T.task.layerOf v ≠ none → ∃ x, m[v]? = some x := by
      intro v hv
      refine ⟨_, List.getElem?_eq_getElem (?_ : v < m.length)⟩
      rw [hm.1]
      by_contra hn
      rw [Task.layerOf, List.getElem?_eq_none (by omega)] at hv
      simp at hv
    refine ⟨m.zipIdx.map (fun p => if T.task.layerOf p.2 ≠ none then T.task.defaultOf p.2 else p.1), by simp, ?_, ?_, ?_⟩
    · intro v hv
      rw [hget]
      simp [hv]
    · intro f hl hd
      refine ⟨fun h => ?_, fun h => absurd h (hno _ _ _)⟩
      rw [Fact.holds, hget] at h
      obtain ⟨x, hx⟩ := hlay _ hl
      rw [hx, Option.map_some, if_pos hl, Option.some.injEq] at h
      exact absurd h.symm hd
    · intro v hl
      refine ⟨fun _ => ?_, fun _ x _ => hno _ _ _⟩
      obtain ⟨x, hx⟩ := hlay _ hl
      rw [hget, hx, Option.map_some, if_pos hl]
  · have hread := readSections_ok hT
    have hok := safe_sections (at' (output T)) rfl
    rw [hread] at hok
    have hwa := wfAxioms_root hok.2 (fun h => absurd h (by simp [rootOf_task, SasTask.task, hax]))
    rw [rootOf_task] at hwa
    obtain ⟨s, _, _, h, _⟩ := Axioms.C09_axiom_evaluation hwa hm
    exact ⟨s, h⟩

end Verif.SasFile
