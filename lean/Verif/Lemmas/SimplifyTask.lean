import Verif.Lemmas.SimplifySim
import Verif.Lemmas.SasStable

/-
The new task of src/translate/simplify.py.
-/
namespace Verif.Simplify
open Verif.SasFile
open Verif.Mas (mapAll)

/-! ### numbers of operators that are kept -/

section
variable {α β : Type} (g : α → Option β)

def keepIdx (l : List α) (i : Nat) : Option Nat :=
  match (l[i]?).bind g with
  | none => none
  | some _ => some ((l.take i).filterMap g).length

theorem keepIdx_get {l : List α} {i j : Nat} (h : keepIdx g l i = some j) : ∃ a b, l[i]? = some a ∧ g a = some b ∧ (l.filterMap g)[j]? = some b := by
  unfold keepIdx at h
  cases hb : (l[i]?).bind g with
  | none => simp [hb] at h
  | some b =>
    simp only [hb, Option.some.injEq] at h
    obtain ⟨a, ha, hga⟩ := Option.bind_eq_some_iff.mp hb
    refine ⟨a, b, ha, hga, ?_⟩
    obtain ⟨hlt, hget⟩ := List.getElem?_eq_some_iff.mp ha
    have : l = l.take i ++ a :: l.drop (i + 1) := by
      rw [← hget, List.getElem_cons_drop hlt, List.take_append_drop]
    conv_lhs => rw [this]
    rw [List.filterMap_append, List.filterMap_cons, hga, ← h, List.getElem?_append_right (by omega)]
    simp

theorem keepIdx_none {l : List α} {i : Nat} {a : α} (h : keepIdx g l i = none) (ha : l[i]? = some a) : g a = none := by
  unfold keepIdx at h
  cases hb : (l[i]?).bind g with
  | none => simpa [ha] using hb
  | some b => simp [hb] at h

theorem keepIdx_surj : ∀ {l : List α} {j : Nat} {b : β}, (l.filterMap g)[j]? = some b → ∃ (i : Nat) (a : α), l[i]? = some a ∧ g a = some b ∧ keepIdx g l i = some j
  | [], j, b, h => by simp at h
  | a :: l, j, b, h => by
    rw [List.filterMap_cons] at h
    cases ha : g a with
    | none =>
      simp only [ha] at h
      obtain ⟨i, a', h1, h2, h3⟩ := keepIdx_surj h
      refine ⟨i + 1, a', by simpa using h1, h2, ?_⟩
      unfold keepIdx at h3 ⊢
      simp only [List.getElem?_cons_succ, List.take_succ_cons, List.filterMap_cons, ha]
      exact h3
    | some c =>
      simp only [ha] at h
      cases j with
      | zero =>
        simp only [List.getElem?_cons_zero, Option.some.injEq] at h
        exact ⟨0, a, rfl, by rw [ha, h], by simp [keepIdx, ha]⟩
      | succ j =>
        obtain ⟨i, a', h1, h2, h3⟩ := keepIdx_surj (l := l) (j := j) (by simpa using h)
        refine ⟨i + 1, a', by simpa using h1, h2, ?_⟩
        unfold keepIdx at h3 ⊢
        simp only [List.getElem?_cons_succ, List.take_succ_cons, List.filterMap_cons, ha, List.length_cons]
        cases hb : (l[i]?).bind g with
        | none => simp [hb] at h3
        | some y =>
          simp only [hb, Option.some.injEq] at h3 ⊢
          omega

end

theorem mapAll_map {α β : Type} {f : α → Option β} {h : α → β} : ∀ {l : List α}, (∀ a ∈ l, f a = some (h a)) → mapAll f l = some (l.map h)
  | [], _ => rfl
  | a :: l, hl => by simp [mapAll, hl a (by simp), mapAll_map (l := l) (fun a ha => hl a (by simp [ha]))]

section
variable {T : SasTask} {R : Renaming}

/-! ### variables -/

theorem newVariable_length {x : SasVariable} {r : Option Nat × List NewValue} (h : r.2.length = x.valueNames.length) :
    (((x.valueNames.zip r.2).filter (fun p => isValue p.2)).map (·.1)).length = (r.2.filter isValue).length := by
  rw [List.length_map]
  have : ((x.valueNames.zip r.2).filter (fun p => isValue p.2)).map (·.2) = r.2.filter isValue := by
    have h2 : (x.valueNames.zip r.2).map (·.2) = r.2 := List.map_snd_zip (by omega)
    conv_rhs => rw [← h2]
    rw [List.filter_map]
    rfl
  rw [← this, List.length_map]

theorem newVariable_eq {x : SasVariable} {r : Option Nat × List NewValue} {k : Nat} (h : r.1 = some k) :
    newVariable x r = some ⟨x.layer, ((x.valueNames.zip r.2).filter (fun p => isValue p.2)).map (·.1)⟩ := by
  unfold newVariable
  rw [h]

theorem newVariables_hyp (hG : Good T R) : ∀ (i : Nat) r x, R[i]? = some r → T.variables[i]? = some x →
    ((fun (i : Nat) (x : SasVariable) => match R[i]? with | none => none | some r => newVariable x r) (0 + i) x).isSome = r.1.isSome := by
  intro i r x hr hx
  simp only [Nat.zero_add, hr]
  unfold newVariable
  cases r.1 <;> rfl

theorem newVariables_length (hG : Good T R) : (newVariables R T.variables).length = (R.filter (fun r => r.1.isSome)).length :=
  Numbered.length (fun (i : Nat) (x : SasVariable) => match R[i]? with | none => none | some r => newVariable x r) hG.length.symm (newVariables_hyp hG)

theorem newVariables_get (hG : Good T R) {v k : Nat} {x : SasVariable} {r : Option Nat × List NewValue} (hx : T.variables[v]? = some x) (hr : R[v]? = some r) (hk : r.1 = some k) :
    (newVariables R T.variables)[k]? = some ⟨x.layer, ((x.valueNames.zip r.2).filter (fun p => isValue p.2)).map (·.1)⟩ := by
  have := Numbered.get (fun (i : Nat) (x : SasVariable) => match R[i]? with | none => none | some r => newVariable x r) hG.numbered hG.length.symm (newVariables_hyp hG) hr hk hx
  simp only [Nat.sub_zero, Nat.zero_add, hr, newVariable_eq hk] at this
  exact this

theorem idx_surj (hG : Good T R) {k : Nat} (hk : k < (newVariables R T.variables).length) : ∃ v, (emb T R).idx v = some k := by
  rw [newVariables_length hG] at hk
  obtain ⟨v, r, h1, h2⟩ := hG.numbered.surj k hk
  exact ⟨v, by simp [emb, h1, h2]⟩

/-- values of new variables -/
theorem rank_range (hG : Good T R) {v k x : Nat} (hi : (emb T R).idx v = some k) (hx : T.Reached v x) : ∃ y, (newVariables R T.variables)[k]? = some y ∧ (emb T R).rank v x < y.valueNames.length := by
  obtain ⟨w, r, h1, h2, h3, h4⟩ := idx_row hG hi
  obtain ⟨j, hj⟩ := (h4.value (by simp [h3])).2 x hx
  refine ⟨_, newVariables_get hG h1 h2 h3, ?_⟩
  rw [newVariable_length h4.length]
  have hrank : (emb T R).rank v x = j := by simp [emb, h2, hj]
  rw [hrank, h4.count x j hj]
  obtain ⟨hlt, hget⟩ := List.getElem?_eq_some_iff.mp hj
  have hsplit : r.2 = r.2.take x ++ .value j :: r.2.drop (x + 1) := by
    rw [← hget, List.getElem_cons_drop hlt, List.take_append_drop]
  have hfil : (r.2.filter isValue).length = ((r.2.take x).filter isValue).length + (1 + ((r.2.drop (x + 1)).filter isValue).length) := by
    conv_lhs => rw [hsplit]
    rw [List.filter_append, List.filter_cons, if_pos (show isValue (.value j) = true from rfl), List.length_append, List.length_cons]
    omega
  omega

theorem newVariables_two (hG : Good T R) {y : SasVariable} (hy : y ∈ newVariables R T.variables) : 2 ≤ y.valueNames.length ∧ ∃ x ∈ T.variables, x.layer = y.layer ∧ y.valueNames.length ≤ x.valueNames.length ∧ y.valueNames ⊆ x.valueNames := by
  obtain ⟨k, hk, hget⟩ := List.mem_iff_getElem.mp hy
  obtain ⟨v, hv⟩ := idx_surj hG hk
  obtain ⟨w, r, h1, h2, h3, h4⟩ := idx_row hG hv
  obtain ⟨⟨a, b, hab, ha, hb⟩, _⟩ := h4.value (by simp [h3])
  obtain ⟨y1, e1, l1⟩ := rank_range hG hv ha
  obtain ⟨y2, e2, l2⟩ := rank_range hG hv hb
  have e0 := List.getElem?_eq_getElem hk
  rw [hget] at e0
  rw [e0, Option.some.injEq] at e1 e2
  subst e1
  subst e2
  refine ⟨?_, w, List.mem_of_getElem? h1, ?_⟩
  · have : (emb T R).rank v a ≠ (emb T R).rank v b := fun h => hab (rank_inj hG hv ha hb h)
    omega
  · have := newVariables_get hG h1 h2 h3
    rw [e0, Option.some.injEq] at this
    rw [this]
    refine ⟨rfl, ?_, ?_⟩
    · rw [List.length_map]
      refine (List.length_filter_le _ _).trans ?_
      rw [List.length_zip]
      exact Nat.min_le_left _ _
    · intro n hn
      obtain ⟨⟨p, q⟩, hp, rfl⟩ := List.mem_map.mp hn
      exact (List.of_mem_zip (List.mem_of_mem_filter hp)).1

/-! ### initial values -/

theorem newInit_spec (hT : T.Valid) (hG : Good T R) : ∃ init', newInit R T.init = some init' ∧ init'.length = (newVariables R T.variables).length ∧
    ∀ v k i : Nat, (emb T R).idx v = some k → T.init[v]? = some i → init'[k]? = some ((emb T R).rank v i) := by
  have hmem : ∀ f ∈ (T.init.zipIdx).map (fun p => (⟨p.2, p.1⟩ : Fact)), T.init[f.var]? = some f.val := by
    intro f hf
    obtain ⟨⟨x, v⟩, h1, rfl⟩ := List.mem_map.mp hf
    have := List.mem_zipIdx_iff_getElem?.mp h1
    exact this
  have hconv : convertPairs R ((T.init.zipIdx).map (fun p => (⟨p.2, p.1⟩ : Fact))) = some (some (((T.init.zipIdx).map (fun p => (⟨p.2, p.1⟩ : Fact))).filterMap (emb T R).img)) := by
    rcases convertPairs_spec hG (fs := (T.init.zipIdx).map (fun p => (⟨p.2, p.1⟩ : Fact))) (fun f hf => hT.initOk _ _ (hmem f hf)) with ⟨_, h⟩ | ⟨⟨f, hf, hn⟩, _⟩
    · exact h
    · exact absurd (.init _ (hmem f hf)) hn
  have hlist : (((T.init.zipIdx).map (fun p => (⟨p.2, p.1⟩ : Fact))).filterMap (emb T R).img).map (·.val) = (T.init.zipIdx 0).filterMap (fun p => (fun (v x : Nat) => ((emb T R).img ⟨v, x⟩).map (·.val)) p.2 p.1) := by
    rw [List.filterMap_map, List.map_filterMap]
    rfl
  have hhyp : ∀ (i : Nat) r x, R[i]? = some r → T.init[i]? = some x → ((fun (v x : Nat) => ((emb T R).img ⟨v, x⟩).map (·.val)) (0 + i) x).isSome = r.1.isSome := by
    intro i r x hr _
    simp only [Nat.zero_add, Option.isSome_map, Emb.img]
    simp [emb, hr]
  have hlen : T.init.length = R.length := by rw [hT.init, hG.length]
  refine ⟨_, by simp only [newInit, hconv]; rfl, ?_, ?_⟩
  · rw [hlist, newVariables_length hG]
    exact Numbered.length (fun (v x : Nat) => ((emb T R).img ⟨v, x⟩).map (·.val)) hlen hhyp
  · intro v k i hi hv
    obtain ⟨w, r, h1, h2, h3, h4⟩ := idx_row hG hi
    rw [hlist]
    have := Numbered.get (fun (v x : Nat) => ((emb T R).img ⟨v, x⟩).map (·.val)) hG.numbered hlen hhyp h2 h3 hv
    simp only [Nat.sub_zero, Nat.zero_add] at this
    rw [this]
    simp [Emb.img, hi]

/-! ### mutexes and axioms -/

theorem mutexFact_spec (hG : Good T R) {f : Fact} (hf : FactOk T f) :
    (T.Reached f.var f.val ∧ mutexFact R f = some ((emb T R).img f)) ∨ (¬ T.Reached f.var f.val ∧ mutexFact R f = some none) := by
  unfold mutexFact
  rcases translatePair_spec hG hf with ⟨h1, o, h2⟩ | ⟨h1, h2, h3⟩ | ⟨k, h1, h2, h3⟩
  · right
    refine ⟨h1, ?_⟩
    rw [h2]
    cases o <;> rfl
  · left
    refine ⟨h1, ?_⟩
    rw [h3]
    simp [Emb.img, h2]
  · left
    refine ⟨h1, ?_⟩
    rw [h3]
    simp [Emb.img, h2]

theorem newMutexes_spec (hT : T.Valid) (hG : Good T R) : newMutexes R T.mutexes =
    some ((T.mutexes.map (fun m => m.filterMap (fun f => (mutexFact R f).getD none))).filter (fun l => decide (2 ≤ l.length))) := by
  have h1 : mapAll (fun m => mapAll (mutexFact R) m) T.mutexes = some (T.mutexes.map (fun m => m.map (fun f => (mutexFact R f).getD none))) := by
    refine mapAll_map (fun m hm => ?_)
    refine mapAll_total (fun f hf => ?_)
    rcases mutexFact_spec hG ((hT.mutexes m hm).1 f hf) with ⟨_, h⟩ | ⟨_, h⟩
    · exact ⟨_, h⟩
    · exact ⟨_, h⟩
  unfold newMutexes
  rw [h1]
  simp only [List.map_map]
  congr 3
  funext m
  simp only [Function.comp_apply, List.filterMap_map]
  rfl

theorem translateAxiom_spec (hT : T.Valid) (hG : Good T R) {a : SasAxiom} (ha : a ∈ T.axioms) :
    ((∃ c ∈ a.conds, ¬ T.Reached c.var c.val) ∧ translateAxiom R a = some none) ∨
    ((∀ c ∈ a.conds, T.Reached c.var c.val) ∧ ∃ h', (emb T R).img a.effect = some h' ∧ translateAxiom R a = some (some ⟨a.conds.filterMap (emb T R).img, h'⟩)) := by
  have hv := hT.axioms a ha
  have hre : T.Reached a.effect.var a.effect.val := .axiom a ha rfl
  unfold translateAxiom
  rcases convertPairs_spec hG hv.conds.1 with ⟨a1, a2⟩ | ⟨a1, a2⟩
  · right
    refine ⟨a1, ?_⟩
    rcases translatePair_spec hG hv.effect with ⟨h1, _⟩ | ⟨_, h2, _⟩ | ⟨k, _, h2, h3⟩
    · exact absurd hre h1
    · exfalso
      obtain ⟨x, hx, _⟩ := hv.effect
      obtain ⟨y, hy⟩ := removed hG hx h2
      have hlt := (List.getElem?_eq_some_iff.mp hx).1
      have e0 := List.getElem?_eq_getElem (show a.effect.var < T.init.length by rw [hT.init]; exact hlt)
      have h4 := (hy _).mp hre
      have h5 := (hy _).mp (.init _ e0)
      exact hv.nonInit (by rw [e0, h5, h4])
    · refine ⟨⟨k, (emb T R).rank a.effect.var a.effect.val⟩, by simp [Emb.img, h2], ?_⟩
      simp only [a2, h3]
  · left
    exact ⟨a1, by simp only [a2]⟩

/-! ### the new task -/

structure NewTask (T : SasTask) (R : Renaming) (keep : Bool) (T' : SasTask) : Prop where
  vars : T'.variables = newVariables R T.variables
  initLength : T'.init.length = T'.variables.length
  init : ∀ v k i : Nat, (emb T R).idx v = some k → T.init[v]? = some i → T'.init[k]? = some ((emb T R).rank v i)
  goalD : ∀ g ∈ T.goal, T.Reached g.var g.val
  goal : T'.goal = T.goal.filterMap (emb T R).img
  someGoal : T'.goal ≠ []
  ops : T'.operators = T.operators.filterMap (fun o => (translateOperator R keep o).getD none)
  axioms : T'.axioms = T.axioms.filterMap (fun a => (translateAxiom R a).getD none)
  mutexes : T'.mutexes = (T.mutexes.map (fun m => m.filterMap (fun f => (mutexFact R f).getD none))).filter (fun l => decide (2 ≤ l.length))
  metric : T'.metric = T.metric

theorem filterUnreachable_cases (hT : T.Valid) (hC : T.Canonical) (keep : Bool) : ∃ R, Good T R ∧
    (((∃ g ∈ T.goal, ¬ T.Reached g.var g.val) ∧ filterUnreachable keep T = .impossible) ∨
    ((∀ g ∈ T.goal, T.Reached g.var g.val ∧ (emb T R).idx g.var = none) ∧ filterUnreachable keep T = .trivial) ∨
    ∃ T', filterUnreachable keep T = .simplified T' ∧ NewTask T R keep T') := by
  obtain ⟨R, h1, hG⟩ := good hT hC
  refine ⟨R, hG, ?_⟩
  obtain ⟨init', h2, h3, h4⟩ := newInit_spec hT hG
  unfold filterUnreachable
  simp only [h1, applyToTask, newMutexes_spec hT hG, h2]
  rcases convertPairs_spec hG hT.goal.1 with ⟨a1, a2⟩ | ⟨a1, a2⟩
  · right
    cases hg : T.goal.filterMap (emb T R).img with
    | nil =>
      left
      rw [hg] at a2
      simp only [a2]
      refine ⟨fun g hgm => ⟨a1 g hgm, ?_⟩, trivial⟩
      rw [List.filterMap_eq_nil_iff] at hg
      exact Emb.img_none (hg g hgm)
    | cons f fs =>
      right
      rw [hg] at a2
      simp only [a2, applyActions]
      rw [mapAll_total (fun o ho => ?_), mapAll_total (fun a ha => ?_)]
      · refine ⟨_, rfl, rfl, h3, h4, a1, hg.symm, by simp, ?_, ?_, rfl, rfl⟩
        · simp only [List.filterMap_map]
          rfl
        · simp only [List.filterMap_map]
          rfl
      · rcases translateAxiom_spec hT hG ha with ⟨_, h⟩ | ⟨_, _, _, h⟩
        · exact ⟨_, h⟩
        · exact ⟨_, h⟩
      · rcases translateOperator_spec hT hC hG keep ho with ⟨_, h⟩ | ⟨_, _, h⟩ | ⟨_, h, _⟩
        · exact ⟨_, h⟩
        · exact ⟨_, h⟩
        · exact ⟨_, h⟩
  · left
    simp only [a2]
    exact ⟨a1, trivial⟩

variable {keep : Bool} {T' : SasTask}

theorem NewTask.mem_axioms (hT : T.Valid) (hG : Good T R) (hN : NewTask T R keep T') {a' : SasAxiom} : a' ∈ T'.axioms ↔
    ∃ a ∈ T.axioms, (∀ c ∈ a.conds, T.Reached c.var c.val) ∧ ∃ h', (emb T R).img a.effect = some h' ∧ a' = ⟨a.conds.filterMap (emb T R).img, h'⟩ := by
  rw [hN.axioms, List.mem_filterMap]
  refine exists_congr (fun a => and_congr_right (fun ha => ?_))
  rcases translateAxiom_spec hT hG ha with ⟨⟨c, hc, hn⟩, h⟩ | ⟨h1, h', h2, h⟩
  · rw [h]
    simp only [Option.getD_some, reduceCtorEq, false_iff]
    exact fun ⟨h1, _⟩ => hn (h1 c hc)
  · rw [h]
    simp only [Option.getD_some, Option.some.injEq]
    constructor
    · rintro rfl
      exact ⟨h1, h', h2, rfl⟩
    · rintro ⟨_, h'', h3, rfl⟩
      rw [h2, Option.some.injEq] at h3
      rw [h3]

theorem NewTask.layer (hG : Good T R) (hN : NewTask T R keep T') {v k : Nat} (hi : (emb T R).idx v = some k) : layerOf T' k = layerOf T v := by
  obtain ⟨w, r, h1, h2, h3, _⟩ := idx_row hG hi
  unfold layerOf
  rw [hN.vars, newVariables_get hG h1 h2 h3, h1]
  rfl

theorem NewTask.ok (hT : T.Valid) (hG : Good T R) (hN : NewTask T R keep T') : (emb T R).OK T.task T'.task := by
  have hlen : T.task.vars.length = T.variables.length := by simp [SasTask.task, hT.init]
  have hlen' : T'.task.vars.length = (newVariables R T.variables).length := by simp [SasTask.task, hN.initLength, hN.vars]
  have hinit : ∀ v, v < T.variables.length → ∃ i, T.init[v]? = some i := fun v hv => ⟨_, List.getElem?_eq_getElem (by rw [hT.init]; exact hv)⟩
  have hder : ∀ v, T.task.layerOf v ≠ none → v < T.variables.length := by
    intro v hv
    by_contra hn
    rw [Task.layerOf, List.getElem?_eq_none (by omega)] at hv
    simp at hv
  exact {
    inj := fun v w k h1 h2 => idx_inj hG h1 h2
    surj := fun k hk => idx_surj hG (by omega)
    range := fun v k hi => by
      obtain ⟨w, r, h1, h2, h3, _⟩ := idx_row hG hi
      refine ⟨by rw [hlen]; exact (List.getElem?_eq_some_iff.mp h1).1, ?_⟩
      rw [hlen']
      exact (List.getElem?_eq_some_iff.mp (newVariables_get hG h1 h2 h3)).1
    rankInj := fun v k x y hi hx hy h => rank_inj hG hi hx hy h
    domD := fun v x d hd hx => by
      obtain ⟨w, i, h1, _, rfl⟩ := task_var.mp hd
      exact reached_lt hT h1 hx
    layer := fun v k hi => by rw [task_layer hN.initLength, task_layer hT.init, hN.layer hG hi]
    default := fun v k hi hl => by
      obtain ⟨i, h⟩ := hinit v (hder v hl)
      rw [task_default hT.init h, task_default hN.initLength (hN.init v k i hi h)]
    defaultD := fun v hl => by
      obtain ⟨i, h⟩ := hinit v (hder v hl)
      rw [task_default hT.init h]
      exact .init i h
    ruleD := fun r hr _ => by
      obtain ⟨a, ha, rfl⟩ := mem_task_rules.mp hr
      exact .axiom a ha rfl
    rule := fun r hr hD h' hi => by
      obtain ⟨a, ha, rfl⟩ := mem_task_rules.mp hr
      exact mem_task_rules.mpr ⟨_, (hN.mem_axioms hT hG).mpr ⟨a, ha, hD, h', hi, rfl⟩, rfl⟩
    rule' := fun r' hr' => by
      obtain ⟨a', ha', rfl⟩ := mem_task_rules.mp hr'
      obtain ⟨a, ha, h1, h', h2, rfl⟩ := (hN.mem_axioms hT hG).mp ha'
      refine ⟨⟨a.conds, a.effect⟩, mem_task_rules.mpr ⟨a, ha, rfl⟩, rfl, h2, .axiom a ha rfl, fun c hc => ⟨h1 c hc, fun hi => ?_⟩⟩
      exact fixed hT hG ((hT.axioms a ha).conds.1 c hc) (h1 c hc) hi }

theorem task_ops (T : SasTask) : T.task.ops = T.operators.map (taskOp T.metric) := rfl

/-- the operators that are kept -/
def keptOp (T : SasTask) (R : Renaming) (keep : Bool) : Nat → Option Nat := keepIdx (fun o => (translateOperator R keep o).getD none) T.operators

theorem NewTask.sim (hT : T.Valid) (hC : T.Canonical) (hK : T.NoKeepingEffects) (hG : Good T R) (hN : NewTask T R keep T') :
    (emb T R).Sim T.task T'.task (keptOp T R keep) (keep = false) := by
  have hE := hN.ok hT hG
  refine ⟨hE, hE.stratified (task_stratified hT), exists_stable hT, ?_, ?_, ?_, ?_, ?_⟩
  · intro i j o ho hk
    obtain ⟨a, b, h1, h2, h3⟩ := keepIdx_get _ hk
    rw [task_ops, List.getElem?_map, h1, Option.map_some, Option.some.injEq] at ho
    subst ho
    have ha := List.mem_of_getElem? h1
    rw [← hN.ops] at h3
    refine ⟨taskOp T'.metric b, by rw [task_ops, List.getElem?_map, h3]; rfl, fun s s' hr => ?_⟩
    have hn : NewOp T R a b := by
      rcases translateOperator_spec hT hC hG keep ha with ⟨_, h⟩ | ⟨_, _, h⟩ | ⟨o', h, hn, _⟩
      · simp [h] at h2
      · simp [h] at h2
      · simp only [h, Option.getD_some, Option.some.injEq] at h2
        rwa [← h2]
    exact ⟨applicable_new hT hG hE hr ha hn _ _, fun happ m hm => result_new hT hC hK hG hE hr ha hn happ hm⟩
  · intro i o ho hk s s' hr happ m hm
    rw [task_ops, List.getElem?_map, Option.map_eq_some_iff] at ho
    obtain ⟨a, h1, rfl⟩ := ho
    have ha := List.mem_of_getElem? h1
    have hnone := keepIdx_none _ hk h1
    rcases translateOperator_spec hT hC hG keep ha with ⟨⟨f, hf, hn⟩, _⟩ | ⟨hkeep, hu, _⟩ | ⟨o', h, _⟩
    · exact absurd (hr.dom _ _ (happ f hf)) hn
    · exact ⟨result_dropped hT hC hr ha hu happ hm, hkeep⟩
    · simp [h] at hnone
  · intro j o' ho'
    rw [task_ops, List.getElem?_map, Option.map_eq_some_iff] at ho'
    obtain ⟨b, h1, rfl⟩ := ho'
    rw [hN.ops] at h1
    obtain ⟨i, a, h2, _, h4⟩ := keepIdx_surj _ h1
    exact ⟨i, taskOp T.metric a, by rw [task_ops, List.getElem?_map, h2]; rfl, h4⟩
  · intro s s' hr
    have : T'.task.goal = T.task.goal.filterMap (emb T R).img := hN.goal
    rw [this]
    exact hr.allHold hE hN.goalD (fun g hg hi => fixed hT hG (hT.goal.1 g hg) (hN.goalD g hg) hi)
  · refine ⟨by simp [SasTask.task, hT.init], by simp [SasTask.task, hN.initLength], fun v x hx => .init x hx, fun v k hi => ?_⟩
    obtain ⟨w, r, h1, _⟩ := idx_row hG hi
    have e0 := List.getElem?_eq_getElem (show v < T.init.length by rw [hT.init]; exact (List.getElem?_eq_some_iff.mp h1).1)
    exact ⟨_, e0, hN.init v k _ hi e0⟩

end

end Verif.Simplify
