import Verif.Lemmas.SimplifyTask

/-
The new task of src/translate/simplify.py is valid, its facts have the names of the old ones, and the plans correspond.
-/
namespace Verif.Simplify
open Verif.SasFile
open Verif.Mas (mapAll)

section
variable {T T' : SasTask} {R : Renaming} {keep : Bool}

theorem factOk_img (hG : Good T R) (hN : NewTask T R keep T') {f f' : Fact} (hr : T.Reached f.var f.val) (hi : (emb T R).img f = some f') : FactOk T' f' := by
  obtain ⟨a1, a2⟩ := Emb.img_some hi
  obtain ⟨y, h1, h2⟩ := rank_range hG a1 hr
  exact ⟨y, by rw [hN.vars]; exact h1, by rw [a2]; exact h2⟩

theorem condOk_img (hG : Good T R) (hN : NewTask T R keep T') {fs : List Fact} (hl : fs.length ≤ IntMax) (hr : ∀ f ∈ fs, T.Reached f.var f.val) : CondOk T' (fs.filterMap (emb T R).img) := by
  refine ⟨fun f' hf' => ?_, (List.length_filterMap_le _ _).trans hl⟩
  obtain ⟨f, hf, hi⟩ := List.mem_filterMap.mp hf'
  exact factOk_img hG hN (hr f hf) hi

/-- few facts, as all variables are different -/
theorem sorted_few (hT' : T'.variables.length ≤ IntMax) {fs : List Fact} (h : SortedVars fs) (hok : ∀ f ∈ fs, FactOk T' f) : fs.length ≤ IntMax := by
  have h1 := nodup_of_sorted h
  have h2 : (fs.map (·.var)) ⊆ List.range T'.variables.length := by
    intro v hv
    obtain ⟨f, hf, rfl⟩ := List.mem_map.mp hv
    obtain ⟨x, hx, _⟩ := hok f hf
    exact List.mem_range.mpr (List.getElem?_eq_some_iff.mp hx).1
  have := (List.Nodup.subperm h1 h2).length_le
  simp only [List.length_map, List.length_range] at this
  omega

theorem NewTask.mem_ops (hT : T.Valid) (hC : T.Canonical) (hG : Good T R) (hN : NewTask T R keep T') {o' : SasOperator} (ho' : o' ∈ T'.operators) :
    ∃ o ∈ T.operators, NewOp T R o o' ∧ (keep = false → o'.prePost ≠ []) := by
  rw [hN.ops] at ho'
  obtain ⟨o, ho, h⟩ := List.mem_filterMap.mp ho'
  rcases translateOperator_spec hT hC hG keep ho with ⟨_, h2⟩ | ⟨_, _, h2⟩ | ⟨o2, h2, h3, h4⟩
  · simp [h2] at h
  · simp [h2] at h
  · simp only [h2, Option.getD_some, Option.some.injEq] at h
    subst h
    exact ⟨o, ho, h3, h4⟩

theorem newVariables_length_le (R : Renaming) (vs : List SasVariable) : (newVariables R vs).length ≤ vs.length := by
  unfold newVariables
  exact (List.length_filterMap_le _ _).trans (by simp)

theorem mem_newMutexes (hT : T.Valid) (hG : Good T R) (hN : NewTask T R keep T') {m' : List Fact} (hm : m' ∈ T'.mutexes) :
    2 ≤ m'.length ∧ ∃ m ∈ T.mutexes, m' = m.filterMap (fun f => (mutexFact R f).getD none) ∧ ∀ f', f' ∈ m' ↔ ∃ f ∈ m, T.Reached f.var f.val ∧ (emb T R).img f = some f' := by
  rw [hN.mutexes, List.mem_filter, List.mem_map] at hm
  obtain ⟨⟨m, hm1, rfl⟩, h2⟩ := hm
  refine ⟨by simpa using h2, m, hm1, rfl, fun f' => ?_⟩
  rw [List.mem_filterMap]
  refine exists_congr (fun f => and_congr_right (fun hf => ?_))
  rcases mutexFact_spec hG ((hT.mutexes m hm1).1 f hf) with ⟨a, b⟩ | ⟨a, b⟩
  · simp [a, b]
  · simp [a, b]

theorem NewTask.valid (hT : T.Valid) (hC : T.Canonical) (hG : Good T R) (hN : NewTask T R false T') : T'.Valid := by
  have hfew : T'.variables.length ≤ IntMax := by
    rw [hN.vars]
    exact (newVariables_length_le R T.variables).trans hT.fewVariables
  have hgoalS : SortedVars T'.goal := by rw [hN.goal]; exact sortedVars_img hG hC.goal
  exact {
    someVariable := by
      obtain ⟨g', hg'⟩ := List.exists_mem_of_ne_nil _ hN.someGoal
      rw [hN.goal] at hg'
      obtain ⟨g, hg, hi⟩ := List.mem_filterMap.mp hg'
      obtain ⟨y, hy, _⟩ := factOk_img hG hN (hN.goalD g hg) hi
      intro h
      rw [h] at hy
      simp at hy
    names := fun v hv n hn => by
      rw [hN.vars] at hv
      obtain ⟨_, x, hx, _, _, h4⟩ := newVariables_two hG hv
      exact hT.names x hx n (h4 hn)
    domain := fun v hv => by
      rw [hN.vars] at hv
      obtain ⟨h1, x, hx, _, h3, _⟩ := newVariables_two hG hv
      exact ⟨by omega, h3.trans (hT.domain x hx).2⟩
    derived := fun v hv hl => by
      rw [hN.vars] at hv
      obtain ⟨h1, x, hx, h2, h3, _⟩ := newVariables_two hG hv
      have := hT.derived x hx (by rw [h2]; exact hl)
      omega
    layers := fun v hv l hl => by
      rw [hN.vars] at hv
      obtain ⟨h1, x, hx, h2, h3, _⟩ := newVariables_two hG hv
      exact hT.layers x hx l (by rw [h2]; exact hl)
    fewVariables := hfew
    mutexes := fun m' hm' => by
      obtain ⟨_, m, hm, h1, h2⟩ := mem_newMutexes hT hG hN hm'
      refine ⟨fun f' hf' => ?_, ?_⟩
      · obtain ⟨f, _, h3, h4⟩ := (h2 f').mp hf'
        exact factOk_img hG hN h3 h4
      · rw [h1]
        exact (List.length_filterMap_le _ _).trans (hT.mutexes m hm).2
    fewMutexes := by
      rw [hN.mutexes]
      exact (List.length_filter_le _ _).trans (by rw [List.length_map]; exact hT.fewMutexes)
    init := hN.initLength
    initOk := fun k y hy => by
      have hk : k < (newVariables R T.variables).length := by
        rw [← hN.vars, ← hN.initLength]
        exact (List.getElem?_eq_some_iff.mp hy).1
      obtain ⟨v, hv⟩ := idx_surj hG hk
      obtain ⟨w, r, h1, _⟩ := idx_row hG hv
      have e0 := List.getElem?_eq_getElem (show v < T.init.length by rw [hT.init]; exact (List.getElem?_eq_some_iff.mp h1).1)
      have := hN.init v k _ hv e0
      rw [hy, Option.some.injEq] at this
      subst this
      obtain ⟨z, h3, h4⟩ := rank_range hG hv (.init _ e0)
      exact ⟨z, by rw [hN.vars]; exact h3, h4⟩
    goal := by
      rw [hN.goal]
      exact condOk_img hG hN hT.goal.2 hN.goalD
    someGoal := hN.someGoal
    goalOnce := nodup_of_sorted hgoalS
    operators := fun o' ho' => by
      obtain ⟨o, ho, hn, hne⟩ := hN.mem_ops hT hC hG ho'
      have hv := hT.operators o ho
      have hpreOk : ∀ f' ∈ condsOf o', FactOk T' f' := by
        intro f' hf'
        obtain ⟨f, hf, hi⟩ := (hn.pre f').mp hf'
        exact factOk_img hG hN (hn.preD f hf) hi
      have hprev : ∀ f' ∈ o'.prevail, FactOk T' f' := fun f' hf' => hpreOk f' (mem_taskOp_pre.mpr (Or.inl hf'))
      refine ⟨by rw [hn.name]; exact hv.name, ⟨hprev, sorted_few hfew hn.canonical.prevail hprev⟩, hne rfl, hn.few.trans hv.fewEffects, ?_, ?_, ?_, ?_, by rw [hn.cost]; exact hv.cost⟩
      · intro e' he' x hx
        exact hpreOk ⟨e'.var, x⟩ (mem_taskOp_pre.mpr (Or.inr ⟨e', he', rfl, hx⟩))
      · intro e' he'
        obtain ⟨e, he, k, hu, rfl⟩ := hn.eff e' he'
        exact factOk_img hG hN (f := ⟨e.var, e.post⟩) hu.post (by simp [Emb.img, hu.idx, newEffect])
      · intro e' he'
        obtain ⟨e, he, k, hu, rfl⟩ := hn.eff e' he'
        exact condOk_img hG hN (hv.conds e he).2 hu.conds
      · intro e' he'
        obtain ⟨e, he, k, hu, rfl⟩ := hn.eff e' he'
        have := hN.layer hG hu.idx
        simp only [newEffect]
        rw [this]
        exact hv.basic e he
    fewOperators := by
      rw [hN.ops]
      exact (List.length_filterMap_le _ _).trans hT.fewOperators
    axioms := fun a' ha' => by
      obtain ⟨a, ha, h1, h', h2, rfl⟩ := (hN.mem_axioms hT hG).mp ha'
      have hv := hT.axioms a ha
      obtain ⟨b1, b2⟩ := Emb.img_some h2
      have hinit' : ∀ c c' : Fact, FactOk T c → T.Reached c.var c.val → (emb T R).img c = some c' → T'.init[c'.var]? = some c'.val → T.init[c.var]? = some c.val := by
        intro c c' hc hr hi h
        obtain ⟨x, hx, _⟩ := hc
        obtain ⟨d1, d2⟩ := Emb.img_some hi
        have e0 := List.getElem?_eq_getElem (show c.var < T.init.length by rw [hT.init]; exact (List.getElem?_eq_some_iff.mp hx).1)
        rw [hN.init _ _ _ d1 e0, d2, Option.some.injEq] at h
        rw [e0, rank_inj hG d1 (.init _ e0) hr h]
      refine ⟨condOk_img hG hN hv.conds.2 h1, factOk_img hG hN (.axiom a ha rfl) h2, ?_, ?_⟩
      · obtain ⟨l, h3, h4⟩ := hv.derived
        refine ⟨l, by simp only; rw [hN.layer hG b1]; exact h3, fun c' hc' lc hlc => ?_⟩
        obtain ⟨c, hc, hi⟩ := List.mem_filterMap.mp hc'
        rw [hN.layer hG (Emb.img_some hi).1] at hlc
        obtain ⟨h5, h6⟩ := h4 c hc lc hlc
        exact ⟨h5, fun e h => h6 e (hinit' c c' (hv.conds.1 c hc) (h1 c hc) hi h)⟩
      · intro h
        exact hv.nonInit (hinit' a.effect h' hv.effect (.axiom a ha rfl) h2 h)
    fewAxioms := by
      rw [hN.axioms]
      exact (List.length_filterMap_le _ _).trans hT.fewAxioms }

theorem NewTask.canonical (hT : T.Valid) (hC : T.Canonical) (hG : Good T R) (hN : NewTask T R keep T') : T'.Canonical where
  goal := by rw [hN.goal]; exact sortedVars_img hG hC.goal
  mutexes := by
    intro m' hm'
    obtain ⟨_, m, hm, rfl, _⟩ := mem_newMutexes hT hG hN hm'
    rw [List.pairwise_filterMap]
    refine List.Pairwise.imp_of_mem ?_ (hC.mutexes m hm)
    intro a b ha hb hab a' ha' b' hb'
    have key : ∀ f ∈ m, ∀ f', (mutexFact R f).getD none = some f' → T.Reached f.var f.val ∧ (emb T R).img f = some f' := by
      intro f hf f' hf'
      rcases mutexFact_spec hG ((hT.mutexes m hm).1 f hf) with ⟨c, d⟩ | ⟨c, d⟩
      · rw [d] at hf'
        exact ⟨c, hf'⟩
      · rw [d] at hf'
        simp at hf'
    obtain ⟨a1, a2⟩ := key a ha a' ha'
    obtain ⟨b1, b2⟩ := key b hb b' hb'
    obtain ⟨a3, a4⟩ := Emb.img_some a2
    obtain ⟨b3, b4⟩ := Emb.img_some b2
    rcases hab with h | ⟨h1, h2⟩
    · exact Or.inl (idx_lt hG a3 b3 h)
    · right
      rw [← h1] at b1 b3 b4
      rw [a3, Option.some.injEq] at b3
      refine ⟨b3, ?_⟩
      rw [a4, b4]
      exact rank_lt hG a3 a1 b1 h2
  operators := by
    intro o' ho'
    obtain ⟨o, _, hn, _⟩ := hN.mem_ops hT hC hG ho'
    exact hn.canonical
  axioms := by
    intro a' ha'
    obtain ⟨a, ha, _, h', _, rfl⟩ := (hN.mem_axioms hT hG).mp ha'
    exact sortedVars_img hG (hC.axioms a ha)

theorem NewTask.noKeeping (hT : T.Valid) (hC : T.Canonical) (hG : Good T R) (hN : NewTask T R keep T') : T'.NoKeepingEffects := by
  intro o' ho' e' he' _ _ hp _
  obtain ⟨o, _, hn, _⟩ := hN.mem_ops hT hC hG ho'
  obtain ⟨e, he, k, hu, rfl⟩ := hn.eff e' he'
  simp only [newEffect] at hp
  rw [Option.map_eq_some_iff] at hp
  obtain ⟨x, hx, hx2⟩ := hp
  exact absurd (by rw [hx, rank_inj hG hu.idx (hu.pre x hx) hu.post hx2]) hu.change

/-! ### reachable states -/

/-- all values of all states that are reached are reached -/
def bare (T : SasTask) : Emb := ⟨fun _ => none, fun _ _ => 0, T.Reached⟩

theorem bare_ok (hT : T.Valid) : (bare T).OK T.task ⟨[], [], [], [], []⟩ where
  inj := fun _ _ _ h => by simp [bare] at h
  surj := fun _ h => by simp at h
  range := fun _ _ h => by simp [bare] at h
  rankInj := fun _ _ _ _ h => by simp [bare] at h
  domD := fun v x d hd hx => by
    obtain ⟨w, i, h1, _, rfl⟩ := task_var.mp hd
    exact reached_lt hT h1 hx
  layer := fun _ _ h => by simp [bare] at h
  default := fun _ _ h => by simp [bare] at h
  defaultD := fun v hl => by
    have hv : v < T.variables.length := by
      by_contra hn
      rw [task_layer hT.init, layerOf, List.getElem?_eq_none (by omega)] at hl
      simp at hl
    have e0 := List.getElem?_eq_getElem (show v < T.init.length by rw [hT.init]; exact hv)
    rw [task_default hT.init e0]
    exact .init _ e0
  ruleD := fun r hr _ => by
    obtain ⟨a, ha, rfl⟩ := mem_task_rules.mp hr
    exact .axiom a ha rfl
  rule := fun _ _ _ _ h => by simp [Emb.img, bare] at h
  rule' := fun _ h => by simp [Task.rules] at h

theorem within_stable (hT : T.Valid) {m s : State} (hm : Within T m) (h : StableModel T.task m s) : Within T s := by
  obtain ⟨s', hr, _⟩ := (bare_ok hT).stable (m' := []) ⟨by rw [hm.1]; simp [SasTask.task, hT.init], rfl, hm.2, fun _ _ h => by simp [bare] at h⟩ h
  exact ⟨by rw [hr.length]; simp [SasTask.task, hT.init], hr.dom⟩

theorem within_init (hT : T.Valid) : Within T T.init := ⟨hT.init, fun _ x h => .init x h⟩

theorem within_exec (hT : T.Valid) (hC : T.Canonical) {s u : State} {π : List Nat} (h : T.task.Exec s π u) : Within T s → Within T u := by
  induction h with
  | nil s => exact id
  | cons s i o s2 π u ho ha hs _ ih =>
    intro hw
    obtain ⟨m, h1, h2⟩ := hs
    rw [task_ops, List.getElem?_map, Option.map_eq_some_iff] at ho
    obtain ⟨a, h3, rfl⟩ := ho
    have ha' := List.mem_of_getElem? h3
    exact ih (within_stable hT (within_result (hC.operators a ha') ha' hw ha h1) h2)

/-! ### plans -/

theorem labels_back {keepN : Nat → Option Nat} (hlab : ∀ i j, keepN i = some j → T'.label j = T.label i) : ∀ {π π' : List Nat}, π.map keepN = π'.map some → π.map T.label = π'.map T'.label
  | [], [], _ => rfl
  | [], _ :: _, h => by simp at h
  | _ :: _, [], h => by simp at h
  | i :: π, j :: π', h => by
    simp only [List.map_cons, List.cons.injEq] at h
    rw [List.map_cons, List.map_cons, labels_back hlab h.2, hlab i j h.1]

theorem labels_fwd {keepN : Nat → Option Nat} (hlab : ∀ i j, keepN i = some j → T'.label j = T.label i) : ∀ {π : List Nat} {p : List (List Char × Nat)}, π.map T.label = p.map some →
    ∃ p', p'.Sublist p ∧ (π.filterMap keepN).map T'.label = p'.map some ∧ ((∀ i ∈ π, keepN i ≠ none) → p' = p)
  | [], [], _ => ⟨[], List.Sublist.refl _, rfl, fun _ => rfl⟩
  | [], _ :: _, h => by simp at h
  | _ :: _, [], h => by simp at h
  | i :: π, a :: p, h => by
    simp only [List.map_cons, List.cons.injEq] at h
    obtain ⟨p', h1, h2, h3⟩ := labels_fwd hlab h.2
    rw [List.filterMap_cons]
    cases hk : keepN i with
    | none =>
      refine ⟨p', h1.cons _, h2, fun hall => ?_⟩
      exact absurd hk (hall i (by simp))
    | some j =>
      refine ⟨a :: p', h1.cons_cons _, ?_, fun hall => ?_⟩
      · simp only [List.map_cons, h2, hlab i j hk, h.1]
      · rw [h3 (fun x hx => hall x (by simp [hx]))]

theorem NewTask.label (hT : T.Valid) (hC : T.Canonical) (hG : Good T R) (hN : NewTask T R keep T') (i j : Nat) (h : keptOp T R keep i = some j) : T'.label j = T.label i := by
  obtain ⟨a, b, h1, h2, h3⟩ := keepIdx_get _ h
  rw [← hN.ops] at h3
  have hn : NewOp T R a b := by
    rcases translateOperator_spec hT hC hG keep (List.mem_of_getElem? h1) with ⟨_, h⟩ | ⟨_, _, h⟩ | ⟨o', h, hn, _⟩
    · simp [h] at h2
    · simp [h] at h2
    · simp only [h, Option.getD_some, Option.some.injEq] at h2
      rwa [← h2]
  simp [SasTask.label, h1, h3, hn.name, hn.cost]

/-! ### names of facts -/

theorem zip_filter_names {α β : Type} {p : β → Bool} {P : Nat → Bool} : ∀ {l : List α} {q : List β} {a : Nat}, q.length = l.length → (∀ i b, q[i]? = some b → p b = P (a + i)) →
    ((l.zip q).filter (fun x => p x.2)).map (·.1) = ((l.zipIdx a).filter (fun x => P x.2)).map (·.1)
  | [], _, _, _, _ => by simp
  | x :: l, [], _, h, _ => by simp at h
  | x :: l, y :: q, a, h, hp => by
    have ih := zip_filter_names (l := l) (q := q) (a := a + 1) (by simpa using h) (fun i b hb => by
      have := hp (i + 1) b (by simpa using hb)
      rwa [show a + (i + 1) = a + 1 + i by omega] at this)
    have h0 := hp 0 y rfl
    simp only [Nat.add_zero] at h0
    rw [List.zip_cons_cons, List.zipIdx_cons, List.filter_cons, List.filter_cons]
    simp only [h0]
    split
    · rw [List.map_cons, List.map_cons, ih]
    · exact ih

theorem filter_unique_le {α : Type} {y : Nat} {P : Nat → Bool} (hP : ∀ i, P i = true → i = y) (l : List α) (a : Nat) : ((l.zipIdx a).filter (fun x => P x.2)).length ≤ 1 := by
  have h1 : (((l.zipIdx a).filter (fun x => P x.2)).map (·.2)).Nodup :=
    List.Nodup.sublist (List.filter_sublist.map _) (by
      rw [List.zipIdx_map_snd]
      exact List.nodup_range')
  have h2 : ((l.zipIdx a).filter (fun x => P x.2)).map (·.2) ⊆ [y] := by
    intro i hi
    obtain ⟨x, hx, rfl⟩ := List.mem_map.mp hi
    rw [List.mem_filter] at hx
    simp [hP _ hx.2]
  have := (List.Nodup.subperm h1 h2).length_le
  simpa using this

/-- values of kept variables -/
theorem isValue_iff (hG : Good T R) {v k : Nat} (hi : (emb T R).idx v = some k) : ∃ x r, T.variables[v]? = some x ∧ R[v]? = some r ∧ r.1 = some k ∧ r.2.length = x.valueNames.length ∧
    ∀ i b, r.2[i]? = some b → (isValue b = true ↔ T.Reached v i) := by
  obtain ⟨x, r, h1, h2, h3, h4⟩ := idx_row hG hi
  refine ⟨x, r, h1, h2, h3, h4.length, fun i b hb => ?_⟩
  by_cases hr : T.Reached v i
  · obtain ⟨j, hj⟩ := (h4.value (by simp [h3])).2 i hr
    rw [hb, Option.some.injEq] at hj
    subst hj
    simp [isValue, hr]
  · have hlt : i < x.valueNames.length := by rw [← h4.length]; exact (List.getElem?_eq_some_iff.mp hb).1
    have := h4.never i hlt hr
    rw [hb, Option.some.injEq] at this
    subst this
    simp [isValue, hr]

/-- every new fact is the image of an old one with the same name -/
theorem old_fact (hG : Good T R) (hN : NewTask T R keep T') {f' : Fact} (hf : FactOk T' f') : ∃ f, FactOk T f ∧ T.Reached f.var f.val ∧ (emb T R).img f = some f' ∧
    (T'.variables[f'.var]?).bind (fun x => x.valueNames[f'.val]?) = (T.variables[f.var]?).bind (fun x => x.valueNames[f.val]?) := by
  obtain ⟨y, hy, hlt⟩ := hf
  rw [hN.vars] at hy
  obtain ⟨v, hv⟩ := idx_surj hG (List.getElem?_eq_some_iff.mp hy).1
  obtain ⟨x, r, h1, h2, h3, h4, h5⟩ := isValue_iff hG hv
  have hnew := newVariables_get hG h1 h2 h3
  rw [hy, Option.some.injEq] at hnew
  have hfm : (x.valueNames.zip r.2).filter (fun p => isValue p.2) = (x.valueNames.zip r.2).filterMap (fun p => if isValue p.2 then some p else none) := by
    rw [← List.filterMap_eq_filter]
    rfl
  have hyl : y.valueNames = ((x.valueNames.zip r.2).filter (fun p => isValue p.2)).map (·.1) := by rw [hnew]
  have hlt2 : f'.val < ((x.valueNames.zip r.2).filterMap (fun p => if isValue p.2 then some p else none)).length := by
    rw [hyl, List.length_map, hfm] at hlt
    exact hlt
  have e := List.getElem?_eq_getElem hlt2
  obtain ⟨i, p, g1, g2, g3⟩ := keepIdx_surj _ e
  obtain ⟨n, nv⟩ := p
  rw [List.getElem?_zip_eq_some] at g1
  obtain ⟨g4, g5⟩ := g1
  have hval : isValue nv = true := by
    by_contra h
    simp [h] at g2
  have hre := (h5 i nv g5).mp hval
  refine ⟨⟨v, i⟩, ⟨x, h1, (List.getElem?_eq_some_iff.mp g4).1⟩, hre, ?_, ?_⟩
  · simp only [Emb.img, hv, Option.map_some, Option.some.injEq]
    obtain ⟨w, r', a1, a2, a3, a4⟩ := idx_row hG hv
    rw [h2, Option.some.injEq] at a2
    subst a2
    obtain ⟨j, hj⟩ := (a4.value (by simp [a3])).2 i hre
    have hrank : (emb T R).rank v i = j := by simp [emb, h2, hj]
    have hcount := a4.count i j hj
    -- the position in the list of names
    unfold keepIdx at g3
    have hz : (x.valueNames.zip r.2)[i]? = some (n, nv) := List.getElem?_zip_eq_some.mpr ⟨g4, g5⟩
    simp only [hz, Option.bind_some, hval, if_true, Option.some.injEq] at g3
    have hlen : (((x.valueNames.zip r.2).take i).filterMap (fun p => if isValue p.2 then some p else none)).length = ((r.2.take i).filter isValue).length := by
      have h6 : ((x.valueNames.zip r.2).take i).filterMap (fun p => if isValue p.2 then some p else none) = ((x.valueNames.zip r.2).take i).filter (fun p => isValue p.2) := by
        rw [← List.filterMap_eq_filter]
        rfl
      rw [h6]
      have h7 : ((x.valueNames.zip r.2).take i).map (·.2) = r.2.take i := by
        rw [List.map_take, List.map_snd_zip (by omega)]
      rw [← h7, List.filter_map, List.length_map]
      rfl
    rw [hrank, hcount, ← hlen, g3]
  · have hname : y.valueNames[f'.val]? = some n := by
      rw [hyl, hfm, List.getElem?_map, e, Option.map_some, Option.some.injEq]
      simp only [hval, if_true, Option.some.injEq] at g2
      rw [← g2]
    rw [hN.vars, hy, h1]
    simp [hname, g4]

end

end Verif.Simplify
