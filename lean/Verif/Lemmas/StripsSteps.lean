import Verif.Lemmas.StripsPlans

/-
Translation of a grounded task: steps and runs.
-/
namespace Verif.StripsToSas
open Verif.SasFile
open Verif.Strips
open Verif.Simplify (lookup mkOperator)

section
variable {α : Type} [DecidableEq α] {t : StripsTask α} {groups mutexGroups : List (List α)} {o : Options} {T : SasTask}

theorem Reachable.completes {s : α → Prop} (h : t.Reachable s) : ∃ b, t.Completes b s := by
  obtain ⟨s0, as, h0, hr⟩ := h
  have : ∀ s0 as s, t.Run s0 as s → (∃ b, t.Completes b s0) → ∃ b, t.Completes b s := by
    intro s0 as s hr
    induction hr with
    | nil s => exact id
    | cons s a s' as u hst _ ih => exact fun _ => ih ⟨_, hst.2.2⟩
  exact this s0 as s hr ⟨_, h0⟩

/-- implied facts hold -/
theorem implied_holds (hg : t.Groups groups mutexGroups) {s : α → Prop} (hr : t.Reachable s) {c : List Fact} (hc : allHold c (enc groups s)) : allHold (impliedPre o groups mutexGroups c) (enc groups s) := by
  unfold impliedPre
  split
  · intro f hf
    obtain ⟨f0, hf0, hf⟩ := List.mem_flatMap.mp hf
    unfold impliedFacts at hf
    obtain ⟨m, hm, hf⟩ := List.mem_flatMap.mp hf
    obtain ⟨p, hp, hf⟩ := List.mem_flatMap.mp hf
    cases hl : lonelyVar groups p with
    | none => rw [hl] at hf; cases hf
    | some v =>
      rw [hl] at hf
      simp only at hf
      obtain ⟨q, hq, rfl⟩ := List.mem_map.mp hf
      obtain ⟨hqm, hq2⟩ := List.mem_filter.mp hq
      simp only [Bool.and_eq_true, bne_iff_ne, ne_eq, List.contains_iff_mem] at hq2
      have hsq := ((rep hg hr).fact hq2.2).mp (hc f0 hf0)
      have hsp : ¬ s p := fun h => hq2.1 (reachable_consistent' hg hr m hm q hqm p hp hsq h)
      have hv : groups[v]? = some [p] := by
        unfold lonelyVar at hl
        obtain ⟨⟨g, w⟩, hgw, rfl⟩ := Option.map_eq_some_iff.mp hl
        have := List.mem_of_getLast? hgw
        obtain ⟨h1, h2⟩ := List.mem_filter.mp this
        simp only [beq_iff_eq] at h2
        subst h2
        exact List.mem_zipIdx_iff_getElem?.mp h1
      have := (rep hg hr).none hv (fun q hq => by rw [List.mem_singleton.mp hq]; exact hsp)
      unfold Fact.holds
      rw [this]
      simp [rangeOf, hv]
  · simp [allHold]

section
variable (hs : t.Stratified) (hg : t.Groups groups mutexGroups) (hE : Encodes o groups mutexGroups t T)
include hs hg hE

/-- what the effects do to basic variables -/
theorem Encodes.effectsOn {s s' : α → Prop} (hr : t.Reachable s) {a : Action α} (hst : t.Step s a s') {es : List Effect} (hes : operatorEffects groups mutexGroups a = some es)
    {c implied : List Fact} (hcv : (c.map (·.var)).Nodup) (hc : allHold c (enc groups s)) {v : Nat} (hv : v < groups.length) (hl : T.task.layerOf v = none) :
    EffectsOn ((prePosts (rangeOf groups) c implied es).map PrePost.effect) (enc groups s) (enc groups s') v := by
  obtain ⟨es', hes', hval, hon⟩ := operatorEffects_spec (groups_nodup hg) (mutexGroups_nodup hg) (action_cov hg hst.1)
  rw [hes, Option.some.injEq] at hes'
  subst hes'
  have hgv := List.getElem?_eq_getElem hv
  have hnd : ∀ p ∈ groups[v], ¬ t.Derived p := by
    intro p hp hd
    obtain ⟨w, hw, hu⟩ := hg.derived p hd
    have := hu v _ hgv hp
    subst this
    exact absurd hl ((hE.derived_iff v).mpr ⟨p, hw, hd⟩)
  have h := hon s s' _ _ _ (rep hg hr) (rep' hg hr) (rep hg (Reachable.step hr hst)) v _ hgv (fun p hp => hst.2.2.base p (hnd p hp))
  obtain ⟨y, hy, hlt, _⟩ := rep hg hr v _ hgv
  refine prePosts_on hcv (fun e he => (hval e he).2.2.1) hc hy ?_ h
  rw [rangeOf, hgv]
  exact hlt

theorem Encodes.step_sound {s : α → Prop} (hr : t.Reachable s) {i : Nat} {op : Operator} {x' : State} (hi : T.task.ops[i]? = some op) (happ : op.applicable (enc groups s))
    (hsucc : T.task.SuccRel op (enc groups s) x') : ∃ a s', t.Step s a s' ∧ x' = enc groups s' ∧ T.label i = some (a.name, a.cost) := by
  have hi' := hi
  simp only [SasTask.task, List.getElem?_map, Option.map_eq_some_iff] at hi'
  obtain ⟨sop, hsi, rfl⟩ := hi'
  obtain ⟨a, ha, cs, es, c, hcs, hes, hc, hbuild⟩ := (hE.ops sop).mp (List.mem_of_getElem? hsi)
  obtain ⟨hname, hcost, _, hpp⟩ := buildOperator_some hbuild
  rcases conds_spec hg (action_cov hg ha).1 with ⟨h, _⟩ | ⟨cs', h, hT, _⟩
  · rw [hcs] at h
    cases h
  rw [hcs, Py.ok.injEq] at h
  subst h
  have hcx := (buildOperator_pre (hT c hc).vars hbuild).1 happ
  have hpre := (hT c hc).sound (fun l hl => ((action_cov hg ha).1 l hl).1) (rep hg hr) hcx
  have hst : t.Step s a (completion t (a.result s)) := ⟨ha, hpre, Strips.completes hs _⟩
  refine ⟨a, _, hst, ?_, by simp [SasTask.label, hsi, hname, hcost]⟩
  obtain ⟨m, hm, hstab⟩ := hsucc
  have hlen : m.length = groups.length := by rw [hm.1, enc_length]
  refine hE.unique hs hg hst.2.2 (Reachable.step hr hst) hlen (fun v hl => ?_) hstab
  by_cases hv : v < groups.length
  · have hon := (hE.effectsOn hs hg hr hst hes (implied := impliedPre o groups mutexGroups c) (hT c hc).vars hcx hv hl).congr (es' := sop.prePost.map PrePost.effect) (fun e => by
      simp only [List.mem_map, hpp])
    have hvx : v < (enc groups s).length := by rw [enc_length]; exact hv
    have hy := List.getElem?_eq_getElem hvx
    rw [hm.2 v _ hy]
    exact (hon.assigned hy).symm
  · rw [List.getElem?_eq_none (by omega), List.getElem?_eq_none (by rw [enc_length]; omega)]

theorem Encodes.step_complete {s s' : α → Prop} {a : Action α} (hr : t.Reachable s) (hst : t.Step s a s') :
    (∃ i op, T.task.ops[i]? = some op ∧ op.applicable (enc groups s) ∧ T.task.SuccRel op (enc groups s) (enc groups s') ∧ T.label i = some (a.name, a.cost)) ∨ (o.keepNoOps = false ∧ enc groups s' = enc groups s) := by
  have ha := hst.1
  rcases conds_spec hg (action_cov hg ha).1 with ⟨_, h⟩ | ⟨cs, h, hT, hex, _⟩
  · exact absurd hst.2.1 (h s hr)
  obtain ⟨c, hc, hcx⟩ := hex s hr hst.2.1
  obtain ⟨es, hes, _⟩ := operatorEffects_spec (groups_nodup hg) (mutexGroups_nodup hg) (action_cov hg ha)
  cases hb : buildOperator o.keepNoOps (rangeOf groups) a.name a.cost c (impliedPre o groups mutexGroups c) es with
  | none =>
    obtain ⟨hk, hnil⟩ := buildOperator_none hb
    refine Or.inr ⟨hk, ?_⟩
    obtain ⟨b, hbs⟩ := Reachable.completes hr
    symm
    refine hE.unique hs hg hst.2.2 (Reachable.step hr hst) (m := enc groups s) (enc_length _ _) (fun v hl => ?_) (hE.stable hs hg hbs hr (enc_length _ _) (fun _ _ => rfl))
    by_cases hv : v < groups.length
    · have hon := hE.effectsOn hs hg hr hst hes (implied := impliedPre o groups mutexGroups c) (hT c hc).vars hcx hv hl
      rw [hnil] at hon
      exact (hon.stays (by simp)).symm
    · rw [List.getElem?_eq_none (by rw [enc_length]; omega), List.getElem?_eq_none (by rw [enc_length]; omega)]
  | some sop =>
    left
    obtain ⟨hname, hcost, _, hpp⟩ := buildOperator_some hb
    obtain ⟨i, hi⟩ := List.getElem?_of_mem ((hE.ops sop).mpr ⟨a, ha, cs, es, c, h, hes, hc, hb⟩)
    refine ⟨i, ⟨preFacts sop, effectsOf sop, if T.metric then sop.cost else 1⟩, by simp [SasTask.task, hi, preFacts, effectsOf, PrePost.effect], (buildOperator_pre (hT c hc).vars hb).2 hcx (implied_holds hg hr hcx), ?_, by simp [SasTask.label, hi, hname, hcost]⟩
    refine ⟨(enc groups s).mapIdx (fun v y => ((⟨preFacts sop, effectsOf sop, if T.metric then sop.cost else 1⟩ : Operator).assigned (enc groups s) v).getD y), ⟨by simp, fun v y hy => by simp [hy]⟩, ?_⟩
    refine hE.stable hs hg hst.2.2 (Reachable.step hr hst) (by simp [enc_length]) (fun v hl => ?_)
    by_cases hv : v < groups.length
    · have hon := (hE.effectsOn hs hg hr hst hes (implied := impliedPre o groups mutexGroups c) (hT c hc).vars hcx hv hl).congr (es' := effectsOf sop) (fun e => by
        simp only [effectsOf, List.mem_map, hpp])
      have hvx : v < (enc groups s).length := by rw [enc_length]; exact hv
      have hy := List.getElem?_eq_getElem hvx
      rw [hon.assigned hy (pre := preFacts sop) (cost := if T.metric then sop.cost else 1)]
      simp [hy]
    · rw [List.getElem?_eq_none (by simp [enc_length]; omega), List.getElem?_eq_none (by rw [enc_length]; omega)]

theorem Encodes.run_sound {s : α → Prop} (hr : t.Reachable s) : ∀ {π : List Nat} {u : State}, T.task.Exec (enc groups s) π u → ∃ as s', t.Run s as s' ∧ u = enc groups s' ∧ t.Reachable s' ∧ π.map T.label = (as.map (fun a => (a.name, a.cost))).map some := by
  intro π
  induction π generalizing s with
  | nil =>
    intro u h
    cases h
    exact ⟨[], s, .nil _, rfl, hr, rfl⟩
  | cons i π ih =>
    intro u h
    cases h with
    | cons _ _ op x' _ _ hi happ hsucc hrest =>
      obtain ⟨a, s', hst, rfl, hlab⟩ := hE.step_sound hs hg hr hi happ hsucc
      obtain ⟨as, s'', hrun, he, hr'', hl⟩ := ih (Reachable.step hr hst) hrest
      exact ⟨a :: as, s'', .cons _ _ _ _ _ hst hrun, he, hr'', by simp [hlab, hl]⟩

theorem Encodes.run_complete {s u : α → Prop} {as : List (Action α)} (hrun : t.Run s as u) : t.Reachable s → ∃ π p, T.task.Exec (enc groups s) π (enc groups u) ∧ t.Reachable u ∧ π.map T.label = p.map some ∧
    p.Sublist (as.map (fun a => (a.name, a.cost))) ∧ (o.keepNoOps = true → p = as.map (fun a => (a.name, a.cost))) := by
  induction hrun with
  | nil s => exact fun hr => ⟨[], [], .nil _, hr, rfl, by simp, by simp⟩
  | cons s a s' as u hst _ ih =>
    intro hr
    obtain ⟨π, p, h1, h2, h3, h4, h5⟩ := ih (Reachable.step hr hst)
    rcases hE.step_complete hs hg hr hst with ⟨i, op, hi, happ, hsucc, hlab⟩ | ⟨hk, he⟩
    · exact ⟨i :: π, (a.name, a.cost) :: p, .cons _ _ _ _ _ _ hi happ hsucc h1, h2, by simp [hlab, h3], by simpa using h4, fun hk => by simp [h5 hk]⟩
    · rw [he] at h1
      exact ⟨π, p, h1, h2, h3, by simpa using h4.cons _, fun hk' => by rw [hk] at hk'; cases hk'⟩

theorem Encodes.init_unique {x : State} (hx : StableModel T.task T.init x) : ∃ s, t.Initial s ∧ x = enc groups s := by
  refine ⟨completion t (fun p => p ∈ t.init), Strips.completes hs _, hE.unique hs hg (Strips.completes hs _) ⟨_, [], Strips.completes hs _, .nil _⟩ hE.initLength (fun v hl => ?_) hx⟩
  by_cases hv : v < groups.length
  · have hgv := List.getElem?_eq_getElem hv
    refine (rep hg ⟨_, [], Strips.completes hs _, .nil _⟩).congr hE.init hgv (fun p hp => ?_)
    refine (Strips.completes hs _).base p (fun hd => ?_)
    obtain ⟨w, hw, hu⟩ := hg.derived p hd
    have := hu v _ hgv hp
    subst this
    exact absurd hl ((hE.derived_iff v).mpr ⟨p, hw, hd⟩)
  · rw [List.getElem?_eq_none (by rw [hE.initLength]; omega), List.getElem?_eq_none (by rw [enc_length]; omega)]

theorem Encodes.init_stable {s : α → Prop} (h : t.Initial s) : StableModel T.task T.init (enc groups s) := by
  have hr : t.Reachable s := ⟨_, [], h, .nil _⟩
  refine hE.stable hs hg h hr hE.initLength (fun v hl => ?_)
  by_cases hv : v < groups.length
  · have hgv := List.getElem?_eq_getElem hv
    refine (rep hg hr).congr hE.init hgv (fun p hp => h.base p (fun hd => ?_))
    obtain ⟨w, hw, hu⟩ := hg.derived p hd
    have := hu v _ hgv hp
    subst this
    exact absurd hl ((hE.derived_iff v).mpr ⟨p, hw, hd⟩)
  · rw [List.getElem?_eq_none (by rw [hE.initLength]; omega), List.getElem?_eq_none (by rw [enc_length]; omega)]

theorem Encodes.goal_iff {s : α → Prop} (hr : t.Reachable s) : allHold T.goal (enc groups s) ↔ ∀ l ∈ t.goal, l.holds s := by
  obtain ⟨c, hc, hgoal⟩ := hE.goal
  rcases conds_spec hg (goal_cov hg) with ⟨h, _⟩ | ⟨cs, h, hT, hex, _⟩
  · rw [hc] at h
    cases h
  · rw [hc, Py.ok.injEq] at h
    subst h
    rw [hgoal]
    constructor
    · intro hh
      exact (hT c (by simp)).sound (fun l hl => (goal_cov hg l hl).1) (rep hg hr) (fun f hf => hh f (mem_sortFacts.mpr hf))
    · intro hh f hf
      obtain ⟨c', hc', hx⟩ := hex s hr hh
      rw [List.mem_singleton.mp hc'] at hx
      exact hx f (mem_sortFacts.mp hf)

theorem Encodes.plan_sound {p : List (List Char × Nat)} (h : T.HasPlan p) : t.HasPlan p := by
  obtain ⟨x, π, hx, ⟨u, hexec, hgoal⟩, hlab⟩ := h
  obtain ⟨s, hi, rfl⟩ := hE.init_unique hs hg hx
  obtain ⟨as, s', hrun, rfl, hr', hl⟩ := hE.run_sound hs hg ⟨_, [], hi, .nil _⟩ hexec
  refine ⟨s, as, s', hi, hrun, (hE.goal_iff hs hg hr').mp hgoal, ?_⟩
  rw [hlab] at hl
  exact (List.map_injective_iff.mpr (Option.some_injective _) hl).symm

theorem Encodes.plan_complete {p : List (List Char × Nat)} (h : t.HasPlan p) : ∃ p', T.HasPlan p' ∧ p'.Sublist p ∧ (o.keepNoOps = true → p' = p) := by
  obtain ⟨s, as, u, hi, hrun, hgoal, rfl⟩ := h
  obtain ⟨π, p, h1, h2, h3, h4, h5⟩ := hE.run_complete hs hg hrun ⟨_, [], hi, .nil _⟩
  exact ⟨p, ⟨_, π, hE.init_stable hs hg hi, ⟨_, h1, (hE.goal_iff hs hg h2).mpr hgoal⟩, h3⟩, h4, h5⟩

end
end
end Verif.StripsToSas
