import Verif.Model.Subtasks
import Verif.Lemmas.CegarRun
import Verif.Lemmas.SaturationRun
import Verif.Lemmas.DomAbsTask

/-
The abstractions of subtasks are sound for the task.
-/
namespace Verif.Cart
open Verif.AdaptiveQueue

variable {t : Task}

/-- the states of `t` are converted to states of the subtask `t'` -/
structure Sim (t t' : Task) (conv : State → Option State) : Prop where
  cart : CartesianTask t'
  ops : t'.ops.length = t.ops.length
  init : conv t.init = some t'.init
  step : ∀ s op s' u, t.Reachable s → t.Step s op s' → conv s = some u → ∃ u', conv s' = some u' ∧ t'.Step u op u'
  goal : ∀ s u, t.Reachable s → allHold t.goal s → conv s = some u → allHold t'.goal u ∨ ¬SIn (Core t') u

theorem reachable_ind {P : State → Prop} (h0 : P t.init) (h1 : ∀ s op s', t.Reachable s → P s → t.Step s op s' → P s') {s : State} (h : t.Reachable s) : P s := by
  obtain ⟨π, h⟩ := h
  have key : ∀ s π u, t.Exec s π u → t.Reachable s → P s → P u := by
    intro s π u h
    induction h with
    | nil s => exact fun _ h => h
    | cons s i o s' π u ho ha hsucc _ ih => exact fun hr hp => ih (Reachable.step hr ⟨o, ho, ha, hsucc⟩) (h1 s i s' hr hp ⟨o, ho, ha, hsucc⟩)
  exact key _ _ _ h (Reachable.init t) h0

theorem Sim.defined {t' : Task} {conv : State → Option State} (h : Sim t t' conv) {s : State} (hr : t.Reachable s) : ∃ u, conv s = some u ∧ t'.ValidState u := by
  refine reachable_ind (P := fun s => ∃ u, conv s = some u ∧ t'.ValidState u) ⟨_, h.init, h.cart.wf.init⟩ ?_ hr
  rintro s op s' hr ⟨u, h1, h2⟩ hst
  obtain ⟨u', k1, k2⟩ := h.step s op s' u hr hst h1
  exact ⟨u', k1, (step_values h.cart h2 k2).1⟩

theorem Sim.sound (H : StdHeap Nat) {t' : Task} {conv : State → Option State} (h : Sim t t' conv) (maxStates : Nat) (sched : List Nat → Schedule) :
    Sound t ⟨conv, fun costs => (cegar H t' maxStates (sched costs) costs).map (·.1)⟩ (max 1 maxStates) := by
  constructor
  intro costs C hlen hle hb hN
  obtain ⟨a, o, k1, k2, _⟩ := cegar_spec H h.cart (by rw [h.ops]; exact hlen) hle hb hN (sched costs)
  refine ⟨a, by simp only [k1, Option.map_some], ?_, k2.size⟩
  have hin : ∀ s u i, conv s = some u → t'.ValidState u → (a.stateIn conv s = some i ↔ In a i u) := by
    intro s u i h1 h2
    unfold Abs.stateIn
    rw [h1]
    exact k2.inv.stateOf_iff h2
  refine ⟨by have := k2.inv.ts; rw [h.ops] at this; exact this, fun s hr => ?_, ?_, k2.range, fun s i hr hg hs => ?_, fun s op s' i j hr hst hi hj => ?_⟩
  · obtain ⟨u, h1, h2⟩ := h.defined hr
    obtain ⟨i, hi⟩ := k2.inv.exists_in h2
    exact ⟨i, hi.lt, (hin s u i h1 h2).mpr hi⟩
  · exact (hin _ _ _ h.init h.cart.wf.init).mpr k2.inv.init
  · obtain ⟨u, h1, h2⟩ := h.defined hr
    exact k2.cover u i ((hin s u i h1 h2).mp hs) (h.goal s u hr hg h1)
  · obtain ⟨u, h1, h2⟩ := h.defined hr
    obtain ⟨u', h3, h4⟩ := h.step s op s' u hr hst h1
    have h5 := (step_values h.cart h2 h4).1
    exact k2.inv.step u u' op i j h2 h4 ((hin s u i h1 h2).mp hi) ((hin s' u' j h3 h5).mp hj)

/-! ### The kinds of subtasks -/

theorem not_reach_self (ht : CartesianTask t) {f : Fact} (hi : ¬ f.holds t.init) : ¬ t.RelReach (NotAchieving t f) t.init f := by
  intro h
  cases h with
  | state _ k => exact hi k
  | effect i cs _ c he hR _ =>
    cases he with
    | op j o e ho hm => exact hR j rfl o ho e hm rfl
    | ax a e ha => rw [ht.noAxioms] at ha; simp at ha

theorem goalFact_landmark (ht : CartesianTask t) {f : Fact} (hf : f ∈ goalFacts t) : RelaxedLandmark t f := by
  unfold goalFacts at hf
  rw [List.mem_filter] at hf
  obtain ⟨h1, h2⟩ := hf
  simp only [decide_eq_true_eq] at h2
  exact ⟨ht.wf.goalFacts f h1, h2, fun h => not_reach_self ht h2 (h f h1)⟩

theorem modifiedGoal_cart (ht : CartesianTask t) {f : Fact} (hf : t.ValidFact f) : CartesianTask (modifiedGoal t f) := by
  refine ⟨⟨?_, ht.wf.domains, ht.wf.init, ht.wf.effFact, ht.wf.effCond, ht.wf.pre, ?_⟩, ht.noAxioms, ht.unconditional, ht.pre, ht.eff, by simp [modifiedGoal]⟩
  · have h := ht.wf.ax
    exact ⟨h.single, h.headDerived, h.headNonDefault, h.oneValue, h.validHead, h.validBody, h.someAxioms, h.validDefault, h.stratPos, h.stratNeg⟩
  · intro g hg
    simp [modifiedGoal] at hg
    subst hg
    exact hf

theorem relEffect_modified {f : Fact} {i : Option Nat} {cs : List Fact} {g : Fact} {c : Nat} (h : (modifiedGoal t f).RelEffect i cs g c) : t.RelEffect i cs g c := by
  cases h with
  | op j o e ho he => exact .op j o e ho he
  | ax a e ha he => exact .ax a e ha he

theorem relReach_modified {f : Fact} {R : Nat → Prop} {s : State} {g : Fact} (h : (modifiedGoal t f).RelReach R s g) : t.RelReach R s g := by
  induction h with
  | state f h => exact .state f h
  | effect i cs f c he hR _ ih => exact .effect i cs f c (relEffect_modified he) hR ih

theorem stable_modified {f : Fact} {s s' : State} (hax : t.axioms = []) (hl : ∀ v, t.layerOf v = none) (h : StableModel t s s') : StableModel (modifiedGoal t f) s s' :=
  ⟨h.length, h.base, fun g hg => absurd (hl _) hg, fun v hv => absurd (hl v) hv⟩

theorem step_modified (ht : CartesianTask t) {f : Fact} {s s' : State} {op : Nat} (h : t.Step s op s') : (modifiedGoal t f).Step s op s' := by
  obtain ⟨o, h1, h2, m, h3, h4⟩ := h
  exact ⟨o, h1, h2, m, h3, stable_modified ht.noAxioms (ht.wf.ax.someAxioms ht.noAxioms) h4⟩

theorem not_core_of_landmark {f : Fact} (hf : RelaxedLandmark t f) {s : State} (hg : allHold t.goal s) : f.holds s ∨ ∃ g ∈ t.goal, g ≠ f ∧ g.holds s ∧ ¬ t.RelReach (NotAchieving t f) t.init g := by
  have h := hf.landmark
  unfold Task.IsRelaxedPlan at h
  push Not at h
  obtain ⟨g, h1, h2⟩ := h
  by_cases hgf : g = f
  · exact Or.inl (hgf ▸ hg g h1)
  · exact Or.inr ⟨g, h1, hgf, hg g h1, h2⟩

theorem sim_original (ht : CartesianTask t) : Sim t t some :=
  ⟨ht, rfl, rfl, fun s op s' u _ hst hu => by simp at hu; subst hu; exact ⟨s', rfl, hst⟩, fun s u _ hg hu => by simp at hu; subst hu; exact Or.inl hg⟩

theorem sim_fact (ht : CartesianTask t) {f : Fact} (hf : RelaxedLandmark t f) : Sim t (modifiedGoal t f) some := by
  refine ⟨modifiedGoal_cart ht hf.valid, rfl, rfl, fun s op s' u _ hst hu => ?_, fun s u _ hg hu => ?_⟩
  · simp at hu; subst hu; exact ⟨s', rfl, step_modified ht hst⟩
  · simp at hu; subst hu
    rcases not_core_of_landmark hf hg with h | ⟨g, h1, h2, h3, h4⟩
    · left; intro g hg; simp [modifiedGoal] at hg; subst hg; exact h
    · right
      intro hc
      rcases hc g.var g.val h3 f rfl with k | k
      · exact h2 k
      · exact h4 (relReach_modified k)

theorem relReach_valid (ht : CartesianTask t) {R : Nat → Prop} {f : Fact} (h : t.RelReach R t.init f) : t.ValidFact f := by
  cases h with
  | state _ h =>
    have hlt : f.var < t.vars.length := by rw [← ht.wf.init.1]; exact (List.getElem?_eq_some_iff.mp h).1
    exact ⟨_, List.getElem?_eq_getElem hlt, ht.wf.init.2 _ _ _ h (List.getElem?_eq_getElem hlt)⟩
  | effect i cs _ c he _ _ =>
    cases he with
    | op j o e ho hm => exact ht.wf.effFact o (List.mem_of_getElem? ho) e hm
    | ax a e ha => rw [ht.noAxioms] at ha; simp at ha

/-- Facts that are reachable in the abstracted task before the landmark are reachable in the task before the landmark. -/
theorem relReach_abstract (ht : CartesianTask t) {f : Fact} (hf : t.ValidFact f) (hi : ¬ f.holds t.init) {groups : Nat → List (List Nat)} {α : Nat → Nat → Nat} {t' : Task} (hd : DomainAbstraction t α t')
    (hα : ∀ (v : Nat) (d : Variable), t.vars[v]? = some d → ∀ x y, x < d.domain → y < d.domain → (α v x = α v y ↔ x = y ∨ ∃ g ∈ groups v, x ∈ g ∧ y ∈ g))
    (hg : ∀ v, ∀ g ∈ groups v, ∀ x ∈ g, t.RelReach (NotAchieving t f) t.init ⟨v, x⟩) {h' : Fact} (hr : t'.RelReach (NotAchieving t' (f.rename α)) t'.init h') :
    ∀ h, t.ValidFact h → h.rename α = h' → t.RelReach (NotAchieving t f) t.init h := by
  have hnr : ¬ t.RelReach (NotAchieving t f) t.init f := not_reach_self ht hi
  -- facts that are mapped to the same fact
  have hsame : ∀ a b : Fact, t.ValidFact a → t.ValidFact b → a.rename α = b.rename α → t.RelReach (NotAchieving t f) t.init a → t.RelReach (NotAchieving t f) t.init b := by
    rintro ⟨va, xa⟩ ⟨vb, xb⟩ ⟨da, e1, e2⟩ ⟨db, e3, e4⟩ he ha
    simp only [Fact.rename, Fact.mk.injEq] at he
    simp only at e1 e2 e3 e4
    obtain ⟨rfl, he⟩ := he
    rw [e1] at e3; simp at e3; subst e3
    rcases (hα va da e1 xa xb e2 e4).mp he with rfl | ⟨g, k1, _, k3⟩
    · exact ha
    · exact hg va g k1 xb k3
  have hfonly : ∀ a : Fact, t.ValidFact a → a.rename α = f.rename α → a = f := by
    rintro ⟨va, xa⟩ ⟨da, e1, e2⟩ he
    obtain ⟨df, e3, e4⟩ := hf
    simp only [Fact.rename, Fact.mk.injEq] at he
    simp only at e1 e2
    obtain ⟨rfl, he⟩ := he
    rw [e1] at e3; simp at e3; subst e3
    rcases (hα f.var da e1 xa f.val e2 e4).mp he with rfl | ⟨g, k1, _, k3⟩
    · rfl
    · exact absurd (hg f.var g k1 f.val k3) hnr
  induction hr with
  | state k hk =>
    intro h hv he
    subst he
    have hlt : h.var < t.init.length := by rw [ht.wf.init.1]; obtain ⟨d, e, _⟩ := hv; exact (List.getElem?_eq_some_iff.mp e).1
    have hx := List.getElem?_eq_getElem hlt
    have hr0 : t.RelReach (NotAchieving t f) t.init ⟨h.var, t.init[h.var]⟩ := .state _ hx
    refine hsame _ h (relReach_valid ht hr0) hv ?_ hr0
    have : (h.rename α).holds t'.init := hk
    rw [hd.init] at this
    unfold Fact.holds Fact.rename at this
    rw [DomAbs.rename_getElem?, hx] at this
    simp at this
    simp [Fact.rename, this]
  | effect i cs k c hef hR _ ih =>
    intro h hv he
    subst he
    generalize hk : h.rename α = k at hef
    cases hef with
    | op j o' e' ho' he' =>
      rw [hd.ops, List.getElem?_map] at ho'
      cases ho : t.ops[j]? with
      | none => simp [ho] at ho'
      | some o =>
        simp [ho] at ho'
        subst ho'
        obtain ⟨e, hm, rfl⟩ := List.mem_map.mp he'
        simp only at hk
        have hom := List.mem_of_getElem? ho
        refine hsame e.fact h (ht.wf.effFact o hom e hm) hv hk.symm ?_
        refine .effect (some j) _ _ _ (.op j o e ho hm) (fun j' hj' => ?_) (fun q hq => ?_)
        · simp at hj'; subst hj'
          intro o2 ho2 e2 he2 hc
          rw [ho] at ho2; simp at ho2; subst ho2
          refine hR j rfl (o.rename α) (by rw [hd.ops, List.getElem?_map, ho]; rfl) ⟨e2.conds, e2.fact.rename α⟩ (List.mem_map.mpr ⟨e2, he2, rfl⟩) ?_
          simp [hc]
        · rw [ht.unconditional o hom e hm, List.append_nil] at hq
          exact ih (q.rename α) (List.mem_append_left _ (List.mem_map.mpr ⟨q, hq, rfl⟩)) q (ht.wf.pre o hom q hq) rfl
    | ax a e ha => rw [hd.axioms] at ha; simp at ha

theorem sim_combined (ht : CartesianTask t) {f : Fact} {vg : DomAbs.VarToGroups} (hl : (SubtaskKind.combined f vg).Legal t) : ∃ t' conv, DomAbs.abstractTask (modifiedGoal t f) vg = some (t', conv) ∧ Sim t t' conv := by
  obtain ⟨hf, hk, hlg, hg⟩ := hl
  have ht1 := modifiedGoal_cart ht hf.valid
  obtain ⟨t', conv, α, h1, h2, h3, h4⟩ := DomAbs.abstractTask_spec ht1.wf ht1.noAxioms ht1.unconditional (vg := vg) hk ⟨hlg.range, hlg.values, hlg.nonempty, hlg.disjoint⟩
  refine ⟨t', conv, h1, h2.cartesian ht1, by rw [h2.ops, List.length_map]; rfl, by rw [h2.init]; exact h3 _ ht1.wf.init, fun s op s' u hr hst hu => ?_, fun s u hr hgl hu => ?_⟩
  all_goals
    have hv : t.ValidState s := (sim_original ht).defined hr |>.elim (fun u hu => by have := hu.1; simp at this; subst this; exact hu.2)
    rw [h3 s hv] at hu
    simp at hu
    subst hu
  · exact ⟨_, h3 s' (step_values ht hv hst).1, h2.step ht1.wf ht1.noAxioms ht1.unconditional (step_modified ht hst)⟩
  · have hgt : t'.goal = [f.rename α] := by rw [h2.goal]; rfl
    rcases not_core_of_landmark hf hgl with h | ⟨g, k1, k2, k3, k4⟩
    · left
      rw [hgt]
      intro g hg
      simp at hg; subst hg
      exact DomAbs.holds_rename h
    · right
      intro hc
      have hgv := ht.wf.goalFacts g k1
      have hd : ∀ h', t'.RelReach (NotAchieving t' (f.rename α)) t'.init h' → ∀ h, (modifiedGoal t f).ValidFact h → h.rename α = h' → (modifiedGoal t f).RelReach (NotAchieving (modifiedGoal t f) f) (modifiedGoal t f).init h :=
        fun h' hr => relReach_abstract ht1 hf.valid hf.init h2 h4 (fun v g hg' x hx => by
          have := hg v g hg' x hx
          have conv : ∀ {q : Fact}, t.RelReach (NotAchieving t f) t.init q → (modifiedGoal t f).RelReach (NotAchieving (modifiedGoal t f) f) (modifiedGoal t f).init q := by
            intro q hq
            induction hq with
            | state f h => exact .state f h
            | effect i cs f c he hR _ ih =>
              refine .effect i cs f c ?_ hR ih
              cases he with
              | op j o e ho he => exact .op j o e ho he
              | ax a e ha he => exact .ax a e ha he
          exact conv this) hr
      rcases hc (g.rename α).var (g.rename α).val (DomAbs.holds_rename k3) _ hgt with k | k
      · -- the goal fact is not combined with the landmark
        have : (⟨g.var, g.val⟩ : Fact) = f := by
          obtain ⟨d, e1, e2⟩ := hgv
          obtain ⟨d', e3, e4⟩ := hf.valid
          simp only [Fact.rename, Fact.mk.injEq] at k
          obtain ⟨kv, kx⟩ := k
          rw [kv] at e1 kx
          rw [e1] at e3; simp at e3; subst e3
          rcases (h4 f.var d e1 g.val f.val e2 e4).mp kx with h | ⟨gr, q1, _, q3⟩
          · rw [kv, h]
          · exfalso
            exact not_reach_self ht hf.init (hg f.var gr q1 f.val q3)
        exact k2 this
      · exact k4 (relReach_modified (hd _ k g hgv rfl))

theorem cegarSubtask_sound (H : StdHeap Nat) (ht : CartesianTask t) {kind : SubtaskKind} (hl : kind.Legal t) (maxStates : Nat) (sched : List Nat → Schedule) : Sound t (cegarSubtask H t kind maxStates sched) (max 1 maxStates) := by
  unfold cegarSubtask
  cases kind with
  | original => exact (sim_original ht).sound H maxStates sched
  | fact f => exact (sim_fact ht hl).sound H maxStates sched
  | combined f vg =>
    obtain ⟨t', conv, h1, h2⟩ := sim_combined ht hl
    simp only [subtaskOf, h1]
    exact h2.sound H maxStates sched

end Verif.Cart
