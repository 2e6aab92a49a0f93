import Verif.Lemmas.NormalizeRel

/-
The replacement of universal conditions keeps plans.
-/
namespace Verif.Normalize
open Verif.Datalog Verif.Lifted Verif.Pddl
variable {P V O T F : Type} [DecidableEq V]
variable {e : Env P V} {Q Q' : PTask P V O T F} {ar : P → Nat} {fnAr : F → Nat} {final : New P V O T}

theorem Rem.holds (hsort : ∀ l, (e.sortVars l).Perm l) {types : List (V × T)} {has : T → O → Prop} {s s' : GAtom P O → Prop} (hR : Rel e has final s s') {c c' : Cond P V O T} (h : Rem e types final c false c') (hc : c.Lits (fun _ a => Old e a.pred))
    {σ : V → O} (hf : Fine has types c σ) : c'.holds has s' σ ↔ c.holds has s σ :=
  (h.sat hsort hR.old hR.fits hc σ hf _).2 rfl _ _ (fun n p hp => by cases n <;> simp [Pddl.lits, hR.old p hp]) fun _ _ => Iff.rfl

section
variable (hQ : Q.Ok ar fnAr) (hF : Fresh e Q)
include hQ

theorem fine_pre {A : PAction P V O T F} (hA : A ∈ Q.actions) {σ : V → O} (ht : Q.Typed A.params σ) : Fine Q.HasType A.binders A.pre σ :=
  fine_of (hQ.actionNames A hA) (fun p hp => List.mem_append_left _ (List.mem_append_right _ hp)) (fun p hp => List.mem_append_left _ (List.mem_append_left _ hp)) (hQ.preVars A hA) ht

theorem fine_eff {A : PAction P V O T F} (hA : A ∈ Q.actions) {f : PEffect P V O T} (hf : f ∈ A.effects) {σ τ : V → O} (ht : Q.Typed A.params σ) (hE : Ext Q.HasType f.params σ τ) : Fine Q.HasType A.binders f.cond τ := by
  have hsub : ∀ p ∈ f.params ++ f.cond.bound, p ∈ A.binders := fun p hp => List.mem_append_right _ ((eff_binders hf).subset hp)
  refine fine_of (vs := f.params ++ A.params) (hQ.actionNames A hA) (fun p hp => hsub p (List.mem_append_right _ hp)) (fun p hp => ?_) (hQ.effectVars A hA f hf).1 fun p hp => ?_
  · rcases List.mem_append.mp hp with hp | hp
    · exact hsub p (List.mem_append_left _ hp)
    · exact List.mem_append_left _ (List.mem_append_left _ hp)
  · rcases List.mem_append.mp hp with hp | hp
    · exact hE.2 p hp
    · have hn := ((Result.action_names hQ hA).2.2.2 f hf).2
      rw [hE.1 p.1 fun h => hn p.1 (by rw [names_append]; exact List.mem_append_left _ h) (by rw [names_append]; exact List.mem_append_left _ (mem_names_of_mem hp))]
      exact ht p hp

theorem fine_goal {σ : V → O} : Fine Q.HasType Q.goal.bound Q.goal σ := fine_of (vs := []) hQ.goalNames (fun _ => id) (by simp) hQ.goalVars (by simp)
end

namespace Removed
variable (hQ : Q.Ok ar fnAr) (hF : Fresh e Q) (R : Removed e ar Q Q' final)
include hQ hF R

theorem changes_iff {s s' : GAtom P O → Prop} (hR : Rel e Q.HasType final s s') {A A' : PAction P V O T F} (hA : A ∈ Q.actions) (hAA : ActRel e final A A') {σ : V → O} (ht : Q.Typed A.params σ) {n : Bool} {p : GAtom P O} : Q'.Changes n A' σ s' p ↔ Q.Changes n A σ s p := by
  obtain ⟨c', fs', rfl, _, hfs⟩ := hAA
  simp only [PTask.Changes, R.hasType]
  constructor
  · rintro ⟨f', hf', τ, hE, h1, h2, h3⟩
    obtain ⟨f, hf, d, rfl, hd⟩ := forall₂_right hfs f' hf'
    exact ⟨f, hf, τ, hE, h1, h2, (hd.holds hF.sort hR (hF.conds _ (eff_mem hA hf)) (fine_eff hQ hA hf ht hE)).mp h3⟩
  · rintro ⟨f, hf, τ, hE, h1, h2, h3⟩
    obtain ⟨f', hf', d, rfl, hd⟩ := forall₂_left hfs f hf
    exact ⟨{ f with cond := d }, hf', τ, hE, h1, h2, (hd.holds hF.sort hR (hF.conds _ (eff_mem hA hf)) (fine_eff hQ hA hf ht hE)).mpr h3⟩

omit hQ R in
theorem changes_old {s : GAtom P O → Prop} {A : PAction P V O T F} (hA : A ∈ Q.actions) {σ : V → O} {n : Bool} {p : GAtom P O} (h : Q.Changes n A σ s p) : Old e p.pred := by
  obtain ⟨f, hf, τ, _, _, rfl, _⟩ := h
  exact hF.effects A hA f hf

/-- the base atoms after an action fit together -/
theorem result_iff {s s' : GAtom P O → Prop} (hR : Rel e Q.HasType final s s') {A A' : PAction P V O T F} (hA : A ∈ Q.actions) (hAA : ActRel e final A A') {σ : V → O} (ht : Q.Typed A.params σ) :
    (∀ p : GAtom P O, Old e p.pred → (Q.result A σ s p ↔ Q'.result A' σ s' p)) ∧ (∀ p : GAtom P O, ¬ Old e p.pred → ¬ Q.result A σ s p) ∧ ∀ j args, final.length ≤ j → ¬ Q'.result A' σ s' ⟨e.newAxiom j, args⟩ := by
  refine ⟨fun p hp => ?_, fun p hp => ?_, fun j args hj => ?_⟩
  · simp only [PTask.result, R.changes_iff hQ hF hR hA hAA ht, hR.old p hp]
  · rintro (h | h)
    · exact hp (changes_old hF hA h)
    · exact hR.clean p hp h.1
  · rintro (h | h)
    · exact old_new (changes_old hF hA ((R.changes_iff hQ hF hR hA hAA ht).mp h))
    · exact hR.rest j args hj h.1

omit hQ hF in
theorem costValue {σ : V → O} {n : Nat} {k : CostExpr V O F} : Q'.CostValue σ n k ↔ Q.CostValue σ n k := by
  cases k <;> simp [PTask.CostValue, R.values]

omit hQ hF in
theorem names_costs {A A' : PAction P V O T F} (hAA : ActRel e final A A') {σ : V → O} : Q'.instName A' σ = Q.instName A σ ∧ (∀ n, Q'.CostIs A' σ n ↔ Q.CostIs A σ n) ∧ A'.params = A.params ∧ ∀ n, Q'.CostValue σ n A'.cost ↔ Q.CostValue σ n A.cost := by
  obtain ⟨c', fs', rfl, _, _⟩ := hAA
  refine ⟨?_, fun n => ?_, rfl, fun n => R.costValue⟩
  · simp only [PTask.instName, R.objectName]
  · simp only [PTask.CostIs, R.metric, R.costValue]

variable (hst : Q.Stratifiable)
include hst

theorem step_up {s s' t : GAtom P O → Prop} (hR : Rel e Q.HasType final s s') {A : PAction P V O T F} {σ : V → O} (h : Q.Step s A σ t) : ∃ A' t', ActRel e final A A' ∧ Rel e Q.HasType final t t' ∧ Q'.Step s' A' σ t' := by
  obtain ⟨hA, ht, ⟨n, hc⟩, hp, hC⟩ := h
  obtain ⟨A', hA', hAA⟩ := forall₂_left R.actions A hA
  obtain ⟨h1, h2, h3⟩ := R.result_iff hQ hF hR hA hAA ht
  obtain ⟨_, _, h4, h5⟩ := R.names_costs hAA (σ := σ)
  have hclean : ∀ p : GAtom P O, ¬ Old e p.pred → ¬ t p := fun p hp => by
    rw [hC.base p fun hd => hp (derived_is_old hF hd)]
    exact h2 p hp
  obtain ⟨t', ht'⟩ := rel_up hF R hclean
  refine ⟨A', t', hAA, ht', hA', by rw [h4]; exact R.typed.mpr ht, ⟨n, (h5 n).mpr hc⟩, ?_, (R.completes_iff hQ hF ht' h1 h2 h3).mp (PTask.completes2_of hC)⟩
  obtain ⟨c', fs', rfl, hc', _⟩ := hAA
  rw [R.hasType]
  exact (hc'.holds hF.sort hR (hF.conds _ (pre_mem hA)) (fine_pre hQ hA ht)).mpr hp

theorem step_down {s s' t' : GAtom P O → Prop} (hR : Rel e Q.HasType final s s') {A' : PAction P V O T F} {σ : V → O} (h : Q'.Step s' A' σ t') : ∃ A t, ActRel e final A A' ∧ Rel e Q.HasType final t t' ∧ Q.Step s A σ t := by
  obtain ⟨hA', ht, ⟨n, hc⟩, hp, hC⟩ := h
  obtain ⟨A, hA, hAA⟩ := forall₂_right R.actions A' hA'
  obtain ⟨_, _, h4, h5⟩ := R.names_costs hAA (σ := σ)
  rw [h4, R.typed] at ht
  obtain ⟨h1, h2, h3⟩ := R.result_iff hQ hF hR hA hAA ht
  have ht' := R.rel_down hF h3 hC
  refine ⟨A, _, hAA, ht', hA, ht, ⟨n, (h5 n).mp hc⟩, ?_, PTask.completes_of hst ((R.completes_iff hQ hF ht' h1 h2 h3).mpr hC)⟩
  obtain ⟨c', fs', rfl, hc', _⟩ := hAA
  rw [R.hasType] at hp
  exact (hc'.holds hF.sort hR (hF.conds _ (pre_mem hA)) (fine_pre hQ hA ht)).mp hp

theorem run_up {s u : GAtom P O → Prop} {p : List (List Char × Nat)} (h : Q.Run s p u) : ∀ s', Rel e Q.HasType final s s' → ∃ u', Rel e Q.HasType final u u' ∧ Q'.Run s' p u' := by
  induction h with
  | nil s => exact fun s' hR => ⟨s', hR, .nil s'⟩
  | cons s A σ n t p u h1 h2 _ ih =>
    intro s' hR
    obtain ⟨A', t', hAA, ht, hs⟩ := R.step_up hQ hF hst hR h1
    obtain ⟨u', hu, hr⟩ := ih t' ht
    obtain ⟨h3, h4, _, _⟩ := R.names_costs hAA (σ := σ)
    exact ⟨u', hu, h3 ▸ .cons s' A' σ n t' p u' hs ((h4 n).mpr h2) hr⟩

theorem run_down {s' u' : GAtom P O → Prop} {p : List (List Char × Nat)} (h : Q'.Run s' p u') : ∀ s, Rel e Q.HasType final s s' → ∃ u, Rel e Q.HasType final u u' ∧ Q.Run s p u := by
  induction h with
  | nil s' => exact fun s hR => ⟨s, hR, .nil s⟩
  | cons s' A' σ n t' p u' h1 h2 _ ih =>
    intro s hR
    obtain ⟨A, t, hAA, ht, hs⟩ := R.step_down hQ hF hst hR h1
    obtain ⟨u, hu, hr⟩ := ih t ht
    obtain ⟨h3, h4, _, _⟩ := R.names_costs hAA (σ := σ)
    exact ⟨u, hu, h3 ▸ .cons s A σ n t p u hs ((h4 n).mp h2) hr⟩

omit hst in
theorem goal_iff {s s' : GAtom P O → Prop} (hR : Rel e Q.HasType final s s') {σ : V → O} : Q'.goal.holds Q'.HasType s' σ ↔ Q.goal.holds Q.HasType s σ := by
  rw [R.hasType]
  rcases R.goal with h | ⟨k, g, h1, h2, h3⟩
  · exact h.holds hF.sort hR (hF.conds _ goal_mem) (fine_goal hQ)
  · rw [h3, holds_lit, if_neg (by simp)]
    have : SymAtom.inst (⟨e.newAxiom k, []⟩ : SymAtom P V O) σ = ⟨e.newAxiom k, []⟩ := rfl
    rw [this, hR.fits k [] g h1]
    have key : ∀ τ : V → O, g.holds Q.HasType s' τ ↔ Q.goal.holds Q.HasType s τ := fun τ => h2.holds hF.sort hR (hF.conds _ goal_mem) (fine_goal hQ)
    constructor
    · rintro ⟨τ, _, _, h⟩
      refine sat_agree _ (fun v hv => ?_) ((key τ).mp h)
      simpa using (scoped_iff _).mp hQ.goalVars v hv
    · exact fun h => ⟨σ, by simp, rfl, (key σ).mpr h⟩

/-- both tasks have the same plans -/
theorem plan_iff {p : List (List Char × Nat)} : Q'.HasPlan p ↔ Q.HasPlan p := by
  have h1 : ∀ q : GAtom P O, Old e q.pred → (q ∈ Q.init ↔ q ∈ Q'.init) := fun q _ => by rw [R.init]
  have h2 : ∀ q : GAtom P O, ¬ Old e q.pred → ¬ q ∈ Q.init := fun q hq h => hq (hF.init q h)
  have h3 : ∀ j args, final.length ≤ j → ¬ (⟨e.newAxiom j, args⟩ : GAtom P O) ∈ Q'.init := fun j args _ h => hF.init _ (R.init ▸ h) j rfl
  constructor
  · rintro ⟨s', u', hi, hr, hg⟩
    have hR := R.rel_down hF h3 hi
    obtain ⟨u, hu, hr⟩ := R.run_down hQ hF hst hr _ hR
    exact ⟨_, u, PTask.completes_of hst ((R.completes_iff hQ hF hR h1 h2 h3).mpr hi), hr, fun σ => (R.goal_iff hQ hF hu).mp (hg σ)⟩
  · rintro ⟨s, u, hi, hr, hg⟩
    have hclean : ∀ p : GAtom P O, ¬ Old e p.pred → ¬ s p := fun p hp => by
      rw [hi.base p fun hd => hp (derived_is_old hF hd)]
      exact h2 p hp
    obtain ⟨s', hR⟩ := rel_up hF R hclean
    obtain ⟨u', hu, hr⟩ := R.run_up hQ hF hst hr s' hR
    exact ⟨s', u', (R.completes_iff hQ hF hR h1 h2 h3).mp (PTask.completes2_of hi), hr, fun σ => (R.goal_iff hQ hF hu).mpr (hg σ)⟩
end Removed
end Verif.Normalize
