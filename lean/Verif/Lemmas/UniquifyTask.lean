import Verif.Lemmas.UniquifyCond
import Verif.Lemmas.NormalizeTask

/-
Renaming of variables in actions, axioms and tasks.
-/
namespace Verif.Uniquify
open Verif.Datalog Verif.Lifted Verif.Pddl
open Verif.Normalize (freeVars sat_agree occurs_agree forall₂_left forall₂_right scoped_iff)
variable {P V O T F : Type} [DecidableEq V] {num : V → Nat → V}

/-- the condition after renaming, with the same free variables -/
structure Eqv (c c' : Cond P V O T) : Prop where
  sat : ∀ (has : T → O → Prop) (ev under : Bool → GAtom P O → Prop) (τ : V → O), c'.sat has ev under τ ↔ c.sat has ev under τ
  occurs : ∀ (has : T → O → Prop) (n : Bool) (p : GAtom P O) (u : Bool) (τ : V → O), c'.occurs has n p u τ ↔ c.occurs has n p u τ
  lits : ∀ q : Bool → SymAtom P V O → Prop, (∀ n a ren, q n a → q n (renameAtom ren a)) → c.Lits q → c'.Lits q
  free : ∀ w ∈ freeVars c', w ∈ freeVars c
  flat : c.Flat → c'.Flat
  proper : ∀ has : T → O → Prop, c.Proper has → c'.Proper has

theorem Eqv.of {tm : List (V × T)} {c c' : Cond P V O T} (h : Same num tm [] c c') (hS : Safe num tm [] c) : Eqv c c' where
  sat has ev under τ := h.sat has ev under τ hS
  occurs has n p u τ := h.occurs has n p u τ hS
  lits := h.lits
  free w hw := by obtain ⟨v, hv, rfl⟩ := h.free w hw; exact hv
  flat := h.flat
  proper := h.proper

theorem Eqv.scoped {c c' : Cond P V O T} (h : Eqv c c') {vs : List V} (hs : c.Scoped vs) : c'.Scoped vs := (scoped_iff _).mpr fun v hv => (scoped_iff _).mp hs v (h.free v hv)

theorem safe_of_scoped {tm : List (V × T)} {c : Cond P V O T} (h : c.Scoped (names tm)) : Safe num tm [] c := fun v hv => .inl ((scoped_iff _).mp h v hv)

theorem renInv_nil {tm : List (V × T)} : RenInv tm ([] : List (V × V)) := fun x hx => by simp at hx

/-- the effect after renaming, for an action with parameters `vs` -/
structure EffOk (vs : List V) (f f' : PEffect P V O T) : Prop where
  negated : f'.negated = f.negated
  atom : ∃ ren, f'.atom = renameAtom ren f.atom
  changes : ∀ (has : T → O → Prop) (s : GAtom P O → Prop) (σ : V → O) (p : Bool × GAtom P O), (∃ τ, Ext has f'.params σ τ ∧ f'.negated = p.1 ∧ f'.atom.inst τ = p.2 ∧ f'.cond.holds has s τ) ↔ ∃ τ, Ext has f.params σ τ ∧ f.negated = p.1 ∧ f.atom.inst τ = p.2 ∧ f.cond.holds has s τ
  lits : ∀ q : Bool → SymAtom P V O → Prop, (∀ n a ren, q n a → q n (renameAtom ren a)) → f.cond.Lits q → f'.cond.Lits q
  flat : f.cond.Flat → f'.cond.Flat
  proper : ∀ has : T → O → Prop, f.cond.Proper has → f'.cond.Proper has
  inScope : f'.cond.Scoped (names f'.params ++ vs)
  vars : ∀ v ∈ f'.atom.vars, v ∈ names f'.params ++ vs

/-- the variables that an effect introduces -/
def effBinders (f : PEffect P V O T) : List (V × T) := f.params ++ f.cond.bound

theorem uniqEffect_spec (hnum : ∀ v i j, num v i = num v j → i = j) {vs : List V} {f : PEffect P V O T} {tm : List (V × T)} (hvs : vs ⊆ names tm) (hd : (names f.params).Nodup) (hd' : f.cond.Distinct) (hs : f.cond.Scoped (names f.params ++ vs)) (ha : ∀ v ∈ f.atom.vars, v ∈ names f.params ++ vs) :
    ∃ f', uniqEffect num f tm = some (f', tm ++ effBinders f') ∧ NewNames tm (effBinders f') ∧ EffOk vs f f' := by
  obtain ⟨ps', tm', ren', h1, hP⟩ := uniqParams_spec hnum f.params tm [] hd renInv_nil
  obtain ⟨c', h2, h3, h4⟩ := uniq_spec hnum f.cond tm' ren' hd' hP.inv
  rw [scoped_iff] at hs
  have hsafe : Safe num tm' ren' f.cond := hP.safe fun v hv hn => .inl (hvs ((List.mem_append.mp (hs v hv)).resolve_left hn))
  have hcap : ∀ v, (v ∈ freeVars f.cond ∨ v ∈ f.atom.vars) → v ∉ names f.params → rn [] v ∉ names ps' := by
    intro v hv hn hc
    exact hP.fresh _ hc (hvs ((List.mem_append.mp (hv.elim (hs v) (ha v))).resolve_left hn))
  have hmem : ∀ v, v ∈ names f.params ++ vs → rn ren' v ∈ names ps' ++ vs := by
    intro v hv
    by_cases hp : v ∈ names f.params
    · exact List.mem_append_left _ (hP.mem hp)
    · rw [hP.other v hp]
      exact List.mem_append_right _ ((List.mem_append.mp hv).resolve_left hp)
  have ht := hP.types
  subst ht
  refine ⟨⟨ps', c', f.negated, renameAtom ren' f.atom⟩, by simp only [uniqEffect, h1, h2, Option.map_some, effBinders, List.append_assoc], NewNames.append ⟨hP.nodup, hP.fresh⟩ h3, rfl, ⟨ren', rfl⟩, ?_, h4.lits, h4.flat, h4.proper, ?_, ?_⟩
  · intro has s σ p
    constructor
    · rintro ⟨τ', hE, hn, hp, hc⟩
      obtain ⟨σ', h5, h6⟩ := hP.ext_down hcap hE
      refine ⟨σ', h5, hn, ?_, sat_agree _ (fun v hv => h6 v (.inl hv)) ((h4.sat _ _ _ _ hsafe).mp hc)⟩
      rw [← hp]
      exact (inst_agree fun v hv => (h6 v (.inr hv)).symm).trans inst_rename.symm
    · rintro ⟨σ', hE, hn, hp, hc⟩
      obtain ⟨τ', h5, h6⟩ := hP.ext_up (τ := σ) hcap hE
      refine ⟨τ', h5, hn, ?_, (h4.sat _ _ _ _ hsafe).mpr (sat_agree _ (fun v hv => (h6 v (.inl hv)).symm) hc)⟩
      rw [← hp]
      exact inst_rename.trans (inst_agree fun v hv => h6 v (.inr hv))
  · rw [scoped_iff]
    intro w hw
    obtain ⟨v, hv, rfl⟩ := h4.free w hw
    exact hmem v (hs v hv)
  · intro w hw
    rw [vars_rename] at hw
    obtain ⟨v, hv, rfl⟩ := List.mem_map.mp hw
    exact hmem v (ha v hv)

theorem uniqEffects_spec (hnum : ∀ v i j, num v i = num v j → i = j) {vs : List V} : ∀ {fs : List (PEffect P V O T)} {tm : List (V × T)}, vs ⊆ names tm →
    (∀ f ∈ fs, (names f.params).Nodup ∧ f.cond.Distinct ∧ f.cond.Scoped (names f.params ++ vs) ∧ ∀ v ∈ f.atom.vars, v ∈ names f.params ++ vs) →
    ∃ fs', uniqEffects num fs tm = some (fs', tm ++ fs'.flatMap effBinders) ∧ NewNames tm (fs'.flatMap effBinders) ∧ List.Forall₂ (EffOk vs) fs fs'
  | [], tm, _, _ => ⟨[], by simp [uniqEffects], .nil, .nil⟩
  | f :: fs, tm, hvs, h => by
    obtain ⟨h1, h2, h3, h4⟩ := h f List.mem_cons_self
    obtain ⟨f', h5, h6, h7⟩ := uniqEffect_spec hnum hvs h1 h2 h3 h4
    obtain ⟨fs', h8, h9, h10⟩ := uniqEffects_spec hnum (fs := fs) (tm := tm ++ effBinders f') (List.Subset.trans hvs (by rw [names_append]; exact List.subset_append_left _ _)) (fun g hg => h g (List.mem_cons_of_mem _ hg))
    refine ⟨f' :: fs', by simp only [uniqEffects, h5, h8, Option.map_some, List.flatMap_cons, List.append_assoc], ?_, .cons h7 h10⟩
    rw [List.flatMap_cons]
    exact h6.append h9

/-- the action after renaming -/
structure ActOk (A A' : PAction P V O T F) : Prop where
  name : A'.name = A.name
  params : A'.params = A.params
  external : A'.external = A.external
  cost : A'.cost = A.cost
  pre : Eqv A.pre A'.pre
  effects : List.Forall₂ (EffOk (names A.params)) A.effects A'.effects
  nodup : (names A'.binders).Nodup

/-- the axiom after renaming -/
structure AxOk (x x' : PAxiom P V O T) : Prop where
  pred : x'.pred = x.pred
  params : x'.params = x.params
  external : x'.external = x.external
  cond : Eqv x.cond x'.cond
  nodup : (names x'.binders).Nodup

/-- the task after renaming -/
structure TaskOk (Q Q' : PTask P V O T F) : Prop where
  eq : Q'.eq = Q.eq
  objectName : Q'.objectName = Q.objectName
  supertypes : Q'.supertypes = Q.supertypes
  objects : Q'.objects = Q.objects
  init : Q'.init = Q.init
  values : Q'.values = Q.values
  metric : Q'.metric = Q.metric
  actions : List.Forall₂ ActOk Q.actions Q'.actions
  axs : List.Forall₂ AxOk Q.axioms Q'.axioms
  goal : Eqv Q.goal Q'.goal
  goalNames : (names Q'.goal.bound).Nodup

omit [DecidableEq V] in
theorem mapAll_forall₂ {α β : Type} {f : α → Option β} {R : α → β → Prop} : ∀ {l : List α}, (∀ a ∈ l, ∃ b, f a = some b ∧ R a b) → ∃ m, Mas.mapAll f l = some m ∧ List.Forall₂ R l m
  | [], _ => ⟨[], rfl, .nil⟩
  | a :: l, h => by
    obtain ⟨b, h1, h2⟩ := h a List.mem_cons_self
    obtain ⟨m, h3, h4⟩ := mapAll_forall₂ (l := l) fun a ha => h a (List.mem_cons_of_mem _ ha)
    exact ⟨b :: m, by simp [Mas.mapAll, h1, h3], .cons h2 h4⟩

variable {Q Q' : PTask P V O T F} {ar : P → Nat} {fnAr : F → Nat}

theorem uniqTask_spec (hnum : ∀ v i j, num v i = num v j → i = j) (hQ : Q.Basic ar fnAr) (hD : Q.Distinct) : ∃ Q', uniqTask num Q = some Q' ∧ TaskOk Q Q' := by
  obtain ⟨As, h1, h2⟩ := mapAll_forall₂ (f := uniqAction num) (R := ActOk) (l := Q.actions) (by
    intro A hA
    obtain ⟨c', h1, h2, h3⟩ := uniq_spec hnum A.pre A.params [] (hD.conditions _ (Normalize.pre_mem hA)) renInv_nil
    obtain ⟨fs', h4, h5, h6⟩ := uniqEffects_spec hnum (vs := names A.params) (fs := A.effects) (tm := A.params ++ c'.bound) (by rw [names_append]; exact List.subset_append_left _ _) (by
      intro f hf
      have := hQ.effectVars A hA f hf
      rw [names_append] at this
      exact ⟨hD.effects A hA f hf, hD.conditions _ (Normalize.eff_mem hA hf), this⟩)
    refine ⟨{ A with pre := c', effects := fs' }, by simp only [uniqAction, h1, h4, Option.map_some], rfl, rfl, rfl, rfl, .of h3 (safe_of_scoped (hQ.preVars A hA)), h6, ?_⟩
    have := (h2.append h5).all (hD.actions A hA)
    rw [← List.append_assoc] at this
    exact this)
  obtain ⟨xs, h3, h4⟩ := mapAll_forall₂ (f := uniqAxiom num) (R := AxOk) (l := Q.axioms) (by
    intro x hx
    obtain ⟨c', h1, h2, h3⟩ := uniq_spec hnum x.cond x.params [] (hD.conditions _ (Normalize.ax_mem hx)) renInv_nil
    exact ⟨{ x with cond := c' }, by simp only [uniqAxiom, h1, Option.map_some], rfl, rfl, rfl, .of h3 (safe_of_scoped (hQ.axiomVars x hx)), h2.all (hD.axs x hx)⟩)
  obtain ⟨g, h5, h6, h7⟩ := uniq_spec hnum Q.goal [] [] (hD.conditions _ Normalize.goal_mem) renInv_nil
  exact ⟨{ Q with actions := As, axioms := xs, goal := g }, by simp only [uniqTask, h1, h3, h5, Option.map_some], rfl, rfl, rfl, rfl, rfl, rfl, rfl, h2, h4, .of h7 (safe_of_scoped hQ.goalVars), h6.1⟩

theorem AxOk.head {x x' : PAxiom P V O T} (h : AxOk x x') (σ : V → O) : x'.head σ = x.head σ := by
  simp only [PAxiom.head, h.pred, h.params, h.external]

section
variable (h : TaskOk Q Q')
include h

theorem TaskOk.hasType : Q'.HasType = Q.HasType := by
  funext t o
  simp only [PTask.HasType, h.objects, h.supertypes]

theorem TaskOk.typed : Q'.Typed = (Q.Typed : List (V × T) → (V → O) → Prop) := by
  funext ps σ
  simp only [PTask.Typed, h.hasType]

theorem TaskOk.derived : Q'.Derived = Q.Derived := by
  funext p
  refine propext ⟨?_, ?_⟩
  · rintro ⟨x', hx', hp⟩
    obtain ⟨x, hx, hR⟩ := forall₂_right h.axs x' hx'
    exact ⟨x, hx, hR.pred ▸ hp⟩
  · rintro ⟨x, hx, hp⟩
    obtain ⟨x', hx', hR⟩ := forall₂_left h.axs x hx
    exact ⟨x', hx', hR.pred.trans hp⟩

theorem TaskOk.ruleLits : Q'.ruleLits = Q.ruleLits := by
  funext s D n p
  simp only [PTask.ruleLits, h.derived]

theorem TaskOk.derives {s : GAtom P O → Prop} {p : GAtom P O} : Q'.Derives s p ↔ Q.Derives s p := by
  unfold PTask.Derives
  refine forall_congr' fun D => imp_congr ?_ Iff.rfl
  rw [h.ruleLits, h.typed, h.hasType]
  constructor
  · intro hc x hx σ ht hs
    obtain ⟨x', hx', hR⟩ := forall₂_left h.axs x hx
    rw [← hR.head σ]
    exact hc x' hx' σ (hR.params ▸ ht) ((hR.cond.sat _ _ _ _).mpr hs)
  · intro hc x' hx' σ ht hs
    obtain ⟨x, hx, hR⟩ := forall₂_right h.axs x' hx'
    rw [hR.head σ]
    exact hc x hx σ (hR.params ▸ ht) ((hR.cond.sat _ _ _ _).mp hs)

theorem TaskOk.completes {b s : GAtom P O → Prop} : Q'.Completes b s ↔ Q.Completes b s :=
  ⟨fun hc => ⟨fun p hp => hc.base p (h.derived ▸ hp), fun p hp => (hc.derived p (h.derived ▸ hp)).trans h.derives⟩,
    fun hc => ⟨fun p hp => hc.base p (h.derived ▸ hp), fun p hp => (hc.derived p (h.derived ▸ hp)).trans h.derives.symm⟩⟩

theorem TaskOk.changes {A A' : PAction P V O T F} (hR : ActOk A A') {n : Bool} {σ : V → O} {s : GAtom P O → Prop} {p : GAtom P O} : Q'.Changes n A' σ s p ↔ Q.Changes n A σ s p := by
  unfold PTask.Changes
  rw [h.hasType]
  constructor
  · rintro ⟨f', hf', h'⟩
    obtain ⟨f, hf, hF⟩ := forall₂_right hR.effects f' hf'
    exact ⟨f, hf, (hF.changes _ s σ (n, p)).mp h'⟩
  · rintro ⟨f, hf, h'⟩
    obtain ⟨f', hf', hF⟩ := forall₂_left hR.effects f hf
    exact ⟨f', hf', (hF.changes _ s σ (n, p)).mpr h'⟩

theorem TaskOk.result {A A' : PAction P V O T F} (hR : ActOk A A') : Q'.result A' = Q.result A := by
  funext σ s p
  simp only [PTask.result, h.changes hR]

theorem TaskOk.costValue {σ : V → O} {n : Nat} {e : CostExpr V O F} : Q'.CostValue σ n e ↔ Q.CostValue σ n e := by cases e <;> simp only [PTask.CostValue, h.values]

theorem TaskOk.step {A A' : PAction P V O T F} (hR : ActOk A A') (hA : A ∈ Q.actions) (hA' : A' ∈ Q'.actions) {s s' : GAtom P O → Prop} {σ : V → O} : Q'.Step s A' σ s' ↔ Q.Step s A σ s' := by
  unfold PTask.Step
  rw [h.result hR, h.completes, h.typed, hR.params, hR.cost, h.hasType]
  simp only [hA, hA', true_and, h.costValue]
  exact and_congr_right fun _ => and_congr_right fun _ => and_congr_left fun _ => hR.pre.sat _ _ _ _

theorem TaskOk.label {A A' : PAction P V O T F} (hR : ActOk A A') (σ : V → O) : Q'.instName A' σ = Q.instName A σ ∧ ∀ n, Q'.CostIs A' σ n ↔ Q.CostIs A σ n := by
  refine ⟨by simp only [PTask.instName, hR.name, hR.params, hR.external, h.objectName], fun n => ?_⟩
  simp only [PTask.CostIs, h.metric, hR.cost, h.costValue]

theorem TaskOk.run {s u : GAtom P O → Prop} {p : List (List Char × Nat)} : Q'.Run s p u ↔ Q.Run s p u := by
  constructor
  · intro hr
    induction hr with
    | nil s => exact .nil s
    | cons s A' σ n s' p u hs hc _ ih =>
      obtain ⟨A, hA, hR⟩ := forall₂_right h.actions A' hs.1
      rw [(h.label hR σ).1]
      exact .cons s A σ n s' p u ((h.step hR hA hs.1).mp hs) (((h.label hR σ).2 n).mp hc) ih
  · intro hr
    induction hr with
    | nil s => exact .nil s
    | cons s A σ n s' p u hs hc _ ih =>
      obtain ⟨A', hA', hR⟩ := forall₂_left h.actions A hs.1
      rw [← (h.label hR σ).1]
      exact .cons s A' σ n s' p u ((h.step hR hs.1 hA').mpr hs) (((h.label hR σ).2 n).mpr hc) ih

theorem TaskOk.plan {p : List (List Char × Nat)} : Q'.HasPlan p ↔ Q.HasPlan p := by
  unfold PTask.HasPlan PTask.Initial
  simp only [h.completes, h.run, h.init, h.hasType]
  exact exists_congr fun s => exists_congr fun u => and_congr_right fun _ => and_congr_right fun _ => forall_congr' fun σ => h.goal.sat _ _ _ _

theorem TaskOk.stratifiable (hst : Q.Stratifiable) : Q'.Stratifiable := by
  obtain ⟨layer, hl⟩ := hst
  refine ⟨layer, fun x' hx' σ ht n p ho hd => ?_⟩
  obtain ⟨x, hx, hR⟩ := forall₂_right h.axs x' hx'
  rw [hR.head σ]
  rw [h.derived] at hd
  rw [h.typed, hR.params] at ht
  rw [h.hasType] at ho
  exact hl x hx σ ht n p ((hR.cond.occurs _ _ _ _ _).mp ho) hd

theorem TaskOk.derivedOk : Q'.DerivedOk ↔ Q.DerivedOk := by
  unfold PTask.DerivedOk
  rw [h.init, h.derived]
  refine and_congr Iff.rfl ⟨fun hh A hA f hf x hx => ?_, fun hh A' hA' f' hf' x' hx' => ?_⟩
  · obtain ⟨A', hA', hR⟩ := forall₂_left h.actions A hA
    obtain ⟨f', hf', hF⟩ := forall₂_left hR.effects f hf
    obtain ⟨x', hx', hX⟩ := forall₂_left h.axs x hx
    obtain ⟨ren, ha⟩ := hF.atom
    have := hh A' hA' f' hf' x' hx'
    rw [hX.pred, ha] at this
    exact this
  · obtain ⟨A, hA, hR⟩ := forall₂_right h.actions A' hA'
    obtain ⟨f, hf, hF⟩ := forall₂_right hR.effects f' hf'
    obtain ⟨x, hx, hX⟩ := forall₂_right h.axs x' hx'
    obtain ⟨ren, ha⟩ := hF.atom
    rw [hX.pred, ha]
    exact hh A hA f hf x hx

/-- what holds for all conditions -/
theorem TaskOk.conditions {R : Cond P V O T → Prop} (hE : ∀ c c', Eqv c c' → R c → R c') (hF : ∀ vs f f', EffOk vs f f' → R f.cond → R f'.cond) (hc : ∀ c ∈ Q.conditions, R c) : ∀ c ∈ Q'.conditions, R c := by
  intro c hc'
  simp only [PTask.conditions, List.mem_append, List.mem_flatMap, List.mem_map, List.mem_cons, List.not_mem_nil, or_false] at hc'
  rcases hc' with (⟨A', hA', hc'⟩ | ⟨x', hx', rfl⟩) | rfl
  · obtain ⟨A, hA, hR⟩ := forall₂_right h.actions A' hA'
    rcases hc' with rfl | ⟨f', hf', rfl⟩
    · exact hE _ _ hR.pre (hc _ (Normalize.pre_mem hA))
    · obtain ⟨f, hf, hR'⟩ := forall₂_right hR.effects f' hf'
      exact hF _ _ _ hR' (hc _ (Normalize.eff_mem hA hf))
  · obtain ⟨x, hx, hR⟩ := forall₂_right h.axs x' hx'
    exact hE _ _ hR.cond (hc _ (Normalize.ax_mem hx))
  · exact hE _ _ h.goal (hc _ Normalize.goal_mem)

theorem TaskOk.lits {q : Bool → SymAtom P V O → Prop} (hq : ∀ n a ren, q n a → q n (renameAtom ren a)) (hc : ∀ c ∈ Q.conditions, c.Lits q) : ∀ c ∈ Q'.conditions, c.Lits q :=
  h.conditions (fun _ _ he => he.lits q hq) (fun _ _ _ he => he.lits q hq) hc

theorem TaskOk.ok (hQ : Q.Basic ar fnAr) : Q'.Ok ar fnAr where
  initArity := by rw [h.init]; exact hQ.initArity
  valueArity := by rw [h.values]; exact hQ.valueArity
  arity := h.lits (fun n a ren ha => by simpa [renameAtom] using ha) hQ.arity
  costArity := by
    intro A' hA'
    obtain ⟨A, hA, hR⟩ := forall₂_right h.actions A' hA'
    rw [hR.cost]
    exact hQ.costArity A hA
  effectArity := by
    intro A' hA' f' hf'
    obtain ⟨A, hA, hR⟩ := forall₂_right h.actions A' hA'
    obtain ⟨f, hf, hF⟩ := forall₂_right hR.effects f' hf'
    obtain ⟨ren, ha⟩ := hF.atom
    rw [ha]
    simpa [renameAtom] using hQ.effectArity A hA f hf
  axiomArity := by
    intro x' hx'
    obtain ⟨x, hx, hR⟩ := forall₂_right h.axs x' hx'
    rw [hR.external, hR.pred, hR.params]
    exact hQ.axiomArity x hx
  actionExternal := by
    intro A' hA'
    obtain ⟨A, hA, hR⟩ := forall₂_right h.actions A' hA'
    rw [hR.external, hR.params]
    exact hQ.actionExternal A hA
  eqArity := by rw [h.eq]; exact hQ.eqArity
  eqSame := by rw [h.objects, h.eq, h.init]; exact hQ.eqSame
  eqOnly := by rw [h.eq, h.init]; exact hQ.eqOnly
  eqEffect := by
    intro A' hA' f' hf'
    obtain ⟨A, hA, hR⟩ := forall₂_right h.actions A' hA'
    obtain ⟨f, hf, hF⟩ := forall₂_right hR.effects f' hf'
    obtain ⟨ren, ha⟩ := hF.atom
    rw [h.eq, ha]
    exact hQ.eqEffect A hA f hf
  eqAxiom := by
    intro x' hx'
    obtain ⟨x, hx, hR⟩ := forall₂_right h.axs x' hx'
    rw [h.eq, hR.pred]
    exact hQ.eqAxiom x hx
  initObjects := by rw [h.objects, h.init]; exact hQ.initObjects
  valueObjects := by rw [h.objects, h.values]; exact hQ.valueObjects
  effectObjects := by
    intro A' hA' f' hf' o ho
    obtain ⟨A, hA, hR⟩ := forall₂_right h.actions A' hA'
    obtain ⟨f, hf, hF⟩ := forall₂_right hR.effects f' hf'
    obtain ⟨ren, ha⟩ := hF.atom
    rw [h.objects]
    refine hQ.effectObjects A hA f hf o ?_
    rw [ha] at ho
    obtain ⟨t, ht, h'⟩ := List.mem_map.mp ho
    cases t with
    | var v => cases h'
    | const o' => cases h'; exact ht
  preVars := by
    intro A' hA'
    obtain ⟨A, hA, hR⟩ := forall₂_right h.actions A' hA'
    rw [hR.params]
    exact hR.pre.scoped (hQ.preVars A hA)
  costVars := by
    intro A' hA'
    obtain ⟨A, hA, hR⟩ := forall₂_right h.actions A' hA'
    rw [hR.params, hR.cost]
    exact hQ.costVars A hA
  effectVars := by
    intro A' hA' f' hf'
    obtain ⟨A, hA, hR⟩ := forall₂_right h.actions A' hA'
    obtain ⟨f, hf, hF⟩ := forall₂_right hR.effects f' hf'
    rw [hR.params, names_append]
    exact ⟨hF.inScope, hF.vars⟩
  axiomVars := by
    intro x' hx'
    obtain ⟨x, hx, hR⟩ := forall₂_right h.axs x' hx'
    rw [hR.params]
    exact hR.cond.scoped (hQ.axiomVars x hx)
  goalVars := h.goal.scoped hQ.goalVars
  functional := by rw [h.values]; exact hQ.functional
  proper := by rw [h.hasType]; exact h.conditions (fun _ _ he => he.proper _) (fun _ _ _ he => he.proper _) hQ.proper
  flat := h.conditions (fun _ _ he => he.flat) (fun _ _ _ he => he.flat) hQ.flat
  actionNames := by
    intro A' hA'
    obtain ⟨A, hA, hR⟩ := forall₂_right h.actions A' hA'
    exact hR.nodup
  axiomNames := by
    intro x' hx'
    obtain ⟨x, hx, hR⟩ := forall₂_right h.axs x' hx'
    exact hR.nodup
  goalNames := h.goalNames

theorem TaskOk.fresh {e : Normalize.Env P V} (hF : Normalize.Fresh e Q) : Normalize.Fresh e Q' where
  inj := hF.inj
  eq := by rw [h.eq]; exact hF.eq
  init := by rw [h.init]; exact hF.init
  effects := by
    intro A' hA' f' hf'
    obtain ⟨A, hA, hR⟩ := forall₂_right h.actions A' hA'
    obtain ⟨f, hf, hF'⟩ := forall₂_right hR.effects f' hf'
    obtain ⟨ren, ha⟩ := hF'.atom
    rw [ha]
    exact hF.effects A hA f hf
  axs := by
    intro x' hx'
    obtain ⟨x, hx, hR⟩ := forall₂_right h.axs x' hx'
    rw [hR.pred]
    exact hF.axs x hx
  conds := h.lits (fun _ _ _ ha => ha) hF.conds
  sort := hF.sort
end

end Verif.Uniquify
