import Verif.Lemmas.NormalizeMove

/-
The steps after `substitute_complicated_goal`: a task without universal quantifiers and its normalised task have the same runs.
-/
namespace Verif.Normalize
open Verif.Datalog Verif.Lifted Verif.Pddl
variable {P V O T F : Type}

/-- the condition has an alternative with these parameters and parts after normalisation -/
def Variant (c : Cond P V O T) (ps : List (V × T)) (parts : List (Part P V O)) : Prop := ∃ d, dnfCond c = some d ∧ ∃ y ∈ alternatives d, finish y = some (ps, parts)

section cond
variable [DecidableEq V] {c : Cond P V O T} (ha : hasAll c = false) (hf : c.Flat)
include ha hf

theorem dnfCond_defined : ∃ d, dnfCond c = some d ∧ alternatives d ≠ [] ∧ ∀ y ∈ alternatives d, ∃ r, finish y = some r := by
  obtain ⟨d, h1, h2, h3, _⟩ := dnfCond_spec ha hf
  exact ⟨d, h1, h2, fun y hy => let ⟨ps, parts, h, _⟩ := finish_spec (h3 y hy).noDisj (h3 y hy).noAll (h3 y hy).flat; ⟨_, h⟩⟩

theorem variant_exists : ∃ ps parts, Variant c ps parts := by
  obtain ⟨d, h1, h2, h3⟩ := dnfCond_defined ha hf
  obtain ⟨y, hy⟩ := List.exists_mem_of_ne_nil _ h2
  obtain ⟨r, hr⟩ := h3 y hy
  exact ⟨r.1, r.2, d, h1, y, hy, hr⟩

theorem Variant.finished {ps : List (V × T)} {parts : List (Part P V O)} (h : Variant c ps parts) : ∃ y, Dnf c y ∧ Finished y ps parts := by
  obtain ⟨d, h1, _, h3, _⟩ := dnfCond_spec ha hf
  obtain ⟨d', h4, y, hy, h5⟩ := h
  cases h4.symm.trans h1
  obtain ⟨ps', parts', h, h6⟩ := finish_spec (h3 y hy).noDisj (h3 y hy).noAll (h3 y hy).flat
  cases h5.symm.trans h
  exact ⟨y, h3 y hy, h6⟩

theorem Variant.bound {ps : List (V × T)} {parts : List (Part P V O)} (h : Variant c ps parts) : ps.Subperm c.bound := by
  obtain ⟨y, h1, h2⟩ := h.finished ha hf
  exact h2.bound.trans h1.bound

theorem Variant.lits {ps : List (V × T)} {parts : List (Part P V O)} (h : Variant c ps parts) {q : Bool → SymAtom P V O → Prop} (hq : c.Lits q) : ∀ n a, .lit n a ∈ parts → q n a := by
  obtain ⟨y, h1, h2⟩ := h.finished ha hf
  exact h2.lits q (h1.lits q hq)

theorem Variant.vars {ps : List (V × T)} {parts : List (Part P V O)} (h : Variant c ps parts) {vs : List V} (hs : c.Scoped vs) : ∀ v ∈ condVars parts, v ∈ names ps ++ vs := by
  obtain ⟨y, h1, h2⟩ := h.finished ha hf
  intro v hv
  obtain ⟨p, hp, hv⟩ := List.mem_flatMap.mp hv
  cases p with
  | lit n a => exact h2.vars vs (h1.scope vs hs) n a hp v hv
  | falsity => simp at hv

omit [DecidableEq V] ha hf in
theorem subperm_names {ps qs : List (V × T)} (h : ps.Subperm qs) : (names ps).Subperm (names qs) := by
  obtain ⟨l, h1, h2⟩ := h
  exact ⟨names l, h1.map _, h2.map _⟩

omit [DecidableEq V] ha hf in
theorem subperm_nodup {α : Type} {l m : List α} (h : l.Subperm m) (hm : m.Nodup) : l.Nodup := by
  obtain ⟨l', h1, h2⟩ := h
  exact h1.nodup_iff.mp (hm.sublist h2)

omit [DecidableEq V] ha hf in
theorem subperm_append {α : Type} {k l m : List α} (h : l.Subperm m) : (k ++ l).Subperm (k ++ m) := by
  obtain ⟨l', h1, h2⟩ := h
  exact ⟨k ++ l', h1.append_left _, (List.Sublist.refl _).append h2⟩

theorem Variant.occ {ps : List (V × T)} {parts : List (Part P V O)} (h : Variant c ps parts) {has : T → O → Prop} {vs : List V} {σ τ : V → O} (hs : c.Scoped vs) (hn : (names c.bound).Nodup) (hv : ∀ v ∈ names c.bound, v ∉ vs)
    (hE : Ext has ps σ τ) {n : Bool} {a : SymAtom P V O} (hna : .lit n a ∈ parts) : c.occurs has n (a.inst τ) false σ := by
  obtain ⟨y, h1, h2⟩ := h.finished ha hf
  have hb : (names y.bound).Subperm (names c.bound) := subperm_names h1.bound
  exact h1.occ has n _ false σ (h2.occ has vs σ τ (h1.scope vs hs) (subperm_nodup hb hn) (fun v hv' => hv v (hb.subset hv')) hE n a hna)

/-- a condition is true if the parts of one of its variants are true, for some values of the new parameters -/
theorem sat_variant {has : T → O → Prop} {ev under : Bool → GAtom P O → Prop} {vs : List V} {σ : V → O} (hp : c.Proper has) (hs : c.Scoped vs) (hn : (names c.bound).Nodup) (hv : ∀ v ∈ names c.bound, v ∉ vs) :
    c.sat has ev under σ ↔ ∃ ps parts, Variant c ps parts ∧ ∃ τ, Ext has ps σ τ ∧ ∀ p ∈ parts, partSat ev τ p := by
  obtain ⟨d, h1, _, h3, h4⟩ := dnfCond_spec ha hf
  have key : ∀ y ∈ alternatives d, ∀ ps parts, Finished y ps parts → (y.sat has ev under σ ↔ ∃ τ, Ext has ps σ τ ∧ ∀ p ∈ parts, partSat ev τ p) := by
    intro y hy ps parts h
    have hD := h3 y hy
    have hb : (names y.bound).Subperm (names c.bound) := subperm_names hD.bound
    exact h.sat has ev under vs σ (hD.proper has hp) (hD.scope vs hs) (subperm_nodup hb hn) (fun v hv' => hv v (hb.subset hv'))
  rw [h4 has ev under σ hp]
  constructor
  · rintro ⟨y, hy, h⟩
    obtain ⟨ps, parts, h5, h6⟩ := finish_spec (h3 y hy).noDisj (h3 y hy).noAll (h3 y hy).flat
    exact ⟨ps, parts, ⟨d, h1, y, hy, h5⟩, (key y hy ps parts h6).mp h⟩
  · rintro ⟨ps, parts, ⟨d', h5, y, hy, h6⟩, h⟩
    cases h5.symm.trans h1
    obtain ⟨ps', parts', h7, h8⟩ := finish_spec (h3 y hy).noDisj (h3 y hy).noAll (h3 y hy).flat
    cases h6.symm.trans h7
    exact ⟨y, hy, (key y hy ps parts h8).mpr h⟩
end cond

section lists
theorem mem_splitAll {α : Type} {cond : α → Cond P V O T} {set : α → Cond P V O T → α} (h : ∀ x, set x (cond x) = x) {xs : List α} {z : α} : z ∈ splitAll cond set xs ↔ ∃ x ∈ xs, ∃ c ∈ alternatives (cond x), z = set x c := by
  rw [splitAll, List.mem_append, List.mem_flatMap]
  constructor
  · rintro (hz | ⟨x, hx, hz⟩)
    · rw [List.mem_filter] at hz
      refine ⟨z, hz.1, cond z, ?_, (h z).symm⟩
      rw [alternatives_of_noDisj (by simpa using hz.2)]
      simp
    · obtain ⟨c, hc, rfl⟩ := List.mem_map.mp hz
      exact ⟨x, (List.mem_filter.mp hx).1, c, hc, rfl⟩
  · rintro ⟨x, hx, c, hc, rfl⟩
    by_cases hd : (cond x).isDisj = true
    · exact .inr ⟨x, List.mem_filter.mpr ⟨hx, hd⟩, List.mem_map_of_mem hc⟩
    · have hd : (cond x).isDisj = false := by simpa using hd
      rw [alternatives_of_noDisj hd, List.mem_singleton] at hc
      subst hc
      rw [h]
      exact .inl (List.mem_filter.mpr ⟨hx, by simp [hd]⟩)

variable [DecidableEq V]

theorem finishAxioms_spec {xs : List (PAxiom P V O T)} (h : ∀ x ∈ xs, hasAll x.cond = false ∧ x.cond.Flat) : ∃ ys, finishAxioms xs = some ys ∧
    ∀ y, y ∈ ys ↔ ∃ x ∈ xs, ∃ ps parts, Variant x.cond ps parts ∧ y = ⟨x.pred, x.params ++ ps, x.external, parts⟩ := by
  obtain ⟨zs, hz⟩ := Mas.mapAll_defined (f := dnfAxiom) (l := xs) fun x hx => let ⟨d, h1, _⟩ := dnfCond_defined (h x hx).1 (h x hx).2; ⟨{ x with cond := d }, by rw [dnfAxiom, h1]; rfl⟩
  have hmem : ∀ z, z ∈ splitAxioms zs ↔ ∃ x ∈ xs, ∃ d, dnfCond x.cond = some d ∧ ∃ c ∈ alternatives d, z = { x with cond := c } := by
    intro z
    rw [splitAxioms, mem_splitAll fun x => rfl]
    constructor
    · rintro ⟨z', hz', c, hc, rfl⟩
      obtain ⟨x, hx, h1⟩ := Mas.mapAll_mem hz hz'
      obtain ⟨d, h2, rfl⟩ := Option.map_eq_some_iff.mp h1
      exact ⟨x, hx, d, h2, c, hc, rfl⟩
    · rintro ⟨x, hx, d, h2, c, hc, rfl⟩
      obtain ⟨z', hz', h1⟩ := Mas.mapAll_mem' hz hx
      rw [dnfAxiom, h2] at h1
      cases h1
      exact ⟨_, hz', c, hc, rfl⟩
  obtain ⟨ys, hy⟩ := Mas.mapAll_defined (f := finishAxiom) (l := splitAxioms zs) fun z hz' => by
    obtain ⟨x, hx, d, h2, c, hc, rfl⟩ := (hmem z).mp hz'
    obtain ⟨d', h3, _, h4⟩ := dnfCond_defined (h x hx).1 (h x hx).2
    cases h2.symm.trans h3
    obtain ⟨r, hr⟩ := h4 c hc
    exact ⟨_, by rw [finishAxiom, hr]; rfl⟩
  refine ⟨ys, by rw [finishAxioms, hz]; exact hy, fun y => ?_⟩
  constructor
  · intro hy'
    obtain ⟨z, hz', h1⟩ := Mas.mapAll_mem hy hy'
    obtain ⟨x, hx, d, h2, c, hc, rfl⟩ := (hmem z).mp hz'
    obtain ⟨r, hr, rfl⟩ := Option.map_eq_some_iff.mp h1
    exact ⟨x, hx, r.1, r.2, ⟨d, h2, c, hc, hr⟩, rfl⟩
  · rintro ⟨x, hx, ps, parts, ⟨d, h2, c, hc, hr⟩, rfl⟩
    obtain ⟨y, hy', h1⟩ := Mas.mapAll_mem' hy ((hmem { x with cond := c }).mpr ⟨x, hx, d, h2, c, hc, rfl⟩)
    rw [finishAxiom, hr] at h1
    cases h1
    exact hy'

/-- the effects of a normalised action -/
def EffOf (A : PAction P V O T F) (fs : List (LEffect P V O T)) : Prop := ∀ f, f ∈ fs ↔ ∃ e ∈ A.effects, ∃ ps parts, Variant e.cond ps parts ∧ f = ⟨e.params ++ ps, parts, e.negated, e.atom⟩

theorem finishEffects_spec {A B : PAction P V O T F} (h : ∀ e ∈ A.effects, hasAll e.cond = false ∧ e.cond.Flat) (hB : Mas.mapAll dnfEffect A.effects = some B.effects) :
    ∃ fs, Mas.mapAll finishEffect (splitEffects B).effects = some fs ∧ EffOf A fs := by
  have hmem : ∀ z, z ∈ (splitEffects B).effects ↔ ∃ x ∈ A.effects, ∃ d, dnfCond x.cond = some d ∧ ∃ c ∈ alternatives d, z = { x with cond := c } := by
    intro z
    rw [splitEffects, mem_splitAll fun x => rfl]
    constructor
    · rintro ⟨z', hz', c, hc, rfl⟩
      obtain ⟨x, hx, h1⟩ := Mas.mapAll_mem hB hz'
      obtain ⟨d, h2, rfl⟩ := Option.map_eq_some_iff.mp h1
      exact ⟨x, hx, d, h2, c, hc, rfl⟩
    · rintro ⟨x, hx, d, h2, c, hc, rfl⟩
      obtain ⟨z', hz', h1⟩ := Mas.mapAll_mem' hB hx
      rw [dnfEffect, h2] at h1
      cases h1
      exact ⟨_, hz', c, hc, rfl⟩
  obtain ⟨fs, hy⟩ := Mas.mapAll_defined (f := finishEffect) (l := (splitEffects B).effects) fun z hz' => by
    obtain ⟨x, hx, d, h2, c, hc, rfl⟩ := (hmem z).mp hz'
    obtain ⟨d', h3, _, h4⟩ := dnfCond_defined (h x hx).1 (h x hx).2
    cases h2.symm.trans h3
    obtain ⟨r, hr⟩ := h4 c hc
    exact ⟨_, by rw [finishEffect, hr]; rfl⟩
  refine ⟨fs, hy, fun f => ?_⟩
  constructor
  · intro hy'
    obtain ⟨z, hz', h1⟩ := Mas.mapAll_mem hy hy'
    obtain ⟨x, hx, d, h2, c, hc, rfl⟩ := (hmem z).mp hz'
    obtain ⟨r, hr, rfl⟩ := Option.map_eq_some_iff.mp h1
    exact ⟨x, hx, r.1, r.2, ⟨d, h2, c, hc, hr⟩, rfl⟩
  · rintro ⟨x, hx, ps, parts, ⟨d, h2, c, hc, hr⟩, rfl⟩
    obtain ⟨y, hy', h1⟩ := Mas.mapAll_mem' hy ((hmem { x with cond := c }).mpr ⟨x, hx, d, h2, c, hc, rfl⟩)
    rw [finishEffect, hr] at h1
    cases h1
    exact hy'

theorem finishActions_spec {As : List (PAction P V O T F)} (hpre : ∀ A ∈ As, hasAll A.pre = false ∧ A.pre.Flat) (heff : ∀ A ∈ As, ∀ e ∈ A.effects, hasAll e.cond = false ∧ e.cond.Flat) : ∃ Bs, finishActions As = some Bs ∧
    (∀ B ∈ Bs, ∃ A ∈ As, ∃ ps parts fs, Variant A.pre ps parts ∧ EffOf A fs ∧ B = ⟨A.name, A.params ++ ps, A.external, parts, fs, A.cost⟩) ∧
    ∀ A ∈ As, ∀ ps parts, Variant A.pre ps parts → ∃ fs, EffOf A fs ∧ ⟨A.name, A.params ++ ps, A.external, parts, fs, A.cost⟩ ∈ Bs := by
  have hdef : ∀ A ∈ As, ∃ d es, dnfCond A.pre = some d ∧ Mas.mapAll dnfEffect A.effects = some es ∧ dnfAction A = some { A with pre := d, effects := es } := by
    intro A hA
    obtain ⟨d, h1, _⟩ := dnfCond_defined (hpre A hA).1 (hpre A hA).2
    obtain ⟨es, h2⟩ := Mas.mapAll_defined (f := dnfEffect) (l := A.effects) fun x hx => let ⟨d, h1, _⟩ := dnfCond_defined (heff A hA x hx).1 (heff A hA x hx).2; ⟨{ x with cond := d }, by rw [dnfEffect, h1]; rfl⟩
    exact ⟨d, es, h1, h2, by rw [dnfAction, h1, h2]; rfl⟩
  obtain ⟨zs, hz⟩ := Mas.mapAll_defined (f := dnfAction) (l := As) fun A hA => let ⟨_, _, _, _, h⟩ := hdef A hA; ⟨_, h⟩
  have hmem : ∀ z, z ∈ splitActions zs ↔ ∃ A ∈ As, ∃ d es, dnfCond A.pre = some d ∧ Mas.mapAll dnfEffect A.effects = some es ∧ ∃ c ∈ alternatives d, z = { splitEffects { A with effects := es } with pre := c } := by
    intro z
    rw [splitActions, mem_splitAll fun x => rfl]
    constructor
    · rintro ⟨z', hz', c, hc, rfl⟩
      obtain ⟨B, hB, rfl⟩ := List.mem_map.mp hz'
      obtain ⟨A, hA, h1⟩ := Mas.mapAll_mem hz hB
      obtain ⟨d, es, h2, h3, h4⟩ := hdef A hA
      cases h1.symm.trans h4
      exact ⟨A, hA, d, es, h2, h3, c, hc, rfl⟩
    · rintro ⟨A, hA, d, es, h2, h3, c, hc, rfl⟩
      obtain ⟨B, hB, h1⟩ := Mas.mapAll_mem' hz hA
      obtain ⟨d', es', h2', h3', h4⟩ := hdef A hA
      cases h2'.symm.trans h2
      cases h3'.symm.trans h3
      cases h1.symm.trans h4
      exact ⟨_, List.mem_map_of_mem hB, c, hc, rfl⟩
  have hfin : ∀ A ∈ As, ∀ d es, dnfCond A.pre = some d → Mas.mapAll dnfEffect A.effects = some es → ∀ c ∈ alternatives d, ∃ ps parts fs, finish c = some (ps, parts) ∧ EffOf A fs ∧
      finishAction { splitEffects { A with effects := es } with pre := c } = some ⟨A.name, A.params ++ ps, A.external, parts, fs, A.cost⟩ := by
    intro A hA d es h2 h3 c hc
    obtain ⟨d', h4, _, h5⟩ := dnfCond_defined (hpre A hA).1 (hpre A hA).2
    cases h2.symm.trans h4
    obtain ⟨r, hr⟩ := h5 c hc
    obtain ⟨fs, h6, h7⟩ := finishEffects_spec (A := A) (B := { A with effects := es }) (heff A hA) h3
    exact ⟨r.1, r.2, fs, hr, h7, by simp only [finishAction, hr, h6]; rfl⟩
  obtain ⟨Bs, hy⟩ := Mas.mapAll_defined (f := finishAction) (l := splitActions zs) fun z hz' => by
    obtain ⟨A, hA, d, es, h2, h3, c, hc, rfl⟩ := (hmem z).mp hz'
    obtain ⟨_, _, _, _, _, h⟩ := hfin A hA d es h2 h3 c hc
    exact ⟨_, h⟩
  refine ⟨Bs, by rw [finishActions, hz]; exact hy, ?_, ?_⟩
  · intro B hB
    obtain ⟨z, hz', h1⟩ := Mas.mapAll_mem hy hB
    obtain ⟨A, hA, d, es, h2, h3, c, hc, rfl⟩ := (hmem z).mp hz'
    obtain ⟨ps, parts, fs, h4, h5, h6⟩ := hfin A hA d es h2 h3 c hc
    cases h1.symm.trans h6
    exact ⟨A, hA, ps, parts, fs, ⟨d, h2, c, hc, h4⟩, h5, rfl⟩
  · rintro A hA ps parts ⟨d, h2, c, hc, hr⟩
    obtain ⟨d', es, h2', h3, _⟩ := hdef A hA
    cases h2'.symm.trans h2
    obtain ⟨ps', parts', fs, h4, h5, h6⟩ := hfin A hA d es h2 h3 c hc
    cases hr.symm.trans h4
    obtain ⟨B, hB, h1⟩ := Mas.mapAll_mem' hy ((hmem _).mpr ⟨A, hA, d, es, h2, h3, c, hc, rfl⟩)
    cases h1.symm.trans h6
    exact ⟨fs, h5, hB⟩

theorem simpleGoal_plain {c : Cond P V O T} (h : simpleGoal c = true) : Plain c ∧ c.Flat := by
  cases c with
  | lit n a => exact ⟨⟨rfl, rfl, rfl⟩, trivial⟩
  | conj cs =>
    simp only [simpleGoal, List.all_eq_true] at h
    have : ∀ c ∈ cs, Plain c ∧ c.isConj = false ∧ c.isConst = false ∧ c.Flat := by
      intro c hc
      have := h c hc
      cases c <;> simp_all [isLit, Cond.isConj, Cond.isConst]
      exact ⟨⟨rfl, rfl, rfl⟩, trivial⟩
    exact ⟨plain_conj.mpr fun c hc => (this c hc).1, Flat_conj.mpr fun c hc => (this c hc).2⟩
  | _ => simp [simpleGoal] at h

theorem finishGoal_spec {c : Cond P V O T} (h : simpleGoal c = true) : ∃ parts, finishGoal c = some parts ∧ (∀ q, c.Lits q → ∀ n a, .lit n a ∈ parts → q n a) ∧
    ∀ (has : T → O → Prop) (ev under : Bool → GAtom P O → Prop) (σ : V → O), c.sat has ev under σ ↔ ∀ p ∈ parts, partSat ev σ p := by
  obtain ⟨h1, h2⟩ := simpleGoal_plain h
  obtain ⟨parts, h3, h4, h5⟩ := toParts_spec h1 h2
  obtain ⟨h6, h7⟩ := exBody_of_noEx h1.noEx
  exact ⟨parts, by simp [finishGoal, dnfCond, h1.noDisj, isDisj_of_noDisj h1.noDisj, finish, moveCond, h1.noEx, h6, h7, h3], h4, fun has ev under σ => (h5 has ev under σ).1⟩
end lists

/-- a task without universal quantifiers, with a simple goal -/
structure Ready (Q : PTask P V O T F) : Prop where
  noAll : ∀ c ∈ Q.conditions, hasAll c = false
  goal : simpleGoal Q.goal = true

/-- the normalised task -/
structure Result (Q : PTask P V O T F) (L : LTask P V O T F) : Prop where
  eq : L.eq = Q.eq
  objectName : L.objectName = Q.objectName
  supertypes : L.supertypes = Q.supertypes
  objects : L.objects = Q.objects
  init : L.init = Q.init
  values : L.values = Q.values
  metric : L.metric = Q.metric
  actions : ∀ B ∈ L.actions, ∃ A ∈ Q.actions, ∃ ps parts fs, Variant A.pre ps parts ∧ EffOf A fs ∧ B = ⟨A.name, A.params ++ ps, A.external, parts, fs, A.cost⟩
  actions' : ∀ A ∈ Q.actions, ∀ ps parts, Variant A.pre ps parts → ∃ fs, EffOf A fs ∧ ⟨A.name, A.params ++ ps, A.external, parts, fs, A.cost⟩ ∈ L.actions
  axs : ∀ y, y ∈ L.axioms ↔ ∃ x ∈ Q.axioms, ∃ ps parts, Variant x.cond ps parts ∧ y = ⟨x.pred, x.params ++ ps, x.external, parts⟩
  goalLits : ∀ q, Q.goal.Lits q → ∀ n a, .lit n a ∈ L.goal → q n a
  goal : ∀ (has : T → O → Prop) (ev under : Bool → GAtom P O → Prop) (σ : V → O), Q.goal.sat has ev under σ ↔ ∀ p ∈ L.goal, partSat ev σ p

section conds
variable {Q : PTask P V O T F} {A : PAction P V O T F} {e : PEffect P V O T} {x : PAxiom P V O T}

theorem pre_mem (hA : A ∈ Q.actions) : A.pre ∈ Q.conditions := by
  simp only [PTask.conditions, List.mem_append, List.mem_flatMap, List.mem_cons, List.mem_map]
  exact .inl (.inl ⟨A, hA, .inl rfl⟩)

theorem eff_mem (hA : A ∈ Q.actions) (he : e ∈ A.effects) : e.cond ∈ Q.conditions := by
  simp only [PTask.conditions, List.mem_append, List.mem_flatMap, List.mem_cons, List.mem_map]
  exact .inl (.inl ⟨A, hA, .inr ⟨e, he, rfl⟩⟩)

theorem ax_mem (hx : x ∈ Q.axioms) : x.cond ∈ Q.conditions := by
  simp only [PTask.conditions, List.mem_append, List.mem_map]
  exact .inl (.inr ⟨x, hx, rfl⟩)

theorem goal_mem : Q.goal ∈ Q.conditions := by simp [PTask.conditions]
end conds

variable [DecidableEq V] {Q : PTask P V O T F} {L : LTask P V O T F} {ar : P → Nat} {fnAr : F → Nat}

theorem finishTask_spec (hQ : Q.Ok ar fnAr) (hr : Ready Q) : ∃ L, finishTask Q = some L ∧ Result Q L := by
  obtain ⟨Bs, h1, h2, h3⟩ := finishActions_spec (As := Q.actions) (fun A hA => ⟨hr.noAll _ (pre_mem hA), hQ.flat _ (pre_mem hA)⟩) fun A hA e he => ⟨hr.noAll _ (eff_mem hA he), hQ.flat _ (eff_mem hA he)⟩
  obtain ⟨ys, h4, h5⟩ := finishAxioms_spec (xs := Q.axioms) fun x hx => ⟨hr.noAll _ (ax_mem hx), hQ.flat _ (ax_mem hx)⟩
  obtain ⟨g, h6, h7, h8⟩ := finishGoal_spec hr.goal
  exact ⟨_, by simp only [finishTask, h1, h4, h6]; rfl, rfl, rfl, rfl, rfl, rfl, rfl, rfl, h2, h3, h5, h7, h8⟩

theorem partSat_lits {s : GAtom P O → Prop} {σ : V → O} {p : Part P V O} : partSat (lits s) σ p ↔ p.holds σ s := by cases p <;> rfl

namespace Result
variable (h : Result Q L)
include h

theorem hasType : L.HasType = Q.HasType := by
  funext t o
  simp only [LTask.HasType, PTask.HasType, h.objects, h.supertypes]

theorem typed {ps : List (V × T)} {σ : V → O} : L.Typed ps σ ↔ Q.Typed ps σ := by rw [LTask.Typed, PTask.Typed, h.hasType]

variable (hQ : Q.Ok ar fnAr) (hr : Ready Q)
include hQ hr

theorem derived {p : GAtom P O} : L.Derived p ↔ Q.Derived p := by
  constructor
  · rintro ⟨y, hy, h1⟩
    obtain ⟨x, hx, ps, parts, _, rfl⟩ := (h.axs y).mp hy
    exact ⟨x, hx, h1⟩
  · rintro ⟨x, hx, h1⟩
    obtain ⟨ps, parts, hv⟩ := variant_exists (hr.noAll _ (ax_mem hx)) (hQ.flat _ (ax_mem hx))
    exact ⟨_, (h.axs _).mpr ⟨x, hx, ps, parts, hv, rfl⟩, h1⟩

omit h hr in
theorem axiom_sat (hr : Ready Q) {x : PAxiom P V O T} (hx : x ∈ Q.axioms) {ev under : Bool → GAtom P O → Prop} {σ : V → O} :
    x.cond.sat Q.HasType ev under σ ↔ ∃ ps parts, Variant x.cond ps parts ∧ ∃ τ, Ext Q.HasType ps σ τ ∧ ∀ p ∈ parts, partSat ev τ p := by
  have hn := hQ.axiomNames x hx
  rw [PAxiom.binders, names_append, List.nodup_append] at hn
  exact sat_variant (hr.noAll _ (ax_mem hx)) (hQ.flat _ (ax_mem hx)) (hQ.proper _ (ax_mem hx)) (hQ.axiomVars x hx) hn.2.1 fun v h1 h2 => hn.2.2 v h2 v h1 rfl

omit h in
theorem axiom_disjoint {x : PAxiom P V O T} (hx : x ∈ Q.axioms) {ps : List (V × T)} {parts : List (Part P V O)} (hv : Variant x.cond ps parts) : ∀ v ∈ names x.params, v ∉ names ps := by
  have hn := hQ.axiomNames x hx
  rw [PAxiom.binders, names_append, List.nodup_append] at hn
  exact fun v h1 h2 => hn.2.2 v h1 v ((subperm_names (hv.bound (hr.noAll _ (ax_mem hx)) (hQ.flat _ (ax_mem hx)))).subset h2) rfl

omit h hr in
theorem axiom_head {x : PAxiom P V O T} (hx : x ∈ Q.axioms) {ps : List (V × T)} {parts : List (Part P V O)} {σ : V → O} : LAxiom.head (⟨x.pred, x.params ++ ps, x.external, parts⟩ : LAxiom P V O T) σ = x.head σ := by
  simp only [LAxiom.head, PAxiom.head]
  rw [List.take_append_of_le_length (hQ.axiomArity x hx).2]

theorem derives {s : GAtom P O → Prop} {p : GAtom P O} : L.Derives s p ↔ Q.Derives s p := by
  constructor
  · intro hd
    induction hd with
    | rule y hy σ ht hfalse hneg hbase hpos ih =>
      intro D hD
      obtain ⟨x, hx, ps, parts, hv, rfl⟩ := (h.axs y).mp hy
      rw [axiom_head hQ hx]
      rw [h.typed] at ht
      refine hD x hx σ (fun p hp => ht p (List.mem_append_left _ hp)) ((axiom_sat hQ hr hx).mpr ⟨ps, parts, hv, σ, Ext.rfl' fun p hp => ht p (List.mem_append_right _ hp), fun c hc => ?_⟩)
      cases c with
      | falsity => exact hfalse hc
      | lit n a =>
        cases n with
        | true => simpa [partSat, PTask.ruleLits] using hneg a hc
        | false =>
          simp only [partSat, PTask.ruleLits, Bool.false_eq_true, if_false]
          by_cases hd : Q.Derived (a.inst σ)
          · exact .inl ⟨hd, ih a hc ((h.derived hQ hr).mpr hd) D hD⟩
          · exact .inr ⟨hd, hbase a hc fun h' => hd ((h.derived hQ hr).mp h')⟩
  · intro hd
    refine hd (L.Derives s) fun x hx σ ht hs => ?_
    obtain ⟨ps, parts, hv, τ, hE, hp⟩ := (axiom_sat hQ hr hx).mp hs
    have hag : ∀ v ∈ names x.params, τ v = σ v := fun v hv' => hE.1 v (axiom_disjoint hQ hr hx hv v hv')
    have hhead : x.head τ = x.head σ := by
      simp only [PAxiom.head]
      congr 1
      exact List.map_congr_left fun p hp => hag p.1 (mem_names_of_mem (List.mem_of_mem_take hp))
    rw [← hhead, ← axiom_head hQ hx (ps := ps) (parts := parts)]
    refine .rule _ ((h.axs _).mpr ⟨x, hx, ps, parts, hv, rfl⟩) τ (h.typed.mpr fun p hp => ?_) (fun hf => hp _ hf) (fun a ha => ?_) (fun a ha hnd => ?_) (fun a ha hd => ?_)
    · rcases List.mem_append.mp hp with hp | hp
      · rw [hag p.1 (mem_names_of_mem hp)]
        exact ht p hp
      · exact hE.2 p hp
    · simpa [partSat, PTask.ruleLits] using hp _ ha
    · have := hp _ ha
      simp only [partSat, PTask.ruleLits, Bool.false_eq_true, if_false] at this
      exact (this.resolve_left fun h' => hnd ((h.derived hQ hr).mpr h'.1)).2
    · have := hp _ ha
      simp only [partSat, PTask.ruleLits, Bool.false_eq_true, if_false] at this
      exact (this.resolve_right fun h' => h'.1 ((h.derived hQ hr).mp hd)).2

theorem completes {b s : GAtom P O → Prop} : L.Completes b s ↔ Q.Completes b s := by
  constructor
  · rintro ⟨h1, h2⟩
    exact ⟨fun p hp => h1 p fun h' => hp ((h.derived hQ hr).mp h'), fun p hp => (h2 p ((h.derived hQ hr).mpr hp)).trans (h.derives hQ hr)⟩
  · rintro ⟨h1, h2⟩
    exact ⟨fun p hp => h1 p fun h' => hp ((h.derived hQ hr).mpr h'), fun p hp => (h2 p ((h.derived hQ hr).mp hp)).trans (h.derives hQ hr).symm⟩

omit h hr in
/-- what the names of variables of an action are good for -/
theorem action_names {A : PAction P V O T F} (hA : A ∈ Q.actions) : (names A.pre.bound).Nodup ∧ (∀ v ∈ names A.pre.bound, v ∉ names A.params) ∧ (names A.params).Nodup ∧
    ∀ e ∈ A.effects, (names (e.params ++ e.cond.bound)).Nodup ∧ ∀ v ∈ names (e.params ++ e.cond.bound), v ∉ names (A.params ++ A.pre.bound) := by
  have hn := hQ.actionNames A hA
  rw [PAction.binders, names_append, List.nodup_append] at hn
  have hn1 := hn.1
  rw [names_append, List.nodup_append] at hn1
  refine ⟨hn1.2.1, fun v h1 h2 => hn1.2.2 v h2 v h1 rfl, hn1.1, fun e he => ?_⟩
  have hsub : (e.params ++ e.cond.bound).Sublist (A.effects.flatMap fun e => e.params ++ e.cond.bound) := by
    rw [List.flatMap_def]
    exact List.sublist_flatten_of_mem (List.mem_map.mpr ⟨e, he, rfl⟩)
  exact ⟨hn.2.1.sublist (hsub.map _), fun v h1 h2 => hn.2.2 v h2 v ((hsub.map _).subset h1) rfl⟩

theorem changes {A : PAction P V O T F} (hA : A ∈ Q.actions) {B : LAction P V O T F} (hB : EffOf A B.effects) {n : Bool} {σ : V → O} {s : GAtom P O → Prop} {p : GAtom P O} : L.Changes n B σ s p ↔ Q.Changes n A σ s p := by
  have hnames := (action_names hQ hA).2.2.2
  have hsat : ∀ e ∈ A.effects, ∀ τ : V → O, e.cond.holds Q.HasType s τ ↔ ∃ ps parts, Variant e.cond ps parts ∧ ∃ τ', Ext Q.HasType ps τ τ' ∧ ∀ p ∈ parts, p.holds τ' s := by
    intro e he τ
    have hn := (hnames e he).1
    rw [names_append, List.nodup_append] at hn
    rw [Cond.holds, sat_variant (hr.noAll _ (eff_mem hA he)) (hQ.flat _ (eff_mem hA he)) (hQ.proper _ (eff_mem hA he)) (hQ.effectVars A hA e he).1 hn.2.1]
    · simp only [partSat_lits]
    · intro v h1 h2
      rw [names_append] at h2
      rcases List.mem_append.mp h2 with h2 | h2
      · exact hn.2.2 v h2 v h1 rfl
      · exact (hnames e he).2 v (by rw [names_append]; exact List.mem_append_right _ h1) (by rw [names_append]; exact List.mem_append_left _ h2)
  have hdis : ∀ e ∈ A.effects, ∀ ps parts, Variant e.cond ps parts → (∀ v ∈ names e.params, v ∉ names ps) ∧ ∀ v ∈ e.atom.vars, v ∉ names ps := by
    intro e he ps parts hv
    have hsub : ∀ v ∈ names ps, v ∈ names e.cond.bound := fun v h1 => (subperm_names (hv.bound (hr.noAll _ (eff_mem hA he)) (hQ.flat _ (eff_mem hA he)))).subset h1
    have hn := (hnames e he).1
    rw [names_append, List.nodup_append] at hn
    refine ⟨fun v h1 h2 => hn.2.2 v h1 v (hsub v h2) rfl, fun v h1 h2 => ?_⟩
    have := (hQ.effectVars A hA e he).2 v h1
    rw [names_append] at this
    rcases List.mem_append.mp this with h3 | h3
    · exact hn.2.2 v h3 v (hsub v h2) rfl
    · exact (hnames e he).2 v (by rw [names_append]; exact List.mem_append_right _ (hsub v h2)) (by rw [names_append]; exact List.mem_append_left _ h3)
  constructor
  · rintro ⟨f, hf, τ, hE, hn, ha, hc⟩
    obtain ⟨e, he, ps, parts, hv, rfl⟩ := (hB f).mp hf
    have hE' : Ext Q.HasType (e.params ++ ps) σ τ := ⟨hE.1, h.typed.mp hE.2⟩
    obtain ⟨ρ, h1, h2⟩ := (Ext.append_iff (hdis e he ps parts hv).1).mp hE'
    refine ⟨e, he, ρ, h1, hn, ?_, (hsat e he ρ).mpr ⟨ps, parts, hv, τ, h2, hc⟩⟩
    rw [← ha]
    exact inst_agree fun v hv' => (h2.1 v ((hdis e he ps parts hv).2 v hv')).symm
  · rintro ⟨e, he, ρ, hE, hn, ha, hc⟩
    obtain ⟨ps, parts, hv, τ, h2, hc⟩ := (hsat e he ρ).mp hc
    have hE' := (Ext.append_iff (hdis e he ps parts hv).1).mpr ⟨ρ, hE, h2⟩
    refine ⟨_, (hB _).mpr ⟨e, he, ps, parts, hv, rfl⟩, τ, ⟨hE'.1, h.typed.mpr hE'.2⟩, hn, ?_, hc⟩
    rw [← ha]
    exact inst_agree fun v hv' => h2.1 v ((hdis e he ps parts hv).2 v hv')

omit h hr in
/-- effects depend on the values of the parameters only -/
theorem changes_agree {A : PAction P V O T F} (hA : A ∈ Q.actions) {n : Bool} {σ σ' : V → O} (ha : ∀ v ∈ names A.params, σ v = σ' v) {s : GAtom P O → Prop} {p : GAtom P O} : Q.Changes n A σ s p → Q.Changes n A σ' s p := by
  rintro ⟨e, he, τ, hE, hn, hp, hc⟩
  obtain ⟨h1, h2⟩ := hQ.effectVars A hA e he
  obtain ⟨τ', hE', hag⟩ := hE.transfer (σ' := σ') (S := fun v => v ∈ names (e.params ++ A.params)) fun v h3 h4 => by
    rw [names_append] at h3
    exact ha v ((List.mem_append.mp h3).resolve_left h4)
  refine ⟨e, he, τ', hE', hn, ?_, sat_agree _ (fun v hv => hag v ((scoped_iff _).mp h1 v hv)) hc⟩
  rw [← hp]
  exact inst_agree fun v hv => (hag v (h2 v hv)).symm

theorem result_iff {A : PAction P V O T F} (hA : A ∈ Q.actions) {B : LAction P V O T F} (hB : EffOf A B.effects) {σ σ' : V → O} (ha : ∀ v ∈ names A.params, σ v = σ' v) {s : GAtom P O → Prop} : L.result B σ' s = Q.result A σ s := by
  funext p
  have h1 : ∀ n, L.Changes n B σ' s p ↔ Q.Changes n A σ s p := fun n => (h.changes hQ hr hA hB).trans ⟨changes_agree hQ hA fun v hv => (ha v hv).symm, changes_agree hQ hA ha⟩
  simp only [LTask.result, PTask.result, h1]

omit hr in
theorem costValue {A : PAction P V O T F} (hA : A ∈ Q.actions) {σ σ' : V → O} (ha : ∀ v ∈ names A.params, σ v = σ' v) {n : Nat} : L.CostValue σ' n A.cost ↔ Q.CostValue σ n A.cost := by
  cases hc : A.cost with
  | none => rfl
  | const k => rfl
  | fn f args =>
    simp only [LTask.CostValue, PTask.CostValue, h.values]
    have : args.map (·.value σ') = args.map (·.value σ) := by
      refine List.map_congr_left fun t ht => ?_
      cases t with
      | const o => rfl
      | var v => exact (ha v ((hQ.costVars A hA f args hc).2 v (List.mem_filterMap.mpr ⟨_, ht, rfl⟩))).symm
    rw [this]

omit hr in
theorem instName {A : PAction P V O T F} (hA : A ∈ Q.actions) {ps : List (V × T)} {parts : List (Part P V O)} {fs : List (LEffect P V O T)} {σ σ' : V → O} (ha : ∀ v ∈ names A.params, σ v = σ' v) :
    L.instName ⟨A.name, A.params ++ ps, A.external, parts, fs, A.cost⟩ σ' = Q.instName A σ := by
  simp only [LTask.instName, PTask.instName, h.objectName]
  rw [List.take_append_of_le_length (hQ.actionExternal A hA)]
  congr 3
  exact List.map_congr_left fun p hp => by rw [ha p.1 (mem_names_of_mem (List.mem_of_mem_take hp))]

theorem pre_sat {A : PAction P V O T F} (hA : A ∈ Q.actions) {s : GAtom P O → Prop} {σ : V → O} : A.pre.holds Q.HasType s σ ↔ ∃ ps parts, Variant A.pre ps parts ∧ ∃ τ, Ext Q.HasType ps σ τ ∧ ∀ p ∈ parts, p.holds τ s := by
  obtain ⟨h1, h2, _, _⟩ := action_names hQ hA
  rw [Cond.holds, sat_variant (hr.noAll _ (pre_mem hA)) (hQ.flat _ (pre_mem hA)) (hQ.proper _ (pre_mem hA)) (hQ.preVars A hA) h1 h2]
  simp only [partSat_lits]

omit h in
theorem pre_disjoint {A : PAction P V O T F} (hA : A ∈ Q.actions) {ps : List (V × T)} {parts : List (Part P V O)} (hv : Variant A.pre ps parts) : ∀ v ∈ names A.params, v ∉ names ps := by
  obtain ⟨_, h2, _, _⟩ := action_names hQ hA
  exact fun v h1 h3 => h2 v ((subperm_names (hv.bound (hr.noAll _ (pre_mem hA)) (hQ.flat _ (pre_mem hA)))).subset h3) h1

theorem step_down {s s' : GAtom P O → Prop} {A : PAction P V O T F} {σ : V → O} {n : Nat} (hs : Q.Step s A σ s') (hc : Q.CostIs A σ n) : ∃ B τ, L.Step s B τ s' ∧ L.CostIs B τ n ∧ L.instName B τ = Q.instName A σ := by
  obtain ⟨hA, ht, ⟨m, hm⟩, hp, hC⟩ := hs
  obtain ⟨ps, parts, hv, τ, hE, hp⟩ := (h.pre_sat hQ hr hA).mp hp
  have hag : ∀ v ∈ names A.params, σ v = τ v := fun v hv' => (hE.1 v (pre_disjoint hQ hr hA hv v hv')).symm
  obtain ⟨fs, h1, h2⟩ := h.actions' A hA ps parts hv
  refine ⟨_, τ, ⟨h2, h.typed.mpr fun p hp => ?_, ⟨m, (h.costValue hQ hA hag).mpr hm⟩, hp, ?_⟩, ?_, h.instName hQ hA hag⟩
  · rcases List.mem_append.mp hp with hp | hp
    · rw [← hag p.1 (mem_names_of_mem hp)]
      exact ht p hp
    · exact hE.2 p hp
  · rw [h.completes hQ hr, h.result_iff hQ hr hA h1 hag]
    exact hC
  · unfold LTask.CostIs
    unfold PTask.CostIs at hc
    rw [h.metric]
    split
    · rename_i hm
      rw [if_pos hm] at hc
      exact (h.costValue hQ hA hag).mpr hc
    · rename_i hm
      rwa [if_neg hm] at hc

theorem step_up {s s' : GAtom P O → Prop} {B : LAction P V O T F} {σ : V → O} {n : Nat} (hs : L.Step s B σ s') (hc : L.CostIs B σ n) : ∃ A, Q.Step s A σ s' ∧ Q.CostIs A σ n ∧ L.instName B σ = Q.instName A σ := by
  obtain ⟨hB, ht, ⟨m, hm⟩, hp, hC⟩ := hs
  obtain ⟨A, hA, ps, parts, fs, hv, hfs, rfl⟩ := h.actions B hB
  rw [h.typed] at ht
  have hag : ∀ v ∈ names A.params, σ v = σ v := fun _ _ => rfl
  refine ⟨A, ⟨hA, fun p hp => ht p (List.mem_append_left _ hp), ⟨m, (h.costValue hQ hA hag).mp hm⟩, (h.pre_sat hQ hr hA).mpr ⟨ps, parts, hv, σ, Ext.rfl' fun p hp => ht p (List.mem_append_right _ hp), hp⟩, ?_⟩, ?_, h.instName hQ hA hag⟩
  · rw [h.completes hQ hr, h.result_iff hQ hr hA hfs hag] at hC
    exact hC
  · unfold PTask.CostIs
    unfold LTask.CostIs at hc
    rw [h.metric] at hc
    split
    · rename_i hm
      rw [if_pos hm] at hc
      exact (h.costValue hQ hA hag).mp hc
    · rename_i hm
      rwa [if_neg hm] at hc

theorem run_iff {s u : GAtom P O → Prop} {p : List (List Char × Nat)} : L.Run s p u ↔ Q.Run s p u := by
  constructor
  · intro hrun
    induction hrun with
    | nil s => exact .nil s
    | cons s B σ n s' p u h1 h2 _ ih =>
      obtain ⟨A, h3, h4, h5⟩ := h.step_up hQ hr h1 h2
      rw [h5]
      exact .cons s A σ n s' p u h3 h4 ih
  · intro hrun
    induction hrun with
    | nil s => exact .nil s
    | cons s A σ n s' p u h1 h2 _ ih =>
      obtain ⟨B, τ, h3, h4, h5⟩ := h.step_down hQ hr h1 h2
      rw [← h5]
      exact .cons s B τ n s' p u h3 h4 ih

/-- both tasks have the same plans -/
theorem plan_iff {p : List (List Char × Nat)} : L.HasPlan p ↔ Q.HasPlan p := by
  unfold LTask.HasPlan PTask.HasPlan LTask.Initial PTask.Initial
  simp only [h.run_iff hQ hr, h.completes hQ hr, h.init]
  have : ∀ u : GAtom P O → Prop, (∀ c ∈ L.goal, ∀ σ : V → O, c.holds σ u) ↔ ∀ σ : V → O, Q.goal.holds Q.HasType u σ := by
    intro u
    simp only [Cond.holds, h.goal, partSat_lits]
    exact ⟨fun h σ c hc => h c hc σ, fun h c hc σ => h σ c hc⟩
  simp only [this]

theorem stratifiable (hst : Q.Stratifiable) : L.Stratifiable := by
  obtain ⟨layer, hl⟩ := hst
  refine ⟨layer, fun y hy σ ht n a ha hd => ?_⟩
  obtain ⟨x, hx, ps, parts, hv, rfl⟩ := (h.axs y).mp hy
  rw [axiom_head hQ hx]
  rw [h.typed] at ht
  have hn := hQ.axiomNames x hx
  rw [PAxiom.binders, names_append, List.nodup_append] at hn
  have hocc := hv.occ (hr.noAll _ (ax_mem hx)) (hQ.flat _ (ax_mem hx)) (has := Q.HasType) (σ := σ) (τ := σ) (hQ.axiomVars x hx) hn.2.1 (fun v h1 h2 => hn.2.2 v h2 v h1 rfl) (Ext.rfl' fun p hp => ht p (List.mem_append_right _ hp)) ha
  exact hl x hx σ (fun p hp => ht p (List.mem_append_left _ hp)) n _ hocc ((h.derived hQ hr).mp hd)

/-- the normalised task has what the instantiation needs -/
theorem ok (hD : Q.DerivedOk) : L.Ok ar fnAr where
  initArity := by rw [h.init]; exact hQ.initArity
  valueArity := by rw [h.values]; exact hQ.valueArity
  goalArity := h.goalLits _ (hQ.arity _ goal_mem)
  preArity := by
    intro B hB
    obtain ⟨A, hA, ps, parts, fs, hv, hfs, rfl⟩ := h.actions B hB
    exact hv.lits (hr.noAll _ (pre_mem hA)) (hQ.flat _ (pre_mem hA)) (hQ.arity _ (pre_mem hA))
  costArity := by
    intro B hB
    obtain ⟨A, hA, ps, parts, fs, hv, hfs, rfl⟩ := h.actions B hB
    exact hQ.costArity A hA
  effectArity := by
    intro B hB f hf
    obtain ⟨A, hA, ps, parts, fs, hv, hfs, rfl⟩ := h.actions B hB
    obtain ⟨e, he, qs, parts', hv', rfl⟩ := (hfs f).mp hf
    exact ⟨hv'.lits (hr.noAll _ (eff_mem hA he)) (hQ.flat _ (eff_mem hA he)) (hQ.arity _ (eff_mem hA he)), hQ.effectArity A hA e he⟩
  axiomArity := by
    intro y hy
    obtain ⟨x, hx, ps, parts, hv, rfl⟩ := (h.axs y).mp hy
    obtain ⟨h1, h2⟩ := hQ.axiomArity x hx
    refine ⟨hv.lits (hr.noAll _ (ax_mem hx)) (hQ.flat _ (ax_mem hx)) (hQ.arity _ (ax_mem hx)), h1, ?_⟩
    rw [List.length_append]
    exact Nat.le_add_right_of_le h2
  eqArity := by rw [h.eq]; exact hQ.eqArity
  eqSame := by rw [h.objects, h.eq, h.init]; exact hQ.eqSame
  eqOnly := by rw [h.eq, h.init]; exact hQ.eqOnly
  eqEffect := by
    intro B hB f hf
    obtain ⟨A, hA, ps, parts, fs, hv, hfs, rfl⟩ := h.actions B hB
    obtain ⟨e, he, qs, parts', hv', rfl⟩ := (hfs f).mp hf
    rw [h.eq]
    exact hQ.eqEffect A hA e he
  eqAxiom := by
    intro y hy
    obtain ⟨x, hx, ps, parts, hv, rfl⟩ := (h.axs y).mp hy
    rw [h.eq]
    exact hQ.eqAxiom x hx
  initObjects := by rw [h.objects, h.init]; exact hQ.initObjects
  valueObjects := by rw [h.objects, h.values]; exact hQ.valueObjects
  effectObjects := by
    intro B hB f hf
    obtain ⟨A, hA, ps, parts, fs, hv, hfs, rfl⟩ := h.actions B hB
    obtain ⟨e, he, qs, parts', hv', rfl⟩ := (hfs f).mp hf
    rw [h.objects]
    exact hQ.effectObjects A hA e he
  preVars := by
    intro B hB v hv'
    obtain ⟨A, hA, ps, parts, fs, hv, hfs, rfl⟩ := h.actions B hB
    have := hv.vars (hr.noAll _ (pre_mem hA)) (hQ.flat _ (pre_mem hA)) (hQ.preVars A hA) v hv'
    rw [List.map_append]
    exact (List.mem_append.mp this).elim (fun h => List.mem_append_right _ h) fun h => List.mem_append_left _ h
  costVars := by
    intro B hB
    obtain ⟨A, hA, ps, parts, fs, hv, hfs, rfl⟩ := h.actions B hB
    intro f args hc
    refine ⟨(hQ.costVars A hA f args hc).1, fun v hv' => ?_⟩
    rw [List.map_append]
    exact List.mem_append_left _ ((hQ.costVars A hA f args hc).2 v hv')
  effectVars := by
    intro B hB f hf v hv'
    obtain ⟨A, hA, ps, parts, fs, hv, hfs, rfl⟩ := h.actions B hB
    obtain ⟨e, he, qs, parts', hv'', rfl⟩ := (hfs f).mp hf
    obtain ⟨h1, h2⟩ := hQ.effectVars A hA e he
    simp only [List.map_append, List.mem_append]
    rcases hv' with hv' | hv'
    · have := hv''.vars (hr.noAll _ (eff_mem hA he)) (hQ.flat _ (eff_mem hA he)) h1 v hv'
      rw [names_append] at this
      simp only [List.mem_append] at this
      rcases this with h3 | h3 | h3
      · exact .inr (.inr h3)
      · exact .inr (.inl h3)
      · exact .inl (.inl h3)
    · have := h2 v hv'
      rw [names_append] at this
      rcases List.mem_append.mp this with h3 | h3
      · exact .inr (.inl h3)
      · exact .inl (.inl h3)
  axiomVars := by
    intro y hy v hv'
    obtain ⟨x, hx, ps, parts, hv, rfl⟩ := (h.axs y).mp hy
    have := hv.vars (hr.noAll _ (ax_mem hx)) (hQ.flat _ (ax_mem hx)) (hQ.axiomVars x hx) v hv'
    rw [List.map_append]
    exact (List.mem_append.mp this).elim (fun h => List.mem_append_right _ h) fun h => List.mem_append_left _ h
  goalVars := by
    have := parts_vars (simpleGoal_plain hr.goal).1 hQ.goalVars
    rw [condVars, List.flatMap_eq_nil_iff]
    intro p hp
    cases p with
    | falsity => rfl
    | lit n a => exact List.eq_nil_iff_forall_not_mem.mpr fun v hv => by simpa using h.goalLits _ this n a hp v hv
  actionParams := by
    intro B hB
    obtain ⟨A, hA, ps, parts, fs, hv, hfs, rfl⟩ := h.actions B hB
    obtain ⟨h1, h2, h3, _⟩ := action_names hQ hA
    have hb := subperm_names (hv.bound (hr.noAll _ (pre_mem hA)) (hQ.flat _ (pre_mem hA)))
    rw [List.map_append, List.nodup_append]
    exact ⟨h3, subperm_nodup hb h1, fun v h4 w h5 he => h2 w (hb.subset h5) (he ▸ h4)⟩
  axiomParams := by
    intro y hy
    obtain ⟨x, hx, ps, parts, hv, rfl⟩ := (h.axs y).mp hy
    have hn := hQ.axiomNames x hx
    rw [PAxiom.binders, names_append, List.nodup_append] at hn
    have hb := subperm_names (hv.bound (hr.noAll _ (ax_mem hx)) (hQ.flat _ (ax_mem hx)))
    rw [List.map_append, List.nodup_append]
    exact ⟨hn.1, subperm_nodup hb hn.2.1, fun v h4 w h5 => hn.2.2 v h4 w (hb.subset h5)⟩
  effectParams := by
    intro B hB f hf
    obtain ⟨A, hA, ps, parts, fs, hv, hfs, rfl⟩ := h.actions B hB
    obtain ⟨e, he, qs, parts', hv', rfl⟩ := (hfs f).mp hf
    obtain ⟨h1, h2⟩ := (action_names hQ hA).2.2.2 e he
    have hb : (names (e.params ++ qs)).Subperm (names (e.params ++ e.cond.bound)) := subperm_names (subperm_append (hv'.bound (hr.noAll _ (eff_mem hA he)) (hQ.flat _ (eff_mem hA he))))
    have hb' : (names (A.params ++ ps)).Subperm (names (A.params ++ A.pre.bound)) := subperm_names (subperm_append (hv.bound (hr.noAll _ (pre_mem hA)) (hQ.flat _ (pre_mem hA))))
    exact ⟨subperm_nodup hb h1, fun v h3 h4 => h2 v (hb.subset h3) (hb'.subset h4)⟩
  derivedInit := by
    rw [h.init]
    exact fun a ha hd => hD.1 a ha ((h.derived hQ hr).mp hd)
  derivedEffect := by
    intro B hB f hf y hy
    obtain ⟨A, hA, ps, parts, fs, hv, hfs, rfl⟩ := h.actions B hB
    obtain ⟨e, he, qs, parts', hv', rfl⟩ := (hfs f).mp hf
    obtain ⟨x, hx, ps, parts, hv, rfl⟩ := (h.axs y).mp hy
    exact hD.2 A hA e he x hx
  functional := by rw [h.values]; exact hQ.functional

variable [DecidableEq P]

theorem verify_iff : verify L = true ↔ Q.DerivedOk := by
  have hpred : ∀ p : P, (L.axioms.map (·.pred)).contains p = false ↔ ∀ x ∈ Q.axioms, x.pred ≠ p := by
    intro p
    rw [Bool.eq_false_iff, ne_eq, List.contains_iff_mem, List.mem_map]
    constructor
    · intro hn x hx he
      obtain ⟨ps, parts, hv⟩ := variant_exists (hr.noAll _ (ax_mem hx)) (hQ.flat _ (ax_mem hx))
      exact hn ⟨_, (h.axs _).mpr ⟨x, hx, ps, parts, hv, rfl⟩, he⟩
    · rintro hn ⟨y, hy, he⟩
      obtain ⟨x, hx, ps, parts, _, rfl⟩ := (h.axs y).mp hy
      exact hn x hx he
  rw [verify, Bool.and_eq_true, List.all_eq_true, List.all_eq_true]
  simp only [Bool.not_eq_true', hpred, List.all_eq_true]
  rw [PTask.DerivedOk, h.init]
  refine and_congr ⟨fun h a ha ⟨x, hx, he⟩ => h a ha x hx he, fun h a ha x hx he => h a ha ⟨x, hx, he⟩⟩ ⟨fun hB A hA e he => ?_, fun hA B hB f hf => ?_⟩
  · obtain ⟨ps, parts, hv⟩ := variant_exists (hr.noAll _ (pre_mem hA)) (hQ.flat _ (pre_mem hA))
    obtain ⟨fs, hfs, hB'⟩ := h.actions' A hA ps parts hv
    obtain ⟨qs, parts', hv'⟩ := variant_exists (hr.noAll _ (eff_mem hA he)) (hQ.flat _ (eff_mem hA he))
    exact hB _ hB' _ ((hfs _).mpr ⟨e, he, qs, parts', hv', rfl⟩)
  · obtain ⟨A, hA', ps, parts, fs, hv, hfs, rfl⟩ := h.actions B hB
    obtain ⟨e, he, qs, parts', hv', rfl⟩ := (hfs f).mp hf
    exact hA A hA' e he
end Result

end Verif.Normalize
