import Verif.Lemmas.NormalizeRun

/-
The task after universal conditions and a complicated goal are replaced.
-/
namespace Verif.Normalize
open Verif.Datalog Verif.Lifted Verif.Pddl
variable {P V O T F : Type}

/-- names of new axioms are new, and sorting makes a permutation -/
structure Fresh (e : Env P V) (Q : PTask P V O T F) : Prop where
  inj : ∀ i j, e.newAxiom i = e.newAxiom j → i = j
  eq : Old e Q.eq
  init : ∀ a ∈ Q.init, Old e a.pred
  effects : ∀ A ∈ Q.actions, ∀ f ∈ A.effects, Old e f.atom.pred
  axs : ∀ x ∈ Q.axioms, Old e x.pred
  conds : ∀ c ∈ Q.conditions, c.Lits (fun _ a => Old e a.pred)
  sort : ∀ l, (e.sortVars l).Perm l

variable [DecidableEq V]

def EffRel (e : Env P V) (types : List (V × T)) (final : New P V O T) (f f' : PEffect P V O T) : Prop := ∃ c', f' = { f with cond := c' } ∧ Rem e types final f.cond false c'

def ActRel (e : Env P V) (final : New P V O T) (A A' : PAction P V O T F) : Prop :=
  ∃ c' fs', A' = { A with pre := c', effects := fs' } ∧ Rem e A.binders final A.pre false c' ∧ List.Forall₂ (EffRel e A.binders final) A.effects fs'

def AxRel (e : Env P V) (final : New P V O T) (x x' : PAxiom P V O T) : Prop := ∃ c', x' = { x with cond := c' } ∧ Rem e x.binders final x.cond false c'

theorem EffRel.mono {e : Env P V} {types : List (V × T)} {final final' : New P V O T} {f f' : PEffect P V O T} (hp : final <+: final') (h : EffRel e types final f f') : EffRel e types final' f f' :=
  let ⟨c', h1, h2⟩ := h; ⟨c', h1, h2.mono hp⟩

theorem ActRel.mono {e : Env P V} {final final' : New P V O T} {A A' : PAction P V O T F} (hp : final <+: final') (h : ActRel e final A A') : ActRel e final' A A' :=
  let ⟨c', fs', h1, h2, h3⟩ := h; ⟨c', fs', h1, h2.mono hp, forall₂_imp (fun _ _ _ h => h.mono hp) h3⟩

theorem AxRel.mono {e : Env P V} {final final' : New P V O T} {x x' : PAxiom P V O T} (hp : final <+: final') (h : AxRel e final x x') : AxRel e final' x x' :=
  let ⟨c', h1, h2⟩ := h; ⟨c', h1, h2.mono hp⟩

theorem lookup_mem {l : List (V × T)} {v : V} (h : v ∈ names l) : ∃ t, l.lookup v = some t := by
  induction l with
  | nil => simp [names] at h
  | cons p l ih =>
    rw [List.lookup_cons]
    by_cases hv : v = p.1
    · exact ⟨p.2, by simp [hv]⟩
    · rw [names, List.map_cons, List.mem_cons] at h
      obtain ⟨t, ht⟩ := ih (h.resolve_left hv)
      exact ⟨t, by simp only [beq_false_of_ne hv, ht]⟩

theorem lookup_eq {l : List (V × T)} (hn : (names l).Nodup) {p : V × T} (h : p ∈ l) : l.lookup p.1 = some p.2 := by
  induction l with
  | nil => simp at h
  | cons q l ih =>
    rw [names, List.map_cons, List.nodup_cons] at hn
    rw [List.lookup_cons]
    rcases List.mem_cons.mp h with rfl | h
    · simp
    · have : p.1 ≠ q.1 := fun he => hn.1 (he ▸ List.mem_map_of_mem h)
      simp only [beq_false_of_ne this, ih hn.2 h]

omit [DecidableEq V] in
theorem Lits_and {q r : Bool → SymAtom P V O → Prop} (c : Cond P V O T) : c.Lits q → c.Lits r → c.Lits (fun n a => q n a ∧ r n a) := by
  induction c using Cond.ind with
  | truth => intros; trivial
  | falsity => intros; trivial
  | lit n a => intro h1 h2; exact ⟨h1, h2⟩
  | conj cs ih => intro h1 h2; exact Lits_conj.mpr fun c hc => ih c hc (Lits_conj.mp h1 c hc) (Lits_conj.mp h2 c hc)
  | disj cs ih => intro h1 h2; exact Lits_disj.mpr fun c hc => ih c hc (Lits_disj.mp h1 c hc) (Lits_disj.mp h2 c hc)
  | all ps b ih => intro h1 h2; exact ih h1 h2
  | ex ps b ih => intro h1 h2; exact ih h1 h2

section
variable {e : Env P V} {Q : PTask P V O T F} {ar : P → Nat} {fnAr : F → Nat} (hQ : Q.Ok ar fnAr) (hF : Fresh e Q)
include hQ hF

theorem start_of {c : Cond P V O T} {vs ts : List (V × T)} (hc : c ∈ Q.conditions) (hv : c.Scoped (names vs)) (hn : (names c.bound).Nodup) (hd : ∀ v ∈ names vs, v ∉ names c.bound) (h1 : ∀ v ∈ names vs, v ∈ names ts) (h2 : ∀ v ∈ names c.bound, v ∈ names ts) :
    Start e Q.HasType ar ts c :=
  ⟨hQ.flat c hc, hQ.proper c hc, Lits_and c (hF.conds c hc) (hQ.arity c hc), hn, fun v h => hd v ((scoped_iff c).mp hv v h), fun v h => lookup_mem (h1 v ((scoped_iff c).mp hv v h)), fun v h => lookup_mem (h2 v h)⟩

theorem start_pre {A : PAction P V O T F} (hA : A ∈ Q.actions) : Start e Q.HasType ar A.binders A.pre := by
  obtain ⟨h1, h2, _, _⟩ := Result.action_names hQ hA
  refine start_of hQ hF (pre_mem hA) (hQ.preVars A hA) h1 (fun v h3 h4 => h2 v h4 h3) (fun v hv => ?_) fun v hv => ?_
  · rw [PAction.binders, names_append, names_append]
    exact List.mem_append_left _ (List.mem_append_left _ hv)
  · rw [PAction.binders, names_append, names_append]
    exact List.mem_append_left _ (List.mem_append_right _ hv)

omit hQ hF in
theorem eff_binders {A : PAction P V O T F} {f : PEffect P V O T} (hf : f ∈ A.effects) : (f.params ++ f.cond.bound).Sublist (A.effects.flatMap fun e => e.params ++ e.cond.bound) := by
  rw [List.flatMap_def]
  exact List.sublist_flatten_of_mem (List.mem_map.mpr ⟨f, hf, rfl⟩)

theorem start_eff {A : PAction P V O T F} (hA : A ∈ Q.actions) {f : PEffect P V O T} (hf : f ∈ A.effects) : Start e Q.HasType ar A.binders f.cond := by
  obtain ⟨h3, h4⟩ := (Result.action_names hQ hA).2.2.2 f hf
  rw [names_append, List.nodup_append] at h3
  have hsub : ∀ v, v ∈ names (f.params ++ f.cond.bound) → v ∈ names A.binders := fun v hv => by
    rw [PAction.binders, names_append]
    exact List.mem_append_right _ (((eff_binders hf).map _).subset hv)
  refine start_of hQ hF (eff_mem hA hf) (hQ.effectVars A hA f hf).1 h3.2.1 (fun v h5 h6 => ?_) (fun v hv => ?_) fun v hv => hsub v (by rw [names_append]; exact List.mem_append_right _ hv)
  · rw [names_append] at h5
    rcases List.mem_append.mp h5 with h5 | h5
    · exact h3.2.2 v h5 v h6 rfl
    · exact h4 v (by rw [names_append]; exact List.mem_append_right _ h6) (by rw [names_append]; exact List.mem_append_left _ h5)
  · rw [names_append] at hv
    rcases List.mem_append.mp hv with hv | hv
    · exact hsub v (by rw [names_append]; exact List.mem_append_left _ hv)
    · rw [PAction.binders, names_append, names_append]
      exact List.mem_append_left _ (List.mem_append_left _ hv)

theorem start_ax {x : PAxiom P V O T} (hx : x ∈ Q.axioms) : Start e Q.HasType ar x.binders x.cond := by
  have hn := hQ.axiomNames x hx
  rw [PAxiom.binders, names_append, List.nodup_append] at hn
  refine start_of hQ hF (ax_mem hx) (hQ.axiomVars x hx) hn.2.1 (fun v h3 h4 => hn.2.2 v h3 v h4 rfl) (fun v hv => ?_) fun v hv => ?_
  · rw [PAxiom.binders, names_append]; exact List.mem_append_left _ hv
  · rw [PAxiom.binders, names_append]; exact List.mem_append_right _ hv

theorem start_goal : Start e Q.HasType ar Q.goal.bound Q.goal :=
  start_of hQ hF (vs := []) goal_mem hQ.goalVars hQ.goalNames (by simp [names]) (by simp [names]) fun _ => id
end

section
variable [DecidableEq P] [DecidableEq O] [DecidableEq T] {e : Env P V} {has : T → O → Prop} {ar : P → Nat}

theorem removeEffects_run (hsort : ∀ l, (e.sortVars l).Perm l) {types : List (V × T)} : ∀ {fs : List (PEffect P V O T)}, (∀ f ∈ fs, Start e has ar types f.cond) → ∀ new, AllGood e has ar new →
    ∃ r, removeEffects e types fs new = some r ∧ new <+: r.2 ∧ AllGood e has ar r.2 ∧ List.Forall₂ (EffRel e types r.2) fs r.1
  | [], _, new, hn => ⟨([], new), rfl, List.prefix_rfl, hn, .nil⟩
  | f :: fs, h, new, hn => by
    obtain ⟨r, h1, h2, h3, h4⟩ := removeAll_run hsort f.cond (h f (by simp)) false new hn
    obtain ⟨r', h5, h6, h7, h8⟩ := removeEffects_run hsort (fs := fs) (fun c hc => h c (List.mem_cons_of_mem _ hc)) r.2 h3
    exact ⟨({ f with cond := r.1 } :: r'.1, r'.2), by rw [removeEffects, removeCond_eq, h1]; simp only; rw [h5]; rfl, h2.trans h6, h7, .cons ⟨r.1, rfl, h4.mono h6⟩ h8⟩

theorem removeActions_run (hsort : ∀ l, (e.sortVars l).Perm l) : ∀ {As : List (PAction P V O T F)}, (∀ A ∈ As, Start e has ar A.binders A.pre ∧ ∀ f ∈ A.effects, Start e has ar A.binders f.cond) → ∀ new, AllGood e has ar new →
    ∃ r, removeActions e As new = some r ∧ new <+: r.2 ∧ AllGood e has ar r.2 ∧ List.Forall₂ (ActRel e r.2) As r.1
  | [], _, new, hn => ⟨([], new), rfl, List.prefix_rfl, hn, .nil⟩
  | A :: As, h, new, hn => by
    obtain ⟨r, h1, h2, h3, h4⟩ := removeAll_run hsort A.pre (h A (by simp)).1 false new hn
    obtain ⟨r', h5, h6, h7, h8⟩ := removeEffects_run hsort (h A (by simp)).2 r.2 h3
    obtain ⟨r'', h9, h10, h11, h12⟩ := removeActions_run hsort (As := As) (fun c hc => h c (List.mem_cons_of_mem _ hc)) r'.2 h7
    exact ⟨({ A with pre := r.1, effects := r'.1 } :: r''.1, r''.2), by simp only [removeActions, removeAction, removeCond_eq, h1, h5, Option.map_some, h9], (h2.trans h6).trans h10, h11,
      .cons ⟨r.1, r'.1, rfl, h4.mono (h6.trans h10), forall₂_imp (fun _ _ _ h => h.mono h10) h8⟩ h12⟩

theorem removeAxioms_run (hsort : ∀ l, (e.sortVars l).Perm l) : ∀ {xs : List (PAxiom P V O T)}, (∀ x ∈ xs, Start e has ar x.binders x.cond) → ∀ new, AllGood e has ar new →
    ∃ r, removeAxioms e xs new = some r ∧ new <+: r.2 ∧ AllGood e has ar r.2 ∧ List.Forall₂ (AxRel e r.2) xs r.1
  | [], _, new, hn => ⟨([], new), rfl, List.prefix_rfl, hn, .nil⟩
  | x :: xs, h, new, hn => by
    obtain ⟨r, h1, h2, h3, h4⟩ := removeAll_run hsort x.cond (h x (by simp)) false new hn
    obtain ⟨r', h5, h6, h7, h8⟩ := removeAxioms_run hsort (xs := xs) (fun c hc => h c (List.mem_cons_of_mem _ hc)) r.2 h3
    exact ⟨({ x with cond := r.1 } :: r'.1, r'.2), by rw [removeAxioms, removeCond_eq, h1]; simp only; rw [h5]; rfl, h2.trans h6, h7, .cons ⟨r.1, rfl, h4.mono h6⟩ h8⟩
end

/-- the new axioms -/
def newAxioms (e : Env P V) (final : New P V O T) : List (PAxiom P V O T) := final.zipIdx.map (fun x => ⟨e.newAxiom x.2, x.1.1, x.1.1.length, x.1.2⟩)

omit [DecidableEq V] in
theorem mem_newAxioms {e : Env P V} {final : New P V O T} {x : PAxiom P V O T} : x ∈ newAxioms e final ↔ ∃ i params c, final[i]? = some (params, c) ∧ x = ⟨e.newAxiom i, params, params.length, c⟩ := by
  rw [newAxioms, List.mem_map]
  constructor
  · rintro ⟨⟨⟨params, c⟩, i⟩, h, rfl⟩
    exact ⟨i, params, c, List.mem_zipIdx_iff_getElem?.mp h, rfl⟩
  · rintro ⟨i, params, c, h, rfl⟩
    exact ⟨((params, c), i), List.mem_zipIdx_iff_getElem?.mpr h, rfl⟩

/-- the task after the replacement -/
structure Removed (e : Env P V) (ar : P → Nat) (Q Q' : PTask P V O T F) (final : New P V O T) : Prop where
  eq : Q'.eq = Q.eq
  objectName : Q'.objectName = Q.objectName
  supertypes : Q'.supertypes = Q.supertypes
  objects : Q'.objects = Q.objects
  init : Q'.init = Q.init
  values : Q'.values = Q.values
  metric : Q'.metric = Q.metric
  good : AllGood e Q.HasType ar final
  actions : List.Forall₂ (ActRel e final) Q.actions Q'.actions
  axs : ∃ xs', List.Forall₂ (AxRel e final) Q.axioms xs' ∧ Q'.axioms = xs' ++ newAxioms e final
  simple : simpleGoal Q'.goal = true
  goal : Rem e Q.goal.bound final Q.goal false Q'.goal ∨ ∃ k g, final[k]? = some ([], g) ∧ Rem e Q.goal.bound final Q.goal false g ∧ Q'.goal = .lit false ⟨e.newAxiom k, []⟩

theorem removeUniversals_spec [DecidableEq P] [DecidableEq O] [DecidableEq T] {e : Env P V} {Q : PTask P V O T F} {ar : P → Nat} {fnAr : F → Nat} (hQ : Q.Ok ar fnAr) (hF : Fresh e Q) :
    ∃ r final, removeUniversals e Q = some r ∧ Removed e ar Q (addAxioms e (substituteGoal e r)) final := by
  obtain ⟨r, h1, h2, h3, h4⟩ := removeActions_run (e := e) (has := Q.HasType) (ar := ar) hF.sort (As := Q.actions) (fun A hA => ⟨start_pre hQ hF hA, fun f hf => start_eff hQ hF hA hf⟩) [] AllGood.nil
  obtain ⟨r', h5, h6, h7, h8⟩ := removeAxioms_run hF.sort (xs := Q.axioms) (fun x hx => start_ax hQ hF hx) r.2 h3
  have hg := start_goal hQ hF
  obtain ⟨g, h9, h10, h11, h12⟩ := removeAll_run hF.sort Q.goal hg false r'.2 h7
  refine ⟨({ Q with actions := r.1, axioms := r'.1, goal := g.1 }, g.2), if simpleGoal g.1 then g.2 else g.2 ++ [([], g.1)], by simp only [removeUniversals, h1, h5, removeCond_eq, h9, Option.map_some], ?_⟩
  have h4' : List.Forall₂ (ActRel e g.2) Q.actions r.1 := forall₂_imp (fun _ _ _ h => h.mono (h6.trans h10)) h4
  have h8' : List.Forall₂ (AxRel e g.2) Q.axioms r'.1 := forall₂_imp (fun _ _ _ h => h.mono h10) h8
  by_cases hs : simpleGoal g.1 = true
  · rw [if_pos hs]
    simp only [substituteGoal, if_pos hs]
    exact ⟨rfl, rfl, rfl, rfl, rfl, rfl, rfl, h11, h4', ⟨_, h8', rfl⟩, hs, .inl h12⟩
  · rw [if_neg hs]
    simp only [substituteGoal, if_neg hs]
    have hp : g.2 <+: g.2 ++ [([], g.1)] := List.prefix_append _ _
    refine ⟨rfl, rfl, rfl, rfl, rfl, rfl, rfl, h11.append ⟨h12.noAll, h12.flat hg.flat, h12.proper hg.proper, fun v hv => ?_, ?_, h12.lits hg.lits⟩, forall₂_imp (fun _ _ _ h => h.mono hp) h4', ⟨_, forall₂_imp (fun _ _ _ h => h.mono hp) h8', rfl⟩, rfl,
      .inr ⟨g.2.length, g.1, by simp, h12.mono hp, rfl⟩⟩
    · exact (scoped_iff _).mp hQ.goalVars v (h12.freeVars hF.sort v hv)
    · rw [List.nil_append]
      exact hg.nodup.sublist (h12.bound.map _)
end Verif.Normalize
