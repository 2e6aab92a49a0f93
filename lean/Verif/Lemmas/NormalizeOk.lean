import Verif.Lemmas.NormalizePlans
import Mathlib.Data.Set.Finite.Lattice
import Mathlib.Data.Finite.Prod
import Mathlib.Order.Bounds.Basic

/-
The task after the replacement of universal conditions has what the later steps need, and its axioms are stratifiable.
-/
namespace Verif.Normalize
open Verif.Datalog Verif.Lifted Verif.Pddl
variable {P V O T F : Type} [DecidableEq V]
variable {e : Env P V} {Q Q' : PTask P V O T F} {ar : P → Nat} {fnAr : F → Nat} {final : New P V O T}

open Classical in
/-- the numbers of arguments, with those of the new axioms -/
noncomputable def newArity (e : Env P V) (ar : P → Nat) (final : New P V O T) (p : P) : Nat := if h : ∃ i x, p = e.newAxiom i ∧ final[i]? = some x then h.choose_spec.choose.1.length else ar p

omit [DecidableEq V] in
theorem newArity_new (hF : Fresh e Q) {i : Nat} {x : List (V × T) × Cond P V O T} (hx : final[i]? = some x) : newArity e ar final (e.newAxiom i) = x.1.length := by
  have h : ∃ j y, e.newAxiom i = e.newAxiom j ∧ final[j]? = some y := ⟨i, x, rfl, hx⟩
  rw [newArity, dif_pos h]
  obtain ⟨h1, h2⟩ := h.choose_spec.choose_spec
  have key : ∀ k y, k = i → final[k]? = some y → y = x := by
    rintro k y rfl hk
    exact Option.some.inj (hk.symm.trans hx)
  rw [key _ _ (hF.inj _ _ h1).symm h2]

omit [DecidableEq V] in
theorem newArity_old {p : P} (hp : Old e p) : newArity e ar final p = ar p := by
  rw [newArity, dif_neg]
  rintro ⟨i, x, h, _⟩
  exact hp i h

theorem arity_of_lits (hF : Fresh e Q) {n : Bool} {a : SymAtom P V O} (h : LitOk e ar final n a) : a.args.length = newArity e ar final a.pred := by
  rcases h with ⟨h1, h2⟩ | ⟨j, x, _, h2, h3, h4⟩
  · rw [h2, newArity_old h1]
  · rw [h4, h3, newArity_new hF h2]

omit [DecidableEq V] in
theorem take_prefix {α : Type} {l : List α} {i : Nat} : l.take i <+: l := List.take_prefix i l

namespace Removed
variable (hQ : Q.Ok ar fnAr) (hF : Fresh e Q) (R : Removed e ar Q Q' final)
include hQ hF R

/-- a condition of the task after the replacement -/
structure CondOk (e : Env P V) (has : T → O → Prop) (ar : P → Nat) (final : New P V O T) (c : Cond P V O T) : Prop where
  noAll : hasAll c = false
  flat : c.Flat
  proper : c.Proper has
  arity : c.arity (newArity e ar final)

theorem condOk_rem {types : List (V × T)} {c c' : Cond P V O T} (hs : Start e Q.HasType ar types c) (h : Rem e types final c false c') : CondOk e Q.HasType ar final c' :=
  ⟨h.noAll, h.flat hs.flat, h.proper hs.proper, Lits_mono (fun _ _ => arity_of_lits hF) _ (h.lits hs.lits)⟩

theorem condOk_new {i : Nat} {x : List (V × T) × Cond P V O T} (hx : final[i]? = some x) : CondOk e Q.HasType ar final x.2 :=
  let h := R.good i x hx
  ⟨h.noAll, h.flat, h.proper, Lits_mono (fun _ _ h' => arity_of_lits hF (h'.mono take_prefix)) _ h.lits⟩

theorem condOk : ∀ c ∈ Q'.conditions, CondOk e Q.HasType ar final c := by
  intro c hc
  simp only [PTask.conditions, List.mem_append, List.mem_flatMap, List.mem_map, List.mem_cons, List.not_mem_nil, or_false] at hc
  rcases hc with (⟨A', hA', hc⟩ | ⟨x', hx', rfl⟩) | rfl
  · obtain ⟨A, hA, d, fs', rfl, hd, hfs⟩ := forall₂_right R.actions A' hA'
    rcases hc with rfl | ⟨f', hf', rfl⟩
    · exact R.condOk_rem hQ hF (start_pre hQ hF hA) hd
    · obtain ⟨f, hf, d, rfl, hd⟩ := forall₂_right hfs f' hf'
      exact R.condOk_rem hQ hF (start_eff hQ hF hA hf) hd
  · obtain ⟨xs', h1, h2⟩ := R.axs
    rw [h2] at hx'
    rcases List.mem_append.mp hx' with hx' | hx'
    · obtain ⟨x, hx, d, rfl, hd⟩ := forall₂_right h1 x' hx'
      exact R.condOk_rem hQ hF (start_ax hQ hF hx) hd
    · obtain ⟨i, params, c, hi, rfl⟩ := mem_newAxioms.mp hx'
      exact R.condOk_new hQ hF hi
  · rcases R.goal with h | ⟨k, g, h1, h2, h3⟩
    · exact R.condOk_rem hQ hF (start_goal hQ hF) h
    · rw [h3]
      exact ⟨rfl, trivial, trivial, (newArity_new hF h1).symm⟩

theorem ready : Ready Q' := ⟨fun c hc => (R.condOk hQ hF c hc).noAll, R.simple⟩

omit hQ hF R in
theorem scoped_rem (hsort : ∀ l, (e.sortVars l).Perm l) {types : List (V × T)} {c c' : Cond P V O T} {vs : List V} (hs : c.Scoped vs) (h : Rem e types final c false c') : c'.Scoped vs :=
  (scoped_iff _).mpr fun v hv => (scoped_iff _).mp hs v (h.freeVars hsort v hv)

omit hQ hF R in
theorem effects_sublist {types : List (V × T)} {fs fs' : List (PEffect P V O T)} (h : List.Forall₂ (EffRel e types final) fs fs') : (fs'.flatMap fun f => f.params ++ f.cond.bound).Sublist (fs.flatMap fun f => f.params ++ f.cond.bound) := by
  induction h with
  | nil => exact .refl _
  | cons h _ ih =>
    obtain ⟨c', rfl, hc⟩ := h
    rw [List.flatMap_cons, List.flatMap_cons]
    exact ((List.Sublist.refl _).append hc.bound).append ih

theorem ok : Q'.Ok (newArity e ar final) fnAr where
  initArity := by
    rw [R.init]
    intro a ha
    rw [hQ.initArity a ha, newArity_old (hF.init a ha)]
  valueArity := by rw [R.values]; exact hQ.valueArity
  arity := fun c hc => (R.condOk hQ hF c hc).arity
  costArity := by
    intro A' hA'
    obtain ⟨A, hA, d, fs', rfl, hd, hfs⟩ := forall₂_right R.actions A' hA'
    exact hQ.costArity A hA
  effectArity := by
    intro A' hA' f' hf'
    obtain ⟨A, hA, d, fs', rfl, hd, hfs⟩ := forall₂_right R.actions A' hA'
    obtain ⟨f, hf, d, rfl, hd⟩ := forall₂_right hfs f' hf'
    show f.atom.args.length = _
    rw [hQ.effectArity A hA f hf, newArity_old (hF.effects A hA f hf)]
  axiomArity := by
    intro x' hx'
    obtain ⟨xs', h1, h2⟩ := R.axs
    rw [h2] at hx'
    rcases List.mem_append.mp hx' with hx' | hx'
    · obtain ⟨x, hx, d, rfl, hd⟩ := forall₂_right h1 x' hx'
      show x.external = newArity e ar final x.pred ∧ _
      rw [newArity_old (hF.axs x hx)]
      exact hQ.axiomArity x hx
    · obtain ⟨i, params, c, hi, rfl⟩ := mem_newAxioms.mp hx'
      exact ⟨(newArity_new hF hi).symm, Nat.le_refl _⟩
  actionExternal := by
    intro A' hA'
    obtain ⟨A, hA, d, fs', rfl, hd, hfs⟩ := forall₂_right R.actions A' hA'
    exact hQ.actionExternal A hA
  eqArity := by rw [R.eq, newArity_old hF.eq]; exact hQ.eqArity
  eqSame := by rw [R.objects, R.eq, R.init]; exact hQ.eqSame
  eqOnly := by rw [R.eq, R.init]; exact hQ.eqOnly
  eqEffect := by
    intro A' hA' f' hf'
    obtain ⟨A, hA, d, fs', rfl, hd, hfs⟩ := forall₂_right R.actions A' hA'
    obtain ⟨f, hf, d, rfl, hd⟩ := forall₂_right hfs f' hf'
    rw [R.eq]
    exact hQ.eqEffect A hA f hf
  eqAxiom := by
    intro x' hx'
    rw [R.eq]
    obtain ⟨xs', h1, h2⟩ := R.axs
    rw [h2] at hx'
    rcases List.mem_append.mp hx' with hx' | hx'
    · obtain ⟨x, hx, d, rfl, hd⟩ := forall₂_right h1 x' hx'
      exact hQ.eqAxiom x hx
    · obtain ⟨i, params, c, hi, rfl⟩ := mem_newAxioms.mp hx'
      exact fun h => hF.eq i h.symm
  initObjects := by rw [R.objects, R.init]; exact hQ.initObjects
  valueObjects := by rw [R.objects, R.values]; exact hQ.valueObjects
  effectObjects := by
    intro A' hA' f' hf'
    obtain ⟨A, hA, d, fs', rfl, hd, hfs⟩ := forall₂_right R.actions A' hA'
    obtain ⟨f, hf, d, rfl, hd⟩ := forall₂_right hfs f' hf'
    rw [R.objects]
    exact hQ.effectObjects A hA f hf
  preVars := by
    intro A' hA'
    obtain ⟨A, hA, d, fs', rfl, hd, hfs⟩ := forall₂_right R.actions A' hA'
    exact scoped_rem hF.sort (hQ.preVars A hA) hd
  costVars := by
    intro A' hA'
    obtain ⟨A, hA, d, fs', rfl, hd, hfs⟩ := forall₂_right R.actions A' hA'
    exact hQ.costVars A hA
  effectVars := by
    intro A' hA' f' hf'
    obtain ⟨A, hA, d, fs', rfl, hd, hfs⟩ := forall₂_right R.actions A' hA'
    obtain ⟨f, hf, d, rfl, hd⟩ := forall₂_right hfs f' hf'
    exact ⟨scoped_rem hF.sort (hQ.effectVars A hA f hf).1 hd, (hQ.effectVars A hA f hf).2⟩
  axiomVars := by
    intro x' hx'
    obtain ⟨xs', h1, h2⟩ := R.axs
    rw [h2] at hx'
    rcases List.mem_append.mp hx' with hx' | hx'
    · obtain ⟨x, hx, d, rfl, hd⟩ := forall₂_right h1 x' hx'
      exact scoped_rem hF.sort (hQ.axiomVars x hx) hd
    · obtain ⟨i, params, c, hi, rfl⟩ := mem_newAxioms.mp hx'
      exact (scoped_iff _).mpr (R.good i _ hi).vars
  goalVars := by
    rcases R.goal with h | ⟨k, g, h1, h2, h3⟩
    · exact scoped_rem hF.sort hQ.goalVars h
    · rw [h3]
      intro v hv
      simp [SymAtom.vars] at hv
  actionNames := by
    intro A' hA'
    obtain ⟨A, hA, d, fs', rfl, hd, hfs⟩ := forall₂_right R.actions A' hA'
    exact (hQ.actionNames A hA).sublist ((((List.Sublist.refl _).append hd.bound).append (effects_sublist hfs)).map _)
  axiomNames := by
    intro x' hx'
    obtain ⟨xs', h1, h2⟩ := R.axs
    rw [h2] at hx'
    rcases List.mem_append.mp hx' with hx' | hx'
    · obtain ⟨x, hx, d, rfl, hd⟩ := forall₂_right h1 x' hx'
      exact (hQ.axiomNames x hx).sublist (((List.Sublist.refl _).append hd.bound).map _)
    · obtain ⟨i, params, c, hi, rfl⟩ := mem_newAxioms.mp hx'
      exact (R.good i _ hi).nodup
  goalNames := by
    rcases R.goal with h | ⟨k, g, h1, h2, h3⟩
    · exact hQ.goalNames.sublist (h.bound.map _)
    · rw [h3]
      exact List.nodup_nil
  functional := by rw [R.values]; exact hQ.functional
  proper := fun c hc => by rw [R.hasType]; exact (R.condOk hQ hF c hc).proper
  flat := fun c hc => (R.condOk hQ hF c hc).flat

omit hQ in
theorem derivedOk_iff : Q'.DerivedOk ↔ Q.DerivedOk := by
  obtain ⟨xs', h1, h2⟩ := R.axs
  unfold PTask.DerivedOk
  rw [R.init]
  refine and_congr (forall₂_congr fun a ha => not_congr (R.derived_old (hF.init a ha))) ⟨fun h A hA f hf x hx => ?_, fun h A' hA' f' hf' x' hx' => ?_⟩
  · obtain ⟨A', hA', d, fs', rfl, _, hfs⟩ := forall₂_left R.actions A hA
    obtain ⟨f', hf', d', rfl, _⟩ := forall₂_left hfs f hf
    obtain ⟨x', hx', d'', rfl, _⟩ := forall₂_left h1 x hx
    exact h _ hA' _ hf' { x with cond := d'' } (by rw [h2]; exact List.mem_append_left _ hx')
  · obtain ⟨A, hA, d, fs', rfl, _, hfs⟩ := forall₂_right R.actions A' hA'
    obtain ⟨f, hf, d', rfl, _⟩ := forall₂_right hfs f' hf'
    rw [h2] at hx'
    rcases List.mem_append.mp hx' with hx' | hx'
    · obtain ⟨x, hx, d'', rfl, _⟩ := forall₂_right h1 x' hx'
      exact h A hA f hf x hx
    · obtain ⟨i, params, c, _, rfl⟩ := mem_newAxioms.mp hx'
      exact fun he => hF.effects A hA f hf i he.symm
end Removed

section strata
variable {has : T → O → Prop}

/-- the atoms that a new atom depends on -/
inductive Below (e : Env P V) (has : T → O → Prop) (final : New P V O T) : Nat → List O → GAtom P O → Prop where
  | base (i params c) (σ : V → O) (q) : final[i]? = some (params, c) → c.occurs has true q true σ → Old e q.pred → Below e has final i (params.map (fun p => σ p.1)) q
  | step (i params c) (σ : V → O) (j args q) : final[i]? = some (params, c) → c.occurs has true ⟨e.newAxiom j, args⟩ true σ → Below e has final j args q → Below e has final i (params.map (fun p => σ p.1)) q

omit [DecidableEq V] in
theorem Below.inv {i : Nat} {args : List O} {q : GAtom P O} (h : Below e has final i args q) : ∃ params c, ∃ σ : V → O, final[i]? = some (params, c) ∧ args = params.map (fun p => σ p.1) ∧
    ((c.occurs has true q true σ ∧ Old e q.pred) ∨ ∃ j as, c.occurs has true ⟨e.newAxiom j, as⟩ true σ ∧ Below e has final j as q) := by
  cases h with
  | base _ params c σ _ h1 h2 h3 => exact ⟨params, c, σ, h1, rfl, .inl ⟨h2, h3⟩⟩
  | step _ params c σ j as _ h1 h2 h3 => exact ⟨params, c, σ, h1, rfl, .inr ⟨j, as, h2, h3⟩⟩

omit [DecidableEq V] in
theorem Below.old {i : Nat} {args : List O} {q : GAtom P O} (h : Below e has final i args q) : Old e q.pred := by
  induction h with
  | base _ _ _ _ _ _ _ h => exact h
  | step _ _ _ _ _ _ _ _ _ _ ih => exact ih

omit [DecidableEq V] in
theorem occurs_lits {l : Bool → SymAtom P V O → Prop} (c : Cond P V O T) : ∀ {n u : Bool} {p : GAtom P O} {σ : V → O}, c.Lits l → c.occurs has n p u σ → ∃ m a, ∃ τ : V → O, l m a ∧ p = a.inst τ ∧ n = (m || u || n) := by
  induction c using Cond.ind with
  | truth => intro n u p σ _ h; exact h.elim
  | falsity => intro n u p σ _ h; exact h.elim
  | lit m a => intro n u p σ hl h; exact ⟨m, a, σ, hl, h.2, by rw [h.1]; simp⟩
  | conj cs ih =>
    intro n u p σ hl h
    obtain ⟨c, hc, h⟩ := occurs_conj.mp h
    exact ih c hc (Lits_conj.mp hl c hc) h
  | disj cs ih =>
    intro n u p σ hl h
    obtain ⟨c, hc, h⟩ := occurs_disj.mp h
    exact ih c hc (Lits_disj.mp hl c hc) h
  | all ps b ih =>
    intro n u p σ hl h
    rw [Cond.occurs] at h
    obtain ⟨τ, _, h⟩ := h
    obtain ⟨m, a, ρ, h1, h2, h3⟩ := ih hl h
    exact ⟨m, a, ρ, h1, h2, by revert h3; clear ih h1 h2 h hl; revert m u n; decide⟩
  | ex ps b ih =>
    intro n u p σ hl h
    rw [Cond.occurs] at h
    obtain ⟨τ, _, h⟩ := h
    exact ih hl h

omit [DecidableEq V] in
theorem occurs_touch (c : Cond P V O T) : ∀ {n u : Bool} {p : GAtom P O} {σ : V → O}, c.occurs has n p u σ → c.occurs has true p true σ := by
  induction c using Cond.ind with
  | truth => intro n u p σ h; exact h.elim
  | falsity => intro n u p σ h; exact h.elim
  | lit m a => intro n u p σ h; exact ⟨by simp, h.2⟩
  | conj cs ih =>
    intro n u p σ h
    obtain ⟨c, hc, h⟩ := occurs_conj.mp h
    exact occurs_conj.mpr ⟨c, hc, ih c hc h⟩
  | disj cs ih =>
    intro n u p σ h
    obtain ⟨c, hc, h⟩ := occurs_disj.mp h
    exact occurs_disj.mpr ⟨c, hc, ih c hc h⟩
  | all ps b ih =>
    intro n u p σ h
    rw [Cond.occurs] at h ⊢
    obtain ⟨τ, hE, h⟩ := h
    exact ⟨τ, hE, ih h⟩
  | ex ps b ih =>
    intro n u p σ h
    rw [Cond.occurs] at h ⊢
    obtain ⟨τ, hE, h⟩ := h
    exact ⟨τ, hE, ih h⟩

omit [DecidableEq V] in
/-- under a universal quantifier the sign of literals does not matter -/
theorem occurs_negate (c : Cond P V O T) : ∀ {n : Bool} {p : GAtom P O} {σ : V → O}, (negate c).occurs has n p true σ ↔ c.occurs has n p true σ := by
  induction c using Cond.ind with
  | truth => intro n p σ; rfl
  | falsity => intro n p σ; rfl
  | lit m a => intro n p σ; simp [negate, Cond.occurs]
  | conj cs ih => intro n p σ; rw [negate_conj, occurs_disj, occurs_conj]; simp only [List.mem_map, exists_exists_and_eq_and]; exact exists_congr fun c => and_congr_right fun hc => ih c hc
  | disj cs ih => intro n p σ; rw [negate_disj, occurs_disj, occurs_conj]; simp only [List.mem_map, exists_exists_and_eq_and]; exact exists_congr fun c => and_congr_right fun hc => ih c hc
  | all ps b ih => intro n p σ; rw [negate, Cond.occurs, Cond.occurs]; exact exists_congr fun τ => and_congr_right fun _ => ih
  | ex ps b ih => intro n p σ; rw [negate, Cond.occurs, Cond.occurs]; exact exists_congr fun τ => and_congr_right fun _ => ih

theorem univ_occ (hsort : ∀ l, (e.sortVars l).Perm l) {types ps params : List (V × T)} {c d : Cond P V O T} {i : Nat} (h1 : typedParams e types (.ex ps c) = some params) (h2 : final[i]? = some (params, .ex ps d)) (hold : c.Lits (fun _ a => Old e a.pred))
    {σ : V → O} (hf : Fine has types (.ex ps c) σ)
    (h3 : d = c ∨ ∀ τ, Fine has types c τ → (∀ q : GAtom P O, Old e q.pred → d.occurs has true q true τ → c.occurs has true q true τ) ∧ ∀ j as, d.occurs has true ⟨e.newAxiom j, as⟩ true τ → ∀ q, Below e has final j as q → c.occurs has true q true τ) {q : GAtom P O}
    (hb : Below e has final i (params.map (fun p => σ p.1)) q) : (Cond.ex ps c).occurs has true q true σ := by
  have hP := typedParams_spec hsort h1
  obtain ⟨params', c', σ', h4, h5, h6⟩ := hb.inv
  cases h2.symm.trans h4
  have hag : ∀ v ∈ Normalize.freeVars (.ex ps c), σ v = σ' v := fun v hv => params_agree h5 v ((hP.mem v).mpr hv)
  refine occurs_agree _ (fun v hv => (hag v hv).symm) ?_
  have hf' := hf.agree hag
  simp only [Cond.occurs] at h6 ⊢
  rcases h6 with ⟨⟨τ, hE, ho⟩, hq⟩ | ⟨j, as, ⟨τ, hE, ho⟩, hq⟩
  · refine ⟨τ, hE, ?_⟩
    rcases h3 with rfl | h3
    · exact ho
    · exact (h3 τ (hf'.body hE)).1 q hq ho
  · refine ⟨τ, hE, ?_⟩
    rcases h3 with rfl | h3
    · obtain ⟨m, a, ρ, h7, h8, _⟩ := occurs_lits _ hold ho
      exact absurd (congrArg GAtom.pred h8).symm (h7 j)
    · exact (h3 τ (hf'.body hE)).2 j as ho q hq

theorem occurs_true (c : Cond P V O T) : ∀ {n : Bool} {p : GAtom P O} {σ : V → O}, c.occurs has n p true σ → n = true := by
  intro n p σ h
  obtain ⟨m, a, τ, _, _, h⟩ := occurs_lits c (Lits_true c) h
  simpa using h

/-- what occurs in a condition after the replacement -/
theorem Rem.occ (hsort : ∀ l, (e.sortVars l).Perm l) (hinj : ∀ i j, e.newAxiom i = e.newAxiom j → i = j) {types : List (V × T)} {c c' : Cond P V O T} {neg : Bool} (h : Rem e types final c neg c') : c.Lits (fun _ a => Old e a.pred) → ∀ u, (neg = true → u = true) → ∀ σ : V → O, Fine has types c σ → ∀ n p, c'.occurs has n p u σ →
    (Old e p.pred → c.occurs has n p u σ) ∧ ∀ i args, p = ⟨e.newAxiom i, args⟩ → n = true ∧ ∀ q, Below e has final i args q → c.occurs has true q u σ := by
  refine Rem.ind (M := fun c neg c' => c.Lits (fun _ a => Old e a.pred) → ∀ u, (neg = true → u = true) → ∀ σ : V → O, Fine has types c σ → ∀ n p, c'.occurs has n p u σ →
    (Old e p.pred → c.occurs has n p u σ) ∧ ∀ i args, p = ⟨e.newAxiom i, args⟩ → n = true ∧ ∀ q, Below e has final i args q → c.occurs has true q u σ) ?_ ?_ ?_ ?_ ?_ ?_ ?_ ?_ ?_ c h
  · intro neg _ u _ σ _ n p h
    cases neg <;> exact h.elim
  · intro neg _ u _ σ _ n p h
    cases neg <;> exact h.elim
  · intro m a neg hl u hu σ _ n p h
    rw [Cond.occurs] at h
    refine ⟨fun _ => ?_, fun i args hp => ?_⟩
    · rw [Cond.occurs]
      refine ⟨?_, h.2⟩
      rw [h.1]
      cases neg with
      | false => simp
      | true => simp [hu rfl]
    · exact absurd (congrArg GAtom.pred (h.2.symm.trans hp)) (hl i)
  · intro cs neg ds h hl u hu σ hf n p ho
    rw [Lits_conj] at hl
    have ho' : ∃ d ∈ ds, d.occurs has n p u σ := by cases neg; exacts [occurs_conj.mp ho, occurs_disj.mp ho]
    obtain ⟨d, hd, ho'⟩ := ho'
    obtain ⟨c, hc, _, hM⟩ := forall₂_right h d hd
    obtain ⟨h1, h2⟩ := hM (hl c hc) u hu σ (hf.conj c hc) n p ho'
    exact ⟨fun hp => occurs_conj.mpr ⟨c, hc, h1 hp⟩, fun i args hp => ⟨(h2 i args hp).1, fun q hq => occurs_conj.mpr ⟨c, hc, (h2 i args hp).2 q hq⟩⟩⟩
  · intro cs neg ds h hl u hu σ hf n p ho
    rw [Lits_disj] at hl
    have ho' : ∃ d ∈ ds, d.occurs has n p u σ := by cases neg; exacts [occurs_disj.mp ho, occurs_conj.mp ho]
    obtain ⟨d, hd, ho'⟩ := ho'
    obtain ⟨c, hc, _, hM⟩ := forall₂_right h d hd
    obtain ⟨h1, h2⟩ := hM (hl c hc) u hu σ (hf.disj c hc) n p ho'
    exact ⟨fun hp => occurs_disj.mpr ⟨c, hc, h1 hp⟩, fun i args hp => ⟨(h2 i args hp).1, fun q hq => occurs_disj.mpr ⟨c, hc, (h2 i args hp).2 q hq⟩⟩⟩
  · intro ps b d _ hM hl u hu σ hf n p ho
    cases hu rfl
    simp only [Cond.occurs] at ho ⊢
    obtain ⟨τ, hE, ho⟩ := ho
    obtain ⟨h1, h2⟩ := hM hl true (fun _ => rfl) τ ((Fine.all_ex.mp hf).body hE) n p ho
    exact ⟨fun hp => ⟨τ, hE, h1 hp⟩, fun i args hp => ⟨(h2 i args hp).1, fun q hq => ⟨τ, hE, (h2 i args hp).2 q hq⟩⟩⟩
  · intro ps b d _ hM hl u hu σ hf n p ho
    simp only [Cond.occurs] at ho ⊢
    obtain ⟨τ, hE, ho⟩ := ho
    obtain ⟨h1, h2⟩ := hM hl u (by simp) τ (hf.body hE) n p ho
    exact ⟨fun hp => ⟨τ, hE, h1 hp⟩, fun i args hp => ⟨(h2 i args hp).1, fun q hq => ⟨τ, hE, (h2 i args hp).2 q hq⟩⟩⟩
  · intro ps b params i d h1 h2 h3 hl u hu σ hf n p ho
    rw [newLit, Cond.occurs, inst_newLit] at ho
    refine ⟨fun hp => absurd (congrArg GAtom.pred ho.2) (hp i), fun j args hp => ⟨by rw [ho.1]; rfl, fun q hq => ?_⟩⟩
    have he := ho.2.symm.trans hp
    cases hinj _ _ (congrArg GAtom.pred he)
    have ha := congrArg GAtom.args he
    simp only at ha
    rw [← ha] at hq
    have hf' : Fine has types (.ex ps (negate b)) σ := ⟨by simpa [Cond.bound, bound_negate] using hf.bound, fun v hv => hf.free v (by rw [mem_freeVars_ex, freeVars_negate] at hv; exact mem_freeVars_all.mpr hv)⟩
    have := univ_occ hsort h1 h2 ((Lits_negate b).mpr hl) hf' (h3.imp id fun h τ hτ => ?_) hq
    · simp only [Cond.occurs, occurs_negate] at this ⊢
      exact this
    · simp only [occurs_negate]
      exact ⟨fun q hq ho => (h.2 hl true (fun _ => rfl) τ (Fine.negate.mp hτ) true q ho).1 hq, fun j as ho q hq => ((h.2 hl true (fun _ => rfl) τ (Fine.negate.mp hτ) true _ ho).2 j as rfl).2 q hq⟩
  · intro ps b params i d h1 h2 h3 hl u hu σ hf n p ho
    cases hu rfl
    rw [newLit, Cond.occurs, inst_newLit] at ho
    refine ⟨fun hp => absurd (congrArg GAtom.pred ho.2) (hp i), fun j args hp => ⟨by rw [ho.1]; rfl, fun q hq => ?_⟩⟩
    have he := ho.2.symm.trans hp
    cases hinj _ _ (congrArg GAtom.pred he)
    have ha := congrArg GAtom.args he
    simp only at ha
    rw [← ha] at hq
    exact univ_occ hsort h1 h2 hl hf (h3.imp id fun h τ hτ => ⟨fun q hq ho => (h.2 hl true (by simp) τ hτ true q ho).1 hq, fun j as ho q hq => ((h.2 hl true (by simp) τ hτ true _ ho).2 j as rfl).2 q hq⟩) hq

omit [DecidableEq V] in
theorem finite_lists {A : Set O} (hA : A.Finite) : ∀ n, {l : List O | l.length = n ∧ ∀ o ∈ l, o ∈ A}.Finite
  | 0 => (Set.finite_singleton []).subset fun l hl => List.length_eq_zero_iff.mp hl.1
  | n + 1 => by
    refine (Set.Finite.image2 List.cons hA (finite_lists hA n)).subset fun l hl => ?_
    cases l with
    | nil => simp at hl
    | cons o l => exact ⟨o, hl.2 o (by simp), l, ⟨by simpa using hl.1, fun x hx => hl.2 x (by simp [hx])⟩, rfl⟩

theorem finite_ext {A : Set O} (hA : A.Finite) (hh : ∀ t o, has t o → o ∈ A) (ps : List (V × T)) (σ : V → O) : {τ | Ext has ps σ τ}.Finite := by
  refine Set.Finite.of_injOn (f := fun τ : V → O => ps.map (fun p => τ p.1)) (t := {l : List O | l.length = ps.length ∧ ∀ o ∈ l, o ∈ A}) (fun τ hτ => ⟨by simp, fun o ho => ?_⟩) (fun τ hτ ρ hρ h => ?_) (finite_lists hA _)
  · obtain ⟨p, hp, rfl⟩ := List.mem_map.mp ho
    exact hh _ _ (hτ.2 p hp)
  · funext v
    by_cases hv : v ∈ names ps
    · exact params_agree h v hv
    · rw [hτ.1 v hv, hρ.1 v hv]

theorem finite_occurs {A : Set O} (hA : A.Finite) (hh : ∀ t o, has t o → o ∈ A) {n u : Bool} (c : Cond P V O T) : ∀ σ, {p | c.occurs has n p u σ}.Finite := by
  induction c using Cond.ind generalizing u with
  | truth => intro σ; exact (Set.finite_empty).subset fun p hp => hp.elim
  | falsity => intro σ; exact (Set.finite_empty).subset fun p hp => hp.elim
  | lit m a => intro σ; exact (Set.finite_singleton (a.inst σ)).subset fun p hp => hp.2
  | conj cs ih =>
    intro σ
    refine (Set.Finite.biUnion (s := {c | c ∈ cs}) (List.finite_toSet cs) fun c hc => ih c hc (u := u) σ).subset fun p hp => ?_
    obtain ⟨c, hc, h⟩ := occurs_conj.mp hp
    exact Set.mem_biUnion hc h
  | disj cs ih =>
    intro σ
    refine (Set.Finite.biUnion (s := {c | c ∈ cs}) (List.finite_toSet cs) fun c hc => ih c hc (u := u) σ).subset fun p hp => ?_
    obtain ⟨c, hc, h⟩ := occurs_disj.mp hp
    exact Set.mem_biUnion hc h
  | all ps b ih =>
    intro σ
    refine (Set.Finite.biUnion (finite_ext hA hh ps σ) fun τ _ => ih (u := true) τ).subset fun p hp => ?_
    obtain ⟨τ, hE, h⟩ : ∃ τ, Ext has ps σ τ ∧ b.occurs has n p true τ := hp
    exact Set.mem_biUnion hE h
  | ex ps b ih =>
    intro σ
    refine (Set.Finite.biUnion (finite_ext hA hh ps σ) fun τ _ => ih (u := u) τ).subset fun p hp => ?_
    obtain ⟨τ, hE, h⟩ : ∃ τ, Ext has ps σ τ ∧ b.occurs has n p u τ := hp
    exact Set.mem_biUnion hE h

theorem finite_below {A : Set O} (hA : A.Finite) (hh : ∀ t o, has t o → o ∈ A) (hinj : ∀ i j, e.newAxiom i = e.newAxiom j → i = j) (hg : AllGood e has ar final) : ∀ i args, {q | Below e has final i args q}.Finite := by
  intro i
  induction i using Nat.strong_induction_on with
  | h i ih =>
    intro args
    by_cases hex : ∃ params c, ∃ σ : V → O, final[i]? = some (params, c) ∧ args = params.map (fun p => σ p.1)
    · obtain ⟨params, c, σ, h1, h2⟩ := hex
      have hfin := finite_occurs (n := true) (u := true) hA hh c σ
      refine (hfin.union (Set.Finite.biUnion hfin fun r _ => (?_ : {q | ∃ j as, j < i ∧ r = ⟨e.newAxiom j, as⟩ ∧ Below e has final j as q}.Finite))).subset fun q hq => ?_
      · by_cases hr : ∃ j, j < i ∧ r.pred = e.newAxiom j
        · obtain ⟨j, hj, hr⟩ := hr
          refine (ih j hj r.args).subset fun q ⟨k, as, _, h3, h4⟩ => ?_
          subst h3
          cases hinj _ _ hr
          exact h4
        · exact Set.finite_empty.subset fun q ⟨k, as, h3, h4, _⟩ => hr ⟨k, h3, by rw [h4]⟩
      · obtain ⟨params', c', σ', h3, h4, h5⟩ := hq.inv
        cases h1.symm.trans h3
        have hag : ∀ v ∈ freeVars c, σ' v = σ v := fun v hv => params_agree (h4.symm.trans h2) v ((hg i _ h1).vars v hv)
        rcases h5 with h5 | ⟨j, as, h5, h6⟩
        · exact .inl (occurs_agree _ hag h5.1)
        · obtain ⟨m, a, τ, h7, h8, _⟩ := occurs_lits _ (take_literal hg h1) h5
          have hlt : j < i := by
            rcases h7 with h7 | ⟨_, k, hk, h7⟩
            · exact absurd (congrArg GAtom.pred h8).symm (h7 j)
            · have := hinj _ _ ((congrArg GAtom.pred h8).trans h7)
              omega
          exact .inr (Set.mem_biUnion (x := (⟨e.newAxiom j, as⟩ : GAtom P O)) (occurs_agree _ hag h5) ⟨j, as, hlt, rfl, h6⟩)
    · refine Set.finite_empty.subset fun q hq => ?_
      obtain ⟨params', c', σ', h3, h4, _⟩ := hq.inv
      exact hex ⟨_, _, _, h3, h4⟩

omit [DecidableEq V] in
theorem finite_objects : {o | ∃ t, (o, t) ∈ Q.objects}.Finite := by
  refine ((List.finite_toSet Q.objects).image Prod.fst).subset fun o ⟨t, h⟩ => ⟨(o, t), h, rfl⟩

open Classical in
theorem Removed.stratifiable (hQ : Q.Ok ar fnAr) (hF : Fresh e Q) (R : Removed e ar Q Q' final) (hst : Q.Stratifiable) : Q'.Stratifiable := by
  obtain ⟨layer, hl⟩ := hst
  have hbound : ∀ i args, ∃ m, ∀ q, Below e Q.HasType final i args q → layer q < m := by
    intro i args
    have hfin := finite_below (finite_objects (Q := Q)) (fun t o ⟨u, h, _⟩ => ⟨u, h⟩) hF.inj R.good i args
    obtain ⟨m, hm⟩ := (hfin.image layer).bddAbove
    exact ⟨m + 1, fun q hq => Nat.lt_succ_of_le (hm ⟨q, hq, rfl⟩)⟩
  have hD : ∀ i args, ∃ m, (∀ q, Below e Q.HasType final i args q → Q.Derived q → layer q < m) ∧ ∀ m', (∀ q, Below e Q.HasType final i args q → Q.Derived q → layer q < m') → m ≤ m' := by
    intro i args
    have hex : ∃ m, ∀ q, Below e Q.HasType final i args q → Q.Derived q → layer q < m := let ⟨m, hm⟩ := hbound i args; ⟨m, fun q hq _ => hm q hq⟩
    exact ⟨Nat.find hex, Nat.find_spec hex, fun m' hm' => Nat.find_min' hex hm'⟩
  choose m hm hmin using hD
  set K := final.length + 1 with hK
  let layer' : GAtom P O → Nat := fun p => if h : ∃ i, p.pred = e.newAxiom i then K * m h.choose p.args + h.choose else K * layer p + final.length
  have hlo : ∀ p : GAtom P O, Old e p.pred → layer' p = K * layer p + final.length := fun p hp => dif_neg fun ⟨i, hi⟩ => hp i hi
  have hln : ∀ i args, layer' ⟨e.newAxiom i, args⟩ = K * m i args + i := by
    intro i args
    have h : ∃ j, e.newAxiom i = e.newAxiom j := ⟨i, rfl⟩
    have hc : h.choose = i := (hF.inj _ _ h.choose_spec).symm
    show (if h : ∃ j, e.newAxiom i = e.newAxiom j then K * m h.choose args + h.choose else _) = _
    rw [dif_pos h, hc]
  have hmul : ∀ a b : Nat, a < b → K * a + K ≤ K * b := fun a b h => by
    calc K * a + K = K * (a + 1) := by rw [Nat.mul_add, Nat.mul_one]
      _ ≤ K * b := Nat.mul_le_mul_left _ h
  refine ⟨layer', fun x' hx' σ ht n p ho hd => ?_⟩
  obtain ⟨xs', h1, h2⟩ := R.axs
  rw [R.typed] at ht
  rw [R.hasType] at ho
  rw [h2] at hx'
  have hnew : ∀ {p : GAtom P O}, ¬ Old e p.pred → Q'.Derived p → ∃ i, i < final.length ∧ p = ⟨e.newAxiom i, p.args⟩ := by
    intro p hp hd
    obtain ⟨i, hi⟩ := not_old hp
    have : p = ⟨e.newAxiom i, p.args⟩ := by rw [← hi]
    rw [this, R.derived_new hF] at hd
    exact ⟨i, hd, this⟩
  rcases List.mem_append.mp hx' with hx' | hx'
  · obtain ⟨x, hx, d, rfl, hr⟩ := forall₂_right h1 x' hx'
    have hhead : PAxiom.head { x with cond := d } σ = x.head σ := rfl
    have hho : Old e (x.head σ).pred := hF.axs x hx
    obtain ⟨h3, h4⟩ := hr.occ hF.sort hF.inj (hF.conds _ (ax_mem hx)) false (by simp) σ (Removed.fine_ax hQ hx ht) n p ho
    rw [hhead, hlo _ hho]
    by_cases hp : Old e p.pred
    · rw [hlo p hp]
      obtain ⟨h5, h6⟩ := hl x hx σ ht n p (h3 hp) ((R.derived_old hp).mp hd)
      refine ⟨Nat.add_le_add_right (Nat.mul_le_mul_left _ h5) _, fun hn => ?_⟩
      have := hmul _ _ (h6 hn)
      omega
    · obtain ⟨i, hi, hpe⟩ := hnew hp hd
      obtain ⟨rfl, h5⟩ := h4 i p.args hpe
      rw [hpe, hln]
      have : m i p.args ≤ layer (x.head σ) := hmin i p.args _ fun q hq hqd => (hl x hx σ ht true q (h5 q hq) hqd).2 rfl
      have := Nat.mul_le_mul_left K this
      exact ⟨by omega, fun _ => by omega⟩
  · obtain ⟨i, params, c, hi, rfl⟩ := mem_newAxioms.mp hx'
    have hhead : PAxiom.head (⟨e.newAxiom i, params, params.length, c⟩ : PAxiom P V O T) σ = ⟨e.newAxiom i, params.map (fun p => σ p.1)⟩ := by simp [PAxiom.head]
    have hu : c.occurs Q.HasType true p true σ := occurs_touch c ho
    rw [hhead, hln]
    by_cases hp : Old e p.pred
    · rw [hlo p hp]
      have := hmul _ _ (hm i (params.map (fun p => σ p.1)) p (.base i params c σ p hi hu hp) ((R.derived_old hp).mp hd))
      exact ⟨by omega, fun _ => by omega⟩
    · obtain ⟨j, hj, hpe⟩ := hnew hp hd
      obtain ⟨k, a, τ, h7, h8, _⟩ := occurs_lits _ (take_literal R.good hi) hu
      have hlt : j < i := by
        rcases h7 with h7 | ⟨_, l, hl', h7⟩
        · exact absurd h7 (by rw [h8] at hp; exact hp)
        · have := hF.inj j l ((congrArg GAtom.pred (hpe.symm.trans h8)).trans h7)
          omega
      rw [hpe, hln]
      have : m j p.args ≤ m i (params.map (fun p => σ p.1)) := hmin j p.args _ fun q hq hqd => hm i _ q (.step i params c σ j p.args q hi (hpe ▸ hu) hq) hqd
      have := Nat.mul_le_mul_left K this
      exact ⟨by omega, fun _ => by omega⟩
end strata
end Verif.Normalize
