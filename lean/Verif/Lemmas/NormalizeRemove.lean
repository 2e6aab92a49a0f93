import Verif.Lemmas.NormalizeFinish
import Mathlib.Data.List.Dedup

/-
Universal conditions are replaced by negated atoms of new axioms: a relation between conditions and what they become, and its properties.
-/
namespace Verif.Normalize
open Verif.Datalog Verif.Lifted Verif.Pddl
variable {P V O T F : Type} [DecidableEq V]

/-- `c'` is the negated atom of a new axiom whose condition is that of `.ex ps c`, or what it becomes -/
def UnivRem (e : Env P V) (types : List (V × T)) (final : New P V O T) (ps : List (V × T)) (c : Cond P V O T) (R : Cond P V O T → Prop) (c' : Cond P V O T) : Prop :=
  ∃ params i d, typedParams e types (.ex ps c) = some params ∧ final[i]? = some (params, .ex ps d) ∧ (d = c ∨ R d) ∧ c' = newLit e i params

mutual
/-- the third condition is what the first one (or its negation) becomes -/
def Rem (e : Env P V) (types : List (V × T)) (final : New P V O T) : Cond P V O T → Bool → Cond P V O T → Prop
  | .truth, neg, c' => c' = if neg then .falsity else .truth
  | .falsity, neg, c' => c' = if neg then .truth else .falsity
  | .lit n a, neg, c' => c' = .lit (n != neg) a
  | .conj cs, neg, c' => ∃ ds, RemAll e types final cs neg ds ∧ c' = if neg then .disj ds else .conj ds
  | .disj cs, neg, c' => ∃ ds, RemAll e types final cs neg ds ∧ c' = if neg then .conj ds else .disj ds
  | .all ps b, neg, c' => (neg = true ∧ ∃ d, Rem e types final b true d ∧ c' = .ex ps d) ∨ (neg = false ∧ UnivRem e types final ps (negate b) (Rem e types final b true) c')
  | .ex ps b, neg, c' => (neg = false ∧ ∃ d, Rem e types final b false d ∧ c' = .ex ps d) ∨ (neg = true ∧ UnivRem e types final ps b (Rem e types final b false) c')
def RemAll (e : Env P V) (types : List (V × T)) (final : New P V O T) : List (Cond P V O T) → Bool → List (Cond P V O T) → Prop
  | [], _, ds => ds = []
  | c :: cs, neg, ds => ∃ d ds', Rem e types final c neg d ∧ RemAll e types final cs neg ds' ∧ ds = d :: ds'
end

section
variable {e : Env P V} {types : List (V × T)} {final : New P V O T}

theorem RemAll_iff {neg : Bool} : ∀ {cs ds : List (Cond P V O T)}, RemAll e types final cs neg ds ↔ List.Forall₂ (fun c d => Rem e types final c neg d) cs ds
  | [], ds => by
    rw [RemAll]
    exact ⟨fun h => by subst h; exact .nil, fun h => by cases h; rfl⟩
  | c :: cs, ds => by
    rw [RemAll]
    constructor
    · rintro ⟨d, ds', h1, h2, rfl⟩
      exact .cons h1 (RemAll_iff.mp h2)
    · intro h
      cases h with
      | cons h1 h2 => exact ⟨_, _, h1, RemAll_iff.mpr h2, rfl⟩

theorem forall₂_imp {α β : Type} {R S : α → β → Prop} : ∀ {l : List α} {m : List β}, (∀ a ∈ l, ∀ b, R a b → S a b) → List.Forall₂ R l m → List.Forall₂ S l m
  | _, _, _, .nil => .nil
  | _, _, h, .cons h1 t => .cons (h _ (by simp) _ h1) (forall₂_imp (fun a ha => h a (List.mem_cons_of_mem _ ha)) t)

theorem Rem.ind {M : Cond P V O T → Bool → Cond P V O T → Prop} (truth : ∀ neg, M .truth neg (if neg then .falsity else .truth)) (falsity : ∀ neg, M .falsity neg (if neg then .truth else .falsity))
    (lit : ∀ n a neg, M (.lit n a) neg (.lit (n != neg) a))
    (conj : ∀ cs neg ds, List.Forall₂ (fun c d => Rem e types final c neg d ∧ M c neg d) cs ds → M (.conj cs) neg (if neg then .disj ds else .conj ds))
    (disj : ∀ cs neg ds, List.Forall₂ (fun c d => Rem e types final c neg d ∧ M c neg d) cs ds → M (.disj cs) neg (if neg then .conj ds else .disj ds))
    (all : ∀ ps b d, Rem e types final b true d → M b true d → M (.all ps b) true (.ex ps d)) (ex : ∀ ps b d, Rem e types final b false d → M b false d → M (.ex ps b) false (.ex ps d))
    (univAll : ∀ ps b params i d, typedParams e types (.ex ps (negate b)) = some params → final[i]? = some (params, .ex ps d) → (d = negate b ∨ (Rem e types final b true d ∧ M b true d)) → M (.all ps b) false (newLit e i params))
    (univEx : ∀ ps b params i d, typedParams e types (.ex ps b) = some params → final[i]? = some (params, .ex ps d) → (d = b ∨ (Rem e types final b false d ∧ M b false d)) → M (.ex ps b) true (newLit e i params))
    (c : Cond P V O T) : ∀ {neg : Bool} {c' : Cond P V O T}, Rem e types final c neg c' → M c neg c' := by
  induction c using Cond.ind with
  | truth =>
    intro neg c' h
    rw [Rem] at h
    exact h ▸ truth neg
  | falsity =>
    intro neg c' h
    rw [Rem] at h
    exact h ▸ falsity neg
  | lit n a =>
    intro neg c' h
    rw [Rem] at h
    exact h ▸ lit n a neg
  | conj cs ih =>
    intro neg c' h
    rw [Rem] at h
    obtain ⟨ds, h, rfl⟩ := h
    exact conj cs neg ds (forall₂_imp (fun c hc d h => ⟨h, ih c hc h⟩) (RemAll_iff.mp h))
  | disj cs ih =>
    intro neg c' h
    rw [Rem] at h
    obtain ⟨ds, h, rfl⟩ := h
    exact disj cs neg ds (forall₂_imp (fun c hc d h => ⟨h, ih c hc h⟩) (RemAll_iff.mp h))
  | all ps b ih =>
    intro neg c' h
    rw [Rem] at h
    rcases h with ⟨rfl, d, h, rfl⟩ | ⟨rfl, params, i, d, h1, h2, h3, rfl⟩
    · exact all ps b d h (ih h)
    · exact univAll ps b params i d h1 h2 (h3.imp id fun h => ⟨h, ih h⟩)
  | ex ps b ih =>
    intro neg c' h
    rw [Rem] at h
    rcases h with ⟨rfl, d, h, rfl⟩ | ⟨rfl, params, i, d, h1, h2, h3, rfl⟩
    · exact ex ps b d h (ih h)
    · exact univEx ps b params i d h1 h2 (h3.imp id fun h => ⟨h, ih h⟩)

variable {c c' : Cond P V O T} {neg : Bool}

theorem prefix_getElem? {α : Type} {l m : List α} (h : l <+: m) {i : Nat} {x : α} (hx : l[i]? = some x) : m[i]? = some x := by
  obtain ⟨k, rfl⟩ := h
  rw [List.getElem?_append_left (List.getElem?_eq_some_iff.mp hx).1]
  exact hx

theorem Rem.mono {final' : New P V O T} (hp : final <+: final') (h : Rem e types final c neg c') : Rem e types final' c neg c' := by
  refine Rem.ind (M := fun c neg c' => Rem e types final' c neg c') ?_ ?_ ?_ ?_ ?_ ?_ ?_ ?_ ?_ c h
  · intro neg; rw [Rem]
  · intro neg; rw [Rem]
  · intro n a neg; rw [Rem]
  · intro cs neg ds h
    rw [Rem]
    exact ⟨ds, RemAll_iff.mpr (forall₂_imp (fun _ _ _ h => h.2) h), rfl⟩
  · intro cs neg ds h
    rw [Rem]
    exact ⟨ds, RemAll_iff.mpr (forall₂_imp (fun _ _ _ h => h.2) h), rfl⟩
  · intro ps b d _ h
    rw [Rem]
    exact .inl ⟨rfl, d, h, rfl⟩
  · intro ps b d _ h
    rw [Rem]
    exact .inl ⟨rfl, d, h, rfl⟩
  · intro ps b params i d h1 h2 h3
    rw [Rem]
    exact .inr ⟨rfl, params, i, d, h1, prefix_getElem? hp h2, h3.imp id (·.2), rfl⟩
  · intro ps b params i d h1 h2 h3
    rw [Rem]
    exact .inr ⟨rfl, params, i, d, h1, prefix_getElem? hp h2, h3.imp id (·.2), rfl⟩

theorem Rem.noAll (h : Rem e types final c neg c') : hasAll c' = false := by
  have hcs : ∀ neg (cs ds : List (Cond P V O T)), List.Forall₂ (fun c d => Rem e types final c neg d ∧ hasAll d = false) cs ds → ∀ d ∈ ds, hasAll d = false := fun neg cs ds h d hd => let ⟨_, _, h⟩ := forall₂_right h d hd; h.2
  refine Rem.ind (M := fun c neg c' => hasAll c' = false) ?_ ?_ ?_ ?_ ?_ ?_ ?_ ?_ ?_ c h
  · intro neg; cases neg <;> rfl
  · intro neg; cases neg <;> rfl
  · intro n a neg; rfl
  · intro cs neg ds h
    cases neg
    · exact noAll_conj.mpr (hcs _ _ _ h)
    · exact noAll_disj.mpr (hcs _ _ _ h)
  · intro cs neg ds h
    cases neg
    · exact noAll_disj.mpr (hcs _ _ _ h)
    · exact noAll_conj.mpr (hcs _ _ _ h)
  · intro ps b d _ h; rw [hasAll]; exact h
  · intro ps b d _ h; rw [hasAll]; exact h
  · intros; rfl
  · intros; rfl

theorem Rem.shape (h : Rem e types final c neg c') : c'.isConst = c.isConst ∧ (c'.isConj = true → (if neg then c.isDisj else c.isConj) = true) ∧ (c'.isDisj = true → (if neg then c.isConj else c.isDisj) = true) := by
  refine Rem.ind (M := fun c neg c' => c'.isConst = c.isConst ∧ (c'.isConj = true → (if neg then c.isDisj else c.isConj) = true) ∧ (c'.isDisj = true → (if neg then c.isConj else c.isDisj) = true)) ?_ ?_ ?_ ?_ ?_ ?_ ?_ ?_ ?_ c h
  · intro neg; cases neg <;> simp [Cond.isConst, Cond.isConj, Cond.isDisj]
  · intro neg; cases neg <;> simp [Cond.isConst, Cond.isConj, Cond.isDisj]
  · intro n a neg; simp [Cond.isConst, Cond.isConj, Cond.isDisj]
  · intro cs neg ds _; cases neg <;> simp [Cond.isConst, Cond.isConj, Cond.isDisj]
  · intro cs neg ds _; cases neg <;> simp [Cond.isConst, Cond.isConj, Cond.isDisj]
  · intros; simp [Cond.isConst, Cond.isConj, Cond.isDisj]
  · intros; simp [Cond.isConst, Cond.isConj, Cond.isDisj]
  · intros; simp [Cond.isConst, Cond.isConj, Cond.isDisj, newLit]
  · intros; simp [Cond.isConst, Cond.isConj, Cond.isDisj, newLit]

theorem Rem.flat (h : Rem e types final c neg c') : c.Flat → c'.Flat := by
  refine Rem.ind (M := fun c neg c' => c.Flat → c'.Flat) ?_ ?_ ?_ ?_ ?_ ?_ ?_ ?_ ?_ c h
  · intro neg _; cases neg <;> trivial
  · intro neg _; cases neg <;> trivial
  · intros; trivial
  · intro cs neg ds h hf
    rw [Flat_conj] at hf
    have key : ∀ d ∈ ds, ∃ c ∈ cs, Rem e types final c neg d ∧ c.isConj = false ∧ c.isConst = false ∧ d.Flat := fun d hd =>
      let ⟨c, hc, h1, h2⟩ := forall₂_right h d hd; ⟨c, hc, h1, (hf c hc).1, (hf c hc).2.1, h2 (hf c hc).2.2⟩
    cases neg
    · refine Flat_conj.mpr fun d hd => ?_
      obtain ⟨c, _, h1, h2, h3, h4⟩ := key d hd
      exact ⟨by have := h1.shape.2.1; cases hx : d.isConj <;> simp_all, by rw [h1.shape.1, h3], h4⟩
    · refine Flat_disj.mpr fun d hd => ?_
      obtain ⟨c, _, h1, h2, h3, h4⟩ := key d hd
      exact ⟨by have := h1.shape.2.2; cases hx : d.isDisj <;> simp_all, by rw [h1.shape.1, h3], h4⟩
  · intro cs neg ds h hf
    rw [Flat_disj] at hf
    have key : ∀ d ∈ ds, ∃ c ∈ cs, Rem e types final c neg d ∧ c.isDisj = false ∧ c.isConst = false ∧ d.Flat := fun d hd =>
      let ⟨c, hc, h1, h2⟩ := forall₂_right h d hd; ⟨c, hc, h1, (hf c hc).1, (hf c hc).2.1, h2 (hf c hc).2.2⟩
    cases neg
    · refine Flat_disj.mpr fun d hd => ?_
      obtain ⟨c, _, h1, h2, h3, h4⟩ := key d hd
      exact ⟨by have := h1.shape.2.2; cases hx : d.isDisj <;> simp_all, by rw [h1.shape.1, h3], h4⟩
    · refine Flat_conj.mpr fun d hd => ?_
      obtain ⟨c, _, h1, h2, h3, h4⟩ := key d hd
      exact ⟨by have := h1.shape.2.1; cases hx : d.isConj <;> simp_all, by rw [h1.shape.1, h3], h4⟩
  · intro ps b d _ h hf; exact h hf
  · intro ps b d _ h hf; exact h hf
  · intros; trivial
  · intros; trivial

theorem Rem.trivially (h : Rem e types final c neg c') : ∀ v, c'.trivially v = true → c.trivially (v != neg) = true := by
  refine Rem.ind (M := fun c neg c' => ∀ v, c'.trivially v = true → c.trivially (v != neg) = true) ?_ ?_ ?_ ?_ ?_ ?_ ?_ ?_ ?_ c h
  · intro neg v; cases neg <;> cases v <;> simp [Cond.trivially]
  · intro neg v; cases neg <;> cases v <;> simp [Cond.trivially]
  · intro n a neg v; simp [Cond.trivially]
  · intro cs neg ds h v
    have h1 : (∀ d ∈ ds, d.trivially v = true) → ∀ c ∈ cs, c.trivially (v != neg) = true := fun hd c hc => let ⟨d, hd', h⟩ := forall₂_left h c hc; h.2 v (hd d hd')
    have h2 : (∃ d ∈ ds, d.trivially v = true) → ∃ c ∈ cs, c.trivially (v != neg) = true := fun ⟨d, hd, h'⟩ => let ⟨c, hc, h⟩ := forall₂_right h d hd; ⟨c, hc, h.2 v h'⟩
    cases neg <;> cases v <;> simpa [trivially_conj, trivially_disj] using by first | simpa using h1 | simpa using h2
  · intro cs neg ds h v
    have h1 : (∀ d ∈ ds, d.trivially v = true) → ∀ c ∈ cs, c.trivially (v != neg) = true := fun hd c hc => let ⟨d, hd', h⟩ := forall₂_left h c hc; h.2 v (hd d hd')
    have h2 : (∃ d ∈ ds, d.trivially v = true) → ∃ c ∈ cs, c.trivially (v != neg) = true := fun ⟨d, hd, h'⟩ => let ⟨c, hc, h⟩ := forall₂_right h d hd; ⟨c, hc, h.2 v h'⟩
    cases neg <;> cases v <;> simpa [trivially_conj, trivially_disj] using by first | simpa using h1 | simpa using h2
  · intro ps b d _ h v hv; exact h v hv
  · intro ps b d _ h v hv; exact h v hv
  · intro ps b params i d _ _ _ v hv; simp [newLit, Cond.trivially] at hv
  · intro ps b params i d _ _ _ v hv; simp [newLit, Cond.trivially] at hv

theorem Rem.proper {has : T → O → Prop} (h : Rem e types final c neg c') : c.Proper has → c'.Proper has := by
  refine Rem.ind (M := fun c neg c' => c.Proper has → c'.Proper has) ?_ ?_ ?_ ?_ ?_ ?_ ?_ ?_ ?_ c h
  · intro neg _; cases neg <;> trivial
  · intro neg _; cases neg <;> trivial
  · intros; trivial
  · intro cs neg ds h hf
    rw [Proper_conj] at hf
    have key : ∀ d ∈ ds, d.Proper has := fun d hd => let ⟨c, hc, _, h2⟩ := forall₂_right h d hd; h2 (hf c hc)
    cases neg
    · exact Proper_conj.mpr key
    · exact Proper_disj.mpr key
  · intro cs neg ds h hf
    rw [Proper_disj] at hf
    have key : ∀ d ∈ ds, d.Proper has := fun d hd => let ⟨c, hc, _, h2⟩ := forall₂_right h d hd; h2 (hf c hc)
    cases neg
    · exact Proper_disj.mpr key
    · exact Proper_conj.mpr key
  · intro ps b d hR h hf
    refine ⟨hf.1.imp id fun h' => ?_, h hf.2⟩
    by_contra hc
    have := hR.trivially true (by simpa using hc)
    simp [h'] at this
  · intro ps b d hR h hf
    refine ⟨hf.1.imp id fun h' => ?_, h hf.2⟩
    by_contra hc
    have := hR.trivially true (by simpa using hc)
    simp [h'] at this
  · intros; trivial
  · intros; trivial

theorem Rem.bound (h : Rem e types final c neg c') : c'.bound.Sublist c.bound := by
  have hcs : ∀ neg (cs ds : List (Cond P V O T)), List.Forall₂ (fun c d => Rem e types final c neg d ∧ d.bound.Sublist c.bound) cs ds → (ds.flatMap Cond.bound).Sublist (cs.flatMap Cond.bound) := by
    intro neg cs ds h
    induction h with
    | nil => exact .refl _
    | cons h _ ih =>
      rw [List.flatMap_cons, List.flatMap_cons]
      exact h.2.append ih
  refine Rem.ind (M := fun c neg c' => c'.bound.Sublist c.bound) ?_ ?_ ?_ ?_ ?_ ?_ ?_ ?_ ?_ c h
  · intro neg; cases neg <;> exact .refl _
  · intro neg; cases neg <;> exact .refl _
  · intros; exact .refl _
  · intro cs neg ds h
    cases neg
    · simpa [bound_conj] using hcs _ _ _ h
    · simpa [bound_conj, bound_disj] using hcs _ _ _ h
  · intro cs neg ds h
    cases neg
    · simpa [bound_disj] using hcs _ _ _ h
    · simpa [bound_conj, bound_disj] using hcs _ _ _ h
  · intro ps b d _ h; simpa [Cond.bound] using h
  · intro ps b d _ h; simpa [Cond.bound] using h
  · intros; exact List.nil_sublist _
  · intros; exact List.nil_sublist _

/-- the parameters of a new axiom are the free variables of its condition -/
structure ParamsOf (types : List (V × T)) (c : Cond P V O T) (params : List (V × T)) : Prop where
  nodup : (names params).Nodup
  mem : ∀ v, v ∈ names params ↔ v ∈ freeVars c
  types : ∀ p ∈ params, types.lookup p.1 = some p.2

theorem typedParams_spec (hs : ∀ l, (e.sortVars l).Perm l) {params : List (V × T)} (h : typedParams e types c = some params) : ParamsOf types c params := by
  have hn : names params = e.sortVars (freeVars c).dedup := by
    have := Mas.mapAll_iff.mp h
    clear h
    generalize e.sortVars (freeVars c).dedup = l at this
    induction this with
    | nil => rfl
    | cons h _ ih =>
      obtain ⟨t, _, rfl⟩ := Option.map_eq_some_iff.mp h
      simpa [names] using ih
  refine ⟨?_, ?_, ?_⟩
  · rw [hn, (hs _).nodup_iff]
    exact List.nodup_dedup _
  · intro v
    rw [hn, (hs _).mem_iff, List.mem_dedup]
  · intro p hp
    obtain ⟨v, _, h⟩ := Mas.mapAll_mem h hp
    obtain ⟨t, h', rfl⟩ := Option.map_eq_some_iff.mp h
    exact h'

theorem typedParams_defined (hs : ∀ l, (e.sortVars l).Perm l) (h : ∀ v ∈ freeVars c, ∃ t, types.lookup v = some t) : ∃ params, typedParams e types c = some params :=
  Mas.mapAll_defined fun v hv => let ⟨t, ht⟩ := h v (List.mem_dedup.mp ((hs _).mem_iff.mp hv)); ⟨(v, t), by rw [ht]; rfl⟩

theorem vars_newLit {i : Nat} {params : List (V × T)} : freeVars (newLit e i params : Cond P V O T) = names params := by
  rw [newLit, freeVars, SymAtom.vars, names]
  induction params with
  | nil => rfl
  | cons p ps ih =>
    rw [List.map_cons, List.map_cons, List.filterMap_cons]
    simp only [Term.var?]
    rw [ih]

theorem Rem.freeVars (hs : ∀ l, (e.sortVars l).Perm l) (h : Rem e types final c neg c') : ∀ v ∈ freeVars c', v ∈ freeVars c := by
  have hcs : ∀ neg (cs ds : List (Cond P V O T)), List.Forall₂ (fun c d => Rem e types final c neg d ∧ ∀ v ∈ Normalize.freeVars d, v ∈ Normalize.freeVars c) cs ds → ∀ v, v ∈ ds.flatMap Normalize.freeVars → v ∈ cs.flatMap Normalize.freeVars := by
    intro neg cs ds h v hv
    obtain ⟨d, hd, hv⟩ := List.mem_flatMap.mp hv
    obtain ⟨c, hc, h⟩ := forall₂_right h d hd
    exact List.mem_flatMap.mpr ⟨c, hc, h.2 v hv⟩
  refine Rem.ind (M := fun c neg c' => ∀ v ∈ Normalize.freeVars c', v ∈ Normalize.freeVars c) ?_ ?_ ?_ ?_ ?_ ?_ ?_ ?_ ?_ c h
  · intro neg v; cases neg <;> exact id
  · intro neg v; cases neg <;> exact id
  · intro n a neg v; exact id
  · intro cs neg ds h
    cases neg
    · simpa [freeVars_conj] using hcs _ _ _ h
    · simpa [freeVars_conj, freeVars_disj] using hcs _ _ _ h
  · intro cs neg ds h
    cases neg
    · simpa [freeVars_disj] using hcs _ _ _ h
    · simpa [freeVars_conj, freeVars_disj] using hcs _ _ _ h
  · intro ps b d _ h v hv
    rw [mem_freeVars_ex] at hv
    exact mem_freeVars_all.mpr ⟨h v hv.1, hv.2⟩
  · intro ps b d _ h v hv
    rw [mem_freeVars_ex] at hv
    exact mem_freeVars_ex.mpr ⟨h v hv.1, hv.2⟩
  · intro ps b params i d h1 _ _ v hv
    rw [vars_newLit, (typedParams_spec hs h1).mem, mem_freeVars_ex, freeVars_negate] at hv
    exact mem_freeVars_all.mpr hv
  · intro ps b params i d h1 _ _ v hv
    rw [vars_newLit, (typedParams_spec hs h1).mem] at hv
    exact hv

/-- the predicate is not that of a new axiom -/
def Old (e : Env P V) (p : P) : Prop := ∀ i, p ≠ e.newAxiom i

/-- a literal of a condition after the replacement -/
def LitOk (e : Env P V) (ar : P → Nat) (final : New P V O T) (n : Bool) (a : SymAtom P V O) : Prop :=
  (Old e a.pred ∧ a.args.length = ar a.pred) ∨ ∃ j x, n = true ∧ final[j]? = some x ∧ a.pred = e.newAxiom j ∧ a.args.length = x.1.length

theorem LitOk.mono {ar : P → Nat} {final' : New P V O T} (hp : final <+: final') {n : Bool} {a : SymAtom P V O} (h : LitOk e ar final n a) : LitOk e ar final' n a :=
  h.imp id fun ⟨j, x, h1, h2, h3⟩ => ⟨j, x, h1, prefix_getElem? hp h2, h3⟩

theorem Rem.lits {ar : P → Nat} (h : Rem e types final c neg c') : c.Lits (fun _ a => Old e a.pred ∧ a.args.length = ar a.pred) → c'.Lits (LitOk e ar final) := by
  refine Rem.ind (M := fun c neg c' => c.Lits (fun _ a => Old e a.pred ∧ a.args.length = ar a.pred) → c'.Lits (LitOk e ar final)) ?_ ?_ ?_ ?_ ?_ ?_ ?_ ?_ ?_ c h
  · intro neg _; cases neg <;> trivial
  · intro neg _; cases neg <;> trivial
  · intro n a neg h; exact .inl h
  · intro cs neg ds h hf
    rw [Lits_conj] at hf
    have key : ∀ d ∈ ds, d.Lits (LitOk e ar final) := fun d hd => let ⟨c, hc, _, h2⟩ := forall₂_right h d hd; h2 (hf c hc)
    cases neg
    · exact Lits_conj.mpr key
    · exact Lits_disj.mpr key
  · intro cs neg ds h hf
    rw [Lits_disj] at hf
    have key : ∀ d ∈ ds, d.Lits (LitOk e ar final) := fun d hd => let ⟨c, hc, _, h2⟩ := forall₂_right h d hd; h2 (hf c hc)
    cases neg
    · exact Lits_disj.mpr key
    · exact Lits_conj.mpr key
  · intro ps b d _ h hf; exact h hf
  · intro ps b d _ h hf; exact h hf
  · intro ps b params i d _ h2 _ _
    exact .inr ⟨i, _, rfl, h2, rfl, by simp⟩
  · intro ps b params i d _ h2 _ _
    exact .inr ⟨i, _, rfl, h2, rfl, by simp⟩

/-- the parameters of an instance of a new atom determine the values of the free variables -/
theorem params_agree {params : List (V × T)} {σ τ : V → O} (h : params.map (fun p => σ p.1) = params.map (fun p => τ p.1)) : ∀ v ∈ names params, σ v = τ v := by
  intro v hv
  obtain ⟨p, hp, rfl⟩ := List.mem_map.mp hv
  exact List.map_inj_left.mp h p hp

theorem inst_newLit {i : Nat} {params : List (V × T)} {σ : V → O} : SymAtom.inst (⟨e.newAxiom i, params.map (fun p => .var p.1)⟩ : SymAtom P V O) σ = ⟨e.newAxiom i, params.map (fun p => σ p.1)⟩ := by
  simp [SymAtom.inst, Function.comp_def, Term.value]

/-- the new atoms are true in the state if their conditions are -/
def Fits (e : Env P V) (has : T → O → Prop) (final : New P V O T) (s' : GAtom P O → Prop) : Prop :=
  ∀ i params c, final[i]? = some (params, c) → ∀ args, s' ⟨e.newAxiom i, args⟩ ↔ ∃ σ : V → O, (∀ p ∈ params, has p.2 (σ p.1)) ∧ args = params.map (fun p => σ p.1) ∧ c.holds has s' σ

/-- free and quantified variables have the types of the map -/
structure Fine (has : T → O → Prop) (types : List (V × T)) (c : Cond P V O T) (σ : V → O) : Prop where
  bound : ∀ p ∈ c.bound, types.lookup p.1 = some p.2
  free : ∀ v ∈ freeVars c, ∀ t, types.lookup v = some t → has t (σ v)

theorem Fine.conj {has : T → O → Prop} {cs : List (Cond P V O T)} {σ : V → O} (h : Fine has types (.conj cs) σ) : ∀ c ∈ cs, Fine has types c σ := by
  intro c hc
  refine ⟨fun p hp => h.bound p ?_, fun v hv => h.free v ?_⟩
  · rw [bound_conj]; exact List.mem_flatMap.mpr ⟨c, hc, hp⟩
  · rw [freeVars_conj]; exact List.mem_flatMap.mpr ⟨c, hc, hv⟩

theorem Fine.disj {has : T → O → Prop} {cs : List (Cond P V O T)} {σ : V → O} (h : Fine has types (.disj cs) σ) : ∀ c ∈ cs, Fine has types c σ := by
  intro c hc
  refine ⟨fun p hp => h.bound p ?_, fun v hv => h.free v ?_⟩
  · rw [bound_disj]; exact List.mem_flatMap.mpr ⟨c, hc, hp⟩
  · rw [freeVars_disj]; exact List.mem_flatMap.mpr ⟨c, hc, hv⟩

theorem Fine.body {has : T → O → Prop} {ps : List (V × T)} {b : Cond P V O T} {σ τ : V → O} (h : Fine has types (.ex ps b) σ) (hE : Ext has ps σ τ) : Fine has types b τ := by
  refine ⟨fun p hp => h.bound p (by rw [Cond.bound]; exact List.mem_append_right _ hp), fun v hv t ht => ?_⟩
  by_cases hv' : v ∈ names ps
  · obtain ⟨t', ht'⟩ := mem_names.mp hv'
    have := h.bound (v, t') (by rw [Cond.bound]; exact List.mem_append_left _ ht')
    cases this.symm.trans ht
    exact hE.2 _ ht'
  · rw [hE.1 v hv']
    exact h.free v (mem_freeVars_ex.mpr ⟨hv, hv'⟩) t ht

theorem Fine.all_ex {has : T → O → Prop} {ps : List (V × T)} {b : Cond P V O T} {σ : V → O} : Fine has types (.all ps b) σ ↔ Fine has types (.ex ps b) σ :=
  ⟨fun h => ⟨fun p hp => h.bound p hp, fun v hv => h.free v (mem_freeVars_all.mpr (mem_freeVars_ex.mp hv))⟩, fun h => ⟨fun p hp => h.bound p hp, fun v hv => h.free v (mem_freeVars_ex.mpr (mem_freeVars_all.mp hv))⟩⟩

theorem Fine.negate {has : T → O → Prop} {σ : V → O} : Fine has types (negate c) σ ↔ Fine has types c σ :=
  ⟨fun h => ⟨by rw [← bound_negate]; exact h.bound, by rw [← freeVars_negate]; exact h.free⟩, fun h => ⟨by rw [bound_negate]; exact h.bound, by rw [freeVars_negate]; exact h.free⟩⟩

theorem Fine.agree {has : T → O → Prop} {σ τ : V → O} (h : Fine has types c σ) (ha : ∀ v ∈ freeVars c, σ v = τ v) : Fine has types c τ := ⟨h.bound, fun v hv t ht => ha v hv ▸ h.free v hv t ht⟩

/-- conditions about old atoms have the same values in states with the same old atoms -/
theorem holds_old {has : T → O → Prop} {s s' : GAtom P O → Prop} (hs : ∀ p : GAtom P O, Old e p.pred → (s' p ↔ s p)) (hc : c.Lits (fun _ a => Old e a.pred)) {σ : V → O} : c.holds has s' σ ↔ c.holds has s σ :=
  have : ∀ n (a : SymAtom P V O) (σ : V → O), Old e a.pred → (lits s' n (a.inst σ) ↔ lits s n (a.inst σ)) := by
    intro n a σ ha
    have := hs (a.inst σ) ha
    cases n <;> simp [Pddl.lits, this]
  sat_congr this c hc this

/-- a new atom is true in the state if the condition that it stands for is -/
theorem univ_iff (hsort : ∀ l, (e.sortVars l).Perm l) {has : T → O → Prop} {s s' : GAtom P O → Prop} (hs : ∀ p : GAtom P O, Old e p.pred → (s' p ↔ s p)) (hfit : Fits e has final s') {ps params : List (V × T)} {c d : Cond P V O T} {i : Nat}
    (h1 : typedParams e types (.ex ps c) = some params) (h2 : final[i]? = some (params, .ex ps d)) (hold : c.Lits (fun _ a => Old e a.pred)) {σ : V → O} (hf : Fine has types (.ex ps c) σ)
    (h3 : d = c ∨ ∀ τ, Fine has types c τ → (d.holds has s' τ ↔ c.holds has s τ)) : s' ⟨e.newAxiom i, params.map (fun p => σ p.1)⟩ ↔ (Cond.ex ps c).holds has s σ := by
  have hP := typedParams_spec hsort h1
  have key : ∀ τ, Fine has types (.ex ps c) τ → ((Cond.ex ps d).holds has s' τ ↔ (Cond.ex ps c).holds has s τ) := by
    intro τ hτ
    unfold Cond.holds
    rw [sat_ex, sat_ex]
    refine exists_congr fun ρ => and_congr_right fun hE => ?_
    rcases h3 with rfl | h3
    · exact holds_old hs hold
    · exact h3 ρ (hτ.body hE)
  rw [hfit i params _ h2]
  constructor
  · rintro ⟨τ, _, h4, h5⟩
    have hag : ∀ v ∈ Normalize.freeVars (.ex ps c), σ v = τ v := fun v hv => params_agree h4 v ((hP.mem v).mpr hv)
    exact sat_agree _ (fun v hv => (hag v hv).symm) ((key τ (hf.agree hag)).mp h5)
  · intro h4
    exact ⟨σ, fun p hp => hf.free p.1 ((hP.mem _).mp (mem_names_of_mem hp)) p.2 (hP.types p hp), rfl, (key σ hf).mpr h4⟩

/-- the value of a condition after the replacement -/
theorem Rem.sat (hsort : ∀ l, (e.sortVars l).Perm l) {has : T → O → Prop} {s s' : GAtom P O → Prop} (hs : ∀ p : GAtom P O, Old e p.pred → (s' p ↔ s p)) (hfit : Fits e has final s') (h : Rem e types final c neg c') :
    c.Lits (fun _ a => Old e a.pred) → ∀ σ : V → O, Fine has types c σ → ∀ under', 
    (neg = true → (c'.sat has (Pddl.lits s') under' σ ↔ ¬ c.holds has s σ)) ∧
    (neg = false → ∀ ev ev' : Bool → GAtom P O → Prop, (∀ n (p : GAtom P O), Old e p.pred → (ev' n p ↔ ev n p)) → (∀ i args, ev' true ⟨e.newAxiom i, args⟩ ↔ ¬ s' ⟨e.newAxiom i, args⟩) → (c'.sat has ev' under' σ ↔ c.sat has ev (Pddl.lits s) σ)) := by
  refine Rem.ind (M := fun c neg c' => c.Lits (fun _ a => Old e a.pred) → ∀ σ : V → O, Fine has types c σ → ∀ under', 
    (neg = true → (c'.sat has (Pddl.lits s') under' σ ↔ ¬ c.holds has s σ)) ∧
    (neg = false → ∀ ev ev' : Bool → GAtom P O → Prop, (∀ n (p : GAtom P O), Old e p.pred → (ev' n p ↔ ev n p)) → (∀ i args, ev' true ⟨e.newAxiom i, args⟩ ↔ ¬ s' ⟨e.newAxiom i, args⟩) → (c'.sat has ev' under' σ ↔ c.sat has ev (Pddl.lits s) σ))) ?_ ?_ ?_ ?_ ?_ ?_ ?_ ?_ ?_ c h
  · intro neg _ σ _ under'
    exact ⟨by rintro rfl; simp [Cond.holds, Cond.sat], by rintro rfl; simp [Cond.sat]⟩
  · intro neg _ σ _ under'
    exact ⟨by rintro rfl; simp [Cond.holds, Cond.sat], by rintro rfl; simp [Cond.sat]⟩
  · intro n a neg ha σ _ under'
    have := hs (a.inst σ) ha
    refine ⟨?_, ?_⟩
    · rintro rfl
      cases n <;> simp [Cond.holds, Cond.sat, Pddl.lits, this]
    · rintro rfl ev ev' h1 _
      simpa [Cond.sat] using h1 n (a.inst σ) ha
  · intro cs neg ds h hl σ hf under'
    rw [Lits_conj] at hl
    refine ⟨?_, ?_⟩
    · rintro rfl
      simp only [if_true, Cond.holds, sat_disj, sat_conj]
      push Not
      constructor
      · rintro ⟨d, hd, h'⟩
        obtain ⟨c, hc, _, h2⟩ := forall₂_right h d hd
        exact ⟨c, hc, ((h2 (hl c hc) σ (hf.conj c hc) under').1 rfl).mp h'⟩
      · rintro ⟨c, hc, h'⟩
        obtain ⟨d, hd, _, h2⟩ := forall₂_left h c hc
        exact ⟨d, hd, ((h2 (hl c hc) σ (hf.conj c hc) under').1 rfl).mpr h'⟩
    · rintro rfl ev ev' h1 h2
      simp only [Bool.false_eq_true, if_false, sat_conj]
      constructor
      · intro h' c hc
        obtain ⟨d, hd, _, h3⟩ := forall₂_left h c hc
        exact ((h3 (hl c hc) σ (hf.conj c hc) under').2 rfl ev ev' h1 h2).mp (h' d hd)
      · intro h' d hd
        obtain ⟨c, hc, _, h3⟩ := forall₂_right h d hd
        exact ((h3 (hl c hc) σ (hf.conj c hc) under').2 rfl ev ev' h1 h2).mpr (h' c hc)
  · intro cs neg ds h hl σ hf under'
    rw [Lits_disj] at hl
    refine ⟨?_, ?_⟩
    · rintro rfl
      simp only [if_true, Cond.holds, sat_disj, sat_conj]
      push Not
      constructor
      · intro h' c hc
        obtain ⟨d, hd, _, h3⟩ := forall₂_left h c hc
        exact ((h3 (hl c hc) σ (hf.disj c hc) under').1 rfl).mp (h' d hd)
      · intro h' d hd
        obtain ⟨c, hc, _, h3⟩ := forall₂_right h d hd
        exact ((h3 (hl c hc) σ (hf.disj c hc) under').1 rfl).mpr (h' c hc)
    · rintro rfl ev ev' h1 h2
      simp only [Bool.false_eq_true, if_false, sat_disj]
      constructor
      · rintro ⟨d, hd, h'⟩
        obtain ⟨c, hc, _, h3⟩ := forall₂_right h d hd
        exact ⟨c, hc, ((h3 (hl c hc) σ (hf.disj c hc) under').2 rfl ev ev' h1 h2).mp h'⟩
      · rintro ⟨c, hc, h'⟩
        obtain ⟨d, hd, _, h3⟩ := forall₂_left h c hc
        exact ⟨d, hd, ((h3 (hl c hc) σ (hf.disj c hc) under').2 rfl ev ev' h1 h2).mpr h'⟩
  · intro ps b d _ h hl σ hf under'
    refine ⟨fun _ => ?_, by simp⟩
    rw [Cond.holds, sat_ex, sat_all]
    push Not
    exact exists_congr fun τ => and_congr_right fun hE => (h hl τ ((Fine.all_ex.mp hf).body hE) under').1 rfl
  · intro ps b d _ h hl σ hf under'
    refine ⟨by simp, fun _ ev ev' h1 h2 => ?_⟩
    rw [sat_ex, sat_ex]
    exact exists_congr fun τ => and_congr_right fun hE => (h hl τ (hf.body hE) under').2 rfl ev ev' h1 h2
  · intro ps b params i d h1 h2 h3 hl σ hf under'
    refine ⟨by simp, fun _ ev ev' _ h4 => ?_⟩
    rw [newLit, sat_lit, inst_newLit, h4]
    have hf' : Fine has types (.ex ps (negate b)) σ := ⟨by simpa [Cond.bound, bound_negate] using hf.bound, fun v hv => hf.free v (by rw [mem_freeVars_ex, freeVars_negate] at hv; exact mem_freeVars_all.mpr hv)⟩
    rw [univ_iff hsort hs hfit h1 h2 ((Lits_negate b).mpr hl) hf' (h3.imp id fun h τ hτ => by rw [holds_negate]; exact (h.2 hl τ (Fine.negate.mp hτ) _).1 rfl)]
    rw [Cond.holds, sat_ex, sat_all]
    push Not
    refine forall_congr' fun τ => imp_congr_right fun hE => ?_
    have := holds_negate (has := has) (s := s) b (σ := τ)
    unfold Cond.holds at this
    rw [this, not_not]
  · intro ps b params i d h1 h2 h3 hl σ hf under'
    refine ⟨fun _ => ?_, by simp⟩
    rw [newLit, sat_lit, inst_newLit]
    simp only [Pddl.lits, if_true]
    rw [univ_iff hsort hs hfit h1 h2 hl hf (h3.imp id fun h τ hτ => (h.2 hl τ hτ _).2 rfl _ _ (fun n p hp => by cases n <;> simp [Pddl.lits, hs p hp]) fun _ _ => Iff.rfl)]

end
end Verif.Normalize
