import Verif.Lemmas.NormalizeRemove

/-
The replacement of universal conditions is defined, and keeps the list of new axioms in order.
-/
namespace Verif.Normalize
open Verif.Datalog Verif.Lifted Verif.Pddl
variable {P V O T F : Type} [DecidableEq V]

/-- a new axiom, where `before` are the axioms that were made earlier -/
structure Good (e : Env P V) (has : T → O → Prop) (ar : P → Nat) (before : New P V O T) (x : List (V × T) × Cond P V O T) : Prop where
  noAll : hasAll x.2 = false
  flat : x.2.Flat
  proper : x.2.Proper has
  vars : ∀ v ∈ freeVars x.2, v ∈ names x.1
  nodup : (names (x.1 ++ x.2.bound)).Nodup
  lits : x.2.Lits (LitOk e ar before)

def AllGood (e : Env P V) (has : T → O → Prop) (ar : P → Nat) (new : New P V O T) : Prop := ∀ i x, new[i]? = some x → Good e has ar (new.take i) x

/-- a condition before the replacement -/
structure Start (e : Env P V) (has : T → O → Prop) (ar : P → Nat) (types : List (V × T)) (c : Cond P V O T) : Prop where
  flat : c.Flat
  proper : c.Proper has
  lits : c.Lits (fun _ a => Old e a.pred ∧ a.args.length = ar a.pred)
  nodup : (names c.bound).Nodup
  disj : ∀ v ∈ freeVars c, v ∉ names c.bound
  free : ∀ v ∈ freeVars c, ∃ t, types.lookup v = some t
  bound : ∀ v ∈ names c.bound, ∃ t, types.lookup v = some t

section
variable {e : Env P V} {has : T → O → Prop} {ar : P → Nat} {types : List (V × T)}

theorem AllGood.append {new : New P V O T} (h : AllGood e has ar new) {y : List (V × T) × Cond P V O T} (hy : Good e has ar new y) : AllGood e has ar (new ++ [y]) := by
  intro i x hx
  by_cases hi : i < new.length
  · rw [List.getElem?_append_left hi] at hx
    rw [List.take_append_of_le_length (Nat.le_of_lt hi)]
    exact h i x hx
  · have hi' : i < (new ++ [y]).length := (List.getElem?_eq_some_iff.mp hx).1
    rw [List.length_append, List.length_singleton] at hi'
    have : i = new.length := by omega
    subst this
    simp only [List.getElem?_concat_length, Option.some.injEq] at hx
    subst hx
    simpa using hy

theorem AllGood.nil : AllGood e has ar ([] : New P V O T) := by
  intro i x hx
  simp at hx

theorem Start.part {cs : List (Cond P V O T)} {k : Cond P V O T} (hb : k.bound = cs.flatMap Cond.bound) (hv : freeVars k = cs.flatMap freeVars) (h : Start e has ar types k) {c : Cond P V O T} (hc : c ∈ cs) (h1 : c.Flat) (h2 : c.Proper has)
    (h3 : c.Lits (fun _ a => Old e a.pred ∧ a.args.length = ar a.pred)) : Start e has ar types c := by
  have hsub : (names c.bound).Sublist (names k.bound) := by
    rw [hb, names, names, List.flatMap_def]
    exact (List.sublist_flatten_of_mem (List.mem_map_of_mem hc)).map _
  have hfree : ∀ v ∈ freeVars c, v ∈ freeVars k := fun v hv' => by rw [hv]; exact List.mem_flatMap.mpr ⟨c, hc, hv'⟩
  exact ⟨h1, h2, h3, h.nodup.sublist hsub, fun v h4 h5 => h.disj v (hfree v h4) (hsub.subset h5), fun v hv => h.free v (hfree v hv), fun v hv => h.bound v (hsub.subset hv)⟩

theorem Start.conj {cs : List (Cond P V O T)} (h : Start e has ar types (.conj cs)) : ∀ c ∈ cs, Start e has ar types c := fun c hc =>
  h.part bound_conj freeVars_conj hc ((Flat_conj.mp h.flat) c hc).2.2 (Proper_conj.mp h.proper c hc) (Lits_conj.mp h.lits c hc)

theorem Start.disj' {cs : List (Cond P V O T)} (h : Start e has ar types (.disj cs)) : ∀ c ∈ cs, Start e has ar types c := fun c hc =>
  h.part bound_disj freeVars_disj hc ((Flat_disj.mp h.flat) c hc).2.2 (Proper_disj.mp h.proper c hc) (Lits_disj.mp h.lits c hc)

theorem Start.body {ps : List (V × T)} {b k : Cond P V O T} (hb : k.bound = ps ++ b.bound) (hv : ∀ v, v ∈ freeVars k ↔ v ∈ freeVars b ∧ v ∉ names ps) (h : Start e has ar types k) (h1 : b.Flat) (h2 : b.Proper has)
    (h3 : b.Lits (fun _ a => Old e a.pred ∧ a.args.length = ar a.pred)) : Start e has ar types b := by
  have hn := h.nodup
  rw [hb, names_append, List.nodup_append] at hn
  refine ⟨h1, h2, h3, hn.2.1, fun v h4 h5 => ?_, fun v h4 => ?_, fun v h4 => h.bound v ?_⟩
  · by_cases h6 : v ∈ names ps
    · exact hn.2.2 v h6 v h5 rfl
    · exact h.disj v ((hv v).mpr ⟨h4, h6⟩) (by rw [hb, names_append]; exact List.mem_append_right _ h5)
  · by_cases h6 : v ∈ names ps
    · exact h.bound v (by rw [hb, names_append]; exact List.mem_append_left _ h6)
    · exact h.free v ((hv v).mpr ⟨h4, h6⟩)
  · rw [hb, names_append]
    exact List.mem_append_right _ h4

variable [DecidableEq P] [DecidableEq O] [DecidableEq T]

theorem same_eq (c : Cond P V O T) : ∀ d, same c d = true → c = d := by
  have hcs : ∀ cs : List (Cond P V O T), (∀ c ∈ cs, ∀ d, same c d = true → c = d) → ∀ ds, sameAll cs ds = true → cs = ds := by
    intro cs
    induction cs with
    | nil =>
      intro _ ds h
      cases ds with
      | nil => rfl
      | cons d ds => simp [sameAll] at h
    | cons c cs ih =>
      intro hc ds h
      cases ds with
      | nil => simp [sameAll] at h
      | cons d ds =>
        simp only [sameAll, Bool.and_eq_true] at h
        rw [hc c (by simp) d h.1, ih (fun c hc' => hc c (by simp [hc'])) ds h.2]
  induction c using Cond.ind with
  | truth => intro d h; cases d <;> simp [same] at h; rfl
  | falsity => intro d h; cases d <;> simp [same] at h; rfl
  | lit n a => intro d h; cases d <;> simp [same] at h; rw [h.1, h.2]
  | conj cs ih => intro d h; cases d <;> simp only [same, Bool.false_eq_true] at h; rw [hcs cs ih _ h]
  | disj cs ih => intro d h; cases d <;> simp only [same, Bool.false_eq_true] at h; rw [hcs cs ih _ h]
  | all ps b ih => intro d h; cases d <;> simp only [same, Bool.false_eq_true, Bool.and_eq_true, beq_iff_eq] at h; rw [h.1, ih _ h.2]
  | ex ps b ih => intro d h; cases d <;> simp only [same, Bool.false_eq_true, Bool.and_eq_true, beq_iff_eq] at h; rw [h.1, ih _ h.2]

theorem findAxiom_spec {new : New P V O T} {params : List (V × T)} {c : Cond P V O T} {i : Nat} (h : findAxiom new params c = some i) : new[i]? = some (params, c) := by
  rw [findAxiom] at h
  obtain ⟨x, h1, rfl⟩ := Option.map_eq_some_iff.mp h
  have h2 := List.find?_some h1
  have h3 := List.mem_reverse.mp (List.mem_of_find?_eq_some h1)
  rw [List.mem_zipIdx_iff_getElem?] at h3
  simp only [Bool.and_eq_true, beq_iff_eq] at h2
  rw [h3, ← h2.1, ← same_eq _ _ h2.2]

theorem removeAll_id (c : Cond P V O T) : hasAll c = false → ∀ new, removeAll e types false c new = some (c, new) := by
  have hcs : ∀ cs : List (Cond P V O T), (∀ c ∈ cs, ∀ new, removeAll e types false c new = some (c, new)) → ∀ new, removeAlls e types false cs new = some (cs, new) := by
    intro cs
    induction cs with
    | nil => intro _ new; rfl
    | cons c cs ih => intro h new; rw [removeAlls, h c (by simp)]; simp only; rw [ih (fun c hc => h c (by simp [hc]))]; rfl
  induction c using Cond.ind with
  | truth => intro _ new; rfl
  | falsity => intro _ new; rfl
  | lit n a => intro _ new; simp [removeAll]
  | conj cs ih => intro h new; rw [removeAll, hcs cs fun c hc => ih c hc (noAll_conj.mp h c hc)]; rfl
  | disj cs ih => intro h new; rw [removeAll, hcs cs fun c hc => ih c hc (noAll_disj.mp h c hc)]; rfl
  | all ps b ih => intro h; simp [hasAll] at h
  | ex ps b ih => intro h new; rw [removeAll, if_neg (by simp), ih (by simpa [hasAll] using h)]; rfl

theorem removeCond_eq {c : Cond P V O T} {new : New P V O T} : removeCond e types c new = removeAll e types false c new := by
  rw [removeCond]
  split
  · rfl
  · rename_i h
    rw [removeAll_id c (by simpa using h)]

/-- a result of the replacement -/
def Done (e : Env P V) (has : T → O → Prop) (ar : P → Nat) (types : List (V × T)) (c : Cond P V O T) (neg : Bool) (new : New P V O T) (r : Cond P V O T × New P V O T) : Prop :=
  new <+: r.2 ∧ AllGood e has ar r.2 ∧ Rem e types r.2 c neg r.1

theorem removeAlls_run {neg : Bool} : ∀ {cs : List (Cond P V O T)}, (∀ c ∈ cs, ∀ new, AllGood e has ar new → ∃ r, removeAll e types neg c new = some r ∧ Done e has ar types c neg new r) →
    ∀ new, AllGood e has ar new → ∃ r, removeAlls e types neg cs new = some r ∧ new <+: r.2 ∧ AllGood e has ar r.2 ∧ List.Forall₂ (fun c d => Rem e types r.2 c neg d) cs r.1
  | [], _, new, hn => ⟨([], new), rfl, List.prefix_rfl, hn, .nil⟩
  | c :: cs, h, new, hn => by
    obtain ⟨r, h1, h2, h3, h4⟩ := h c (by simp) new hn
    obtain ⟨r', h5, h6, h7, h8⟩ := removeAlls_run (cs := cs) (fun c hc => h c (List.mem_cons_of_mem _ hc)) r.2 h3
    exact ⟨(r.1 :: r'.1, r'.2), by rw [removeAlls, h1]; simp only; rw [h5]; rfl, h2.trans h6, h7, .cons (h4.mono h6) h8⟩

theorem universal_run (hsort : ∀ l, (e.sortVars l).Perm l) {ps : List (V × T)} {c b : Cond P V O T} {neg : Bool} {new : New P V O T} {r : Cond P V O T × New P V O T} (hs : Start e has ar types b) (hv : freeVars b = freeVars c)
    (hfree : ∀ v ∈ freeVars (.ex ps c), ∃ t, types.lookup v = some t) (hnodup : (names (ps ++ b.bound)).Nodup) (hdisj : ∀ v ∈ freeVars (.ex ps c), v ∉ names (ps ++ b.bound)) (hn : AllGood e has ar new)
    (hr : Done e has ar types b neg new r) (hprop : (∃ τ : V → O, ∀ p ∈ ps, has p.2 (τ p.1)) ∨ b.trivially (true != neg) = false) :
    ∃ q, universal e types ps c new (some r) = some q ∧ new <+: q.2 ∧ AllGood e has ar q.2 ∧ UnivRem e types q.2 ps c (Rem e types q.2 b neg) q.1 := by
  obtain ⟨params, hp⟩ := typedParams_defined hsort hfree
  obtain ⟨h1, h2, h3⟩ := hr
  cases hf : findAxiom new params (.ex ps c) with
  | some i => exact ⟨(newLit e i params, new), by rw [universal, hp]; simp only [hf], List.prefix_rfl, hn, params, i, c, hp, findAxiom_spec hf, .inl rfl, rfl⟩
  | none =>
    refine ⟨(newLit e r.2.length params, r.2 ++ [(params, .ex ps r.1)]), by rw [universal, hp]; simp only [hf], h1.trans (List.prefix_append _ _), h2.append ?_, params, r.2.length, r.1, hp, by simp, .inr (h3.mono (List.prefix_append _ _)), rfl⟩
    have hP := typedParams_spec hsort hp
    refine ⟨by simpa [hasAll] using h3.noAll, h3.flat hs.flat, ⟨hprop.imp id fun h => ?_, h3.proper hs.proper⟩, fun v hv' => ?_, ?_, h3.lits hs.lits⟩
    · by_contra hc
      have := h3.trivially true (by simpa using hc)
      rw [h] at this
      simp at this
    · rw [mem_freeVars_ex] at hv'
      exact (hP.mem v).mpr (mem_freeVars_ex.mpr ⟨hv ▸ h3.freeVars hsort v hv'.1, hv'.2⟩)
    · have hsub : (names (ps ++ r.1.bound)).Sublist (names (ps ++ b.bound)) := ((List.Sublist.refl _).append h3.bound).map _
      show (names (params ++ (Cond.ex ps r.1).bound)).Nodup
      rw [Cond.bound, names_append, List.nodup_append]
      exact ⟨hP.nodup, hnodup.sublist hsub, fun v h4 w h5 he => hdisj v ((hP.mem v).mp h4) (he ▸ hsub.subset h5)⟩

theorem removeAll_run (hsort : ∀ l, (e.sortVars l).Perm l) (c : Cond P V O T) : Start e has ar types c → ∀ neg new, AllGood e has ar new → ∃ r, removeAll e types neg c new = some r ∧ Done e has ar types c neg new r := by
  induction c using Cond.ind with
  | truth => intro _ neg new h; exact ⟨_, rfl, List.prefix_rfl, h, by rw [Rem]⟩
  | falsity => intro _ neg new h; exact ⟨_, rfl, List.prefix_rfl, h, by rw [Rem]⟩
  | lit n a => intro _ neg new h; exact ⟨_, rfl, List.prefix_rfl, h, by rw [Rem]⟩
  | conj cs ih =>
    intro hs neg new h
    obtain ⟨r, h1, h2, h3, h4⟩ := removeAlls_run (neg := neg) (fun c hc new hn => ih c hc (hs.conj c hc) neg new hn) new h
    exact ⟨(if neg then .disj r.1 else .conj r.1, r.2), by rw [removeAll, h1]; rfl, h2, h3, by rw [Rem]; exact ⟨r.1, RemAll_iff.mpr h4, rfl⟩⟩
  | disj cs ih =>
    intro hs neg new h
    obtain ⟨r, h1, h2, h3, h4⟩ := removeAlls_run (neg := neg) (fun c hc new hn => ih c hc (hs.disj' c hc) neg new hn) new h
    exact ⟨(if neg then .conj r.1 else .disj r.1, r.2), by rw [removeAll, h1]; rfl, h2, h3, by rw [Rem]; exact ⟨r.1, RemAll_iff.mpr h4, rfl⟩⟩
  | all ps b ih =>
    intro hs neg new h
    have hb : Start e has ar types b := hs.body (by rw [Cond.bound]) (fun v => mem_freeVars_all) hs.flat hs.proper.2 hs.lits
    obtain ⟨r, h1, h2⟩ := ih hb true new h
    cases neg with
    | true => exact ⟨(.ex ps r.1, r.2), by rw [removeAll, if_pos rfl, h1]; rfl, h2.1, h2.2.1, by rw [Rem]; exact .inl ⟨rfl, r.1, h2.2.2, rfl⟩⟩
    | false =>
      obtain ⟨q, h3, h4, h5, h6⟩ := universal_run hsort (ps := ps) (c := negate b) hb (freeVars_negate b).symm (fun v hv => hs.free v (mem_freeVars_all.mpr (by rw [mem_freeVars_ex, freeVars_negate] at hv; exact hv))) hs.nodup
        (fun v hv => hs.disj v (mem_freeVars_all.mpr (by rw [mem_freeVars_ex, freeVars_negate] at hv; exact hv))) h h2 hs.proper.1
      exact ⟨q, by rw [removeAll, if_neg (by simp), h1]; exact h3, h4, h5, by rw [Rem]; exact .inr ⟨rfl, h6⟩⟩
  | ex ps b ih =>
    intro hs neg new h
    have hb : Start e has ar types b := hs.body (by rw [Cond.bound]) (fun v => mem_freeVars_ex) hs.flat hs.proper.2 hs.lits
    obtain ⟨r, h1, h2⟩ := ih hb false new h
    cases neg with
    | false => exact ⟨(.ex ps r.1, r.2), by rw [removeAll, if_neg (by simp), h1]; rfl, h2.1, h2.2.1, by rw [Rem]; exact .inl ⟨rfl, r.1, h2.2.2, rfl⟩⟩
    | true =>
      obtain ⟨q, h3, h4, h5, h6⟩ := universal_run hsort (ps := ps) (c := b) hb rfl hs.free hs.nodup hs.disj h h2 hs.proper.1
      exact ⟨q, by rw [removeAll, if_pos rfl, h1]; exact h3, h4, h5, by rw [Rem]; exact .inr ⟨rfl, h6⟩⟩
end
end Verif.Normalize
