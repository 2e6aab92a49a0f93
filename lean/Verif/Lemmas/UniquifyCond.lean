import Verif.Model.Uniquify
import Verif.Lemmas.NormalizeMove

/-
Renaming of variables keeps the meaning of conditions.
-/
namespace Verif.Uniquify
open Verif.Datalog Verif.Lifted Verif.Pddl
open Verif.Normalize (freeVars freeVars_conj freeVars_disj mem_freeVars_all mem_freeVars_ex sat_agree occurs_agree)
variable {P V O T F : Type}

theorem DistinctAll_iff : ∀ {cs : List (Cond P V O T)}, DistinctAll cs ↔ ∀ c ∈ cs, c.Distinct
  | [] => by simp [DistinctAll]
  | c :: cs => by rw [DistinctAll, DistinctAll_iff]; simp

theorem Distinct_conj {cs : List (Cond P V O T)} : (Cond.conj cs).Distinct ↔ ∀ c ∈ cs, c.Distinct := by rw [Cond.Distinct, DistinctAll_iff]
theorem Distinct_disj {cs : List (Cond P V O T)} : (Cond.disj cs).Distinct ↔ ∀ c ∈ cs, c.Distinct := by rw [Cond.Distinct, DistinctAll_iff]

variable [DecidableEq V]

theorem freshName_defined {num : V → Nat → V} (hnum : ∀ v i j, num v i = num v j → i = j) (tm : List (V × T)) (v : V) : ∃ w, freshName num tm v = some w := by
  rw [← Option.isSome_iff_exists, freshName, List.find?_isSome]
  by_contra hcon
  push Not at hcon
  have hnd : ((List.range (tm.length + 1)).map (fun i => num v (i + 1))).Nodup := (List.nodup_range).map fun i j h => by simpa using hnum _ _ _ h
  have hsub : ((List.range (tm.length + 1)).map (fun i => num v (i + 1))) ⊆ names tm := fun w hw => by simpa using hcon w hw
  have := (List.subperm_of_subset hnd hsub).length_le
  simp [names] at this
  omega

theorem freshName_spec {num : V → Nat → V} {tm : List (V × T)} {v w : V} (h : freshName num tm v = some w) : w ∉ names tm ∧ ∃ i, w = num v i := by
  have h1 := List.find?_some h
  obtain ⟨i, _, hi⟩ := List.mem_map.mp (List.mem_of_find?_eq_some h)
  exact ⟨by simpa using h1, i + 1, hi.symm⟩

theorem rn_cons_self {ren : List (V × V)} {v w : V} : rn ((v, w) :: ren) v = w := by simp [rn]
theorem rn_cons_ne {ren : List (V × V)} {u v w : V} (h : u ≠ v) : rn ((v, w) :: ren) u = rn ren u := by simp only [rn, List.lookup_cons, beq_false_of_ne h]
theorem rn_nil {v : V} : rn [] v = v := rfl

theorem rn_mem {ren : List (V × V)} {v : V} (h : rn ren v ≠ v) : (v, rn ren v) ∈ ren := by
  induction ren with
  | nil => exact absurd rn_nil h
  | cons p ren ih =>
    obtain ⟨u, w⟩ := p
    by_cases hv : v = u
    · subst hv
      rw [rn_cons_self]
      exact List.mem_cons_self
    · rw [rn_cons_ne hv] at h ⊢
      exact List.mem_cons_of_mem _ (ih h)

/-- old and new names are in the map of types -/
def RenInv (tm : List (V × T)) (ren : List (V × V)) : Prop := ∀ x ∈ ren, x.1 ∈ names tm ∧ x.2 ∈ names tm

theorem RenInv.mono {tm tm' : List (V × T)} {ren : List (V × V)} (h : RenInv tm ren) (hs : names tm ⊆ names tm') : RenInv tm' ren := fun x hx => ⟨hs (h x hx).1, hs (h x hx).2⟩

theorem RenInv.not_mem {tm : List (V × T)} {ren : List (V × V)} (h : RenInv tm ren) {v : V} (hv : v ∉ names tm) : rn ren v = v := by
  by_contra hne
  exact hv (h _ (rn_mem hne)).1

theorem RenInv.not_mem' {tm : List (V × T)} {ren : List (V × V)} (h : RenInv tm ren) {v : V} (hv : rn ren v ∉ names tm) : rn ren v = v := by
  by_contra hne
  exact hv (h _ (rn_mem hne)).2

/-- new parameters -/
structure Params (num : V → Nat → V) (ps tm : List (V × T)) (ren : List (V × V)) (ps' tm' : List (V × T)) (ren' : List (V × V)) : Prop where
  eq : ps' = ps.map (fun p => (rn ren' p.1, p.2))
  types : tm' = tm ++ ps'
  nodup : (names ps').Nodup
  fresh : ∀ w ∈ names ps', w ∉ names tm
  other : ∀ v, v ∉ names ps → rn ren' v = rn ren v
  inv : RenInv tm' ren'
  form : ∀ w ∈ names ps', w ∈ names ps ∨ ∃ u ∈ names ps, ∃ i, w = num u i

theorem uniqParams_spec {num : V → Nat → V} (hnum : ∀ v i j, num v i = num v j → i = j) : ∀ (ps tm : List (V × T)) (ren : List (V × V)), (names ps).Nodup → RenInv tm ren → ∃ ps' tm' ren', uniqParams num ps tm ren = some (ps', tm', ren') ∧ Params num ps tm ren ps' tm' ren'
  | [], tm, ren, _, hi => ⟨[], tm, ren, rfl, ⟨rfl, by simp, by simp [names], by simp [names], fun _ _ => rfl, hi, by simp [names]⟩⟩
  | p :: ps, tm, ren, hnd, hi => by
    rw [names, List.map_cons, List.nodup_cons] at hnd
    have step : ∀ w ren1, w ∉ names tm → rn ren1 p.1 = w → (∀ v, v ≠ p.1 → rn ren1 v = rn ren v) → RenInv (tm ++ [(w, p.2)]) ren1 → (w = p.1 ∨ ∃ i, w = num p.1 i) →
        ∃ ps' tm' ren', uniqParams num ps (tm ++ [(w, p.2)]) ren1 = some (ps', tm', ren') ∧ Params num (p :: ps) tm ren ((w, p.2) :: ps') tm' ren' := by
      intro w ren1 hw h1 h2 h3 h4
      obtain ⟨ps', tm', ren', h5, h6⟩ := uniqParams_spec hnum ps (tm ++ [(w, p.2)]) ren1 hnd.2 h3
      have hwps : w ∉ names ps' := fun hc => h6.fresh w hc (by simp [names_append, names])
      refine ⟨ps', tm', ren', h5, ?_, ?_, ?_, ?_, ?_, h6.inv, ?_⟩
      · rw [List.map_cons, h6.other p.1 hnd.1, h1, ← h6.eq]
      · rw [h6.types, List.append_assoc]; rfl
      · exact List.nodup_cons.mpr ⟨hwps, h6.nodup⟩
      · intro v hv
        rcases List.mem_cons.mp hv with rfl | hv
        · exact hw
        · exact fun hc => h6.fresh v hv (by rw [names_append]; exact List.mem_append_left _ hc)
      · intro v hv
        have hv' : v ≠ p.1 ∧ v ∉ names ps := by simpa [names] using hv
        rw [h6.other v hv'.2, h2 v hv'.1]
      · intro v hv
        rcases List.mem_cons.mp hv with rfl | hv
        · rcases h4 with h4 | ⟨i, h4⟩
          · exact .inl (by simp [names, h4])
          · exact .inr ⟨p.1, by simp [names], i, h4⟩
        · rcases h6.form v hv with h | ⟨u, hu, i, h⟩
          · exact .inl (List.mem_cons_of_mem _ h)
          · exact .inr ⟨u, List.mem_cons_of_mem _ hu, i, h⟩
    by_cases hp : p.1 ∈ names tm
    · obtain ⟨w, hw⟩ := freshName_defined hnum tm p.1
      obtain ⟨h1, i, h2⟩ := freshName_spec hw
      obtain ⟨ps', tm', ren', h3, h4⟩ := step w ((p.1, w) :: ren) h1 rn_cons_self (fun v hv => rn_cons_ne hv) (by
        intro x hx
        rw [names_append]
        rcases List.mem_cons.mp hx with rfl | hx
        · exact ⟨List.mem_append_left _ hp, by simp [names]⟩
        · exact ⟨List.mem_append_left _ (hi x hx).1, List.mem_append_left _ (hi x hx).2⟩) (.inr ⟨i, h2⟩)
      exact ⟨_, tm', ren', by simp only [uniqParams, List.contains_iff_mem.mpr hp, if_true, hw, h3, Option.map_some], h4⟩
    · obtain ⟨ps', tm', ren', h3, h4⟩ := step p.1 ren hp (hi.not_mem hp) (fun _ _ => rfl) (hi.mono (by rw [names_append]; exact List.subset_append_left _ _)) (.inl rfl)
      refine ⟨_, tm', ren', ?_, h4⟩
      have : (names tm).contains p.1 = false := by simpa using hp
      simp only [uniqParams, this, Bool.false_eq_true, if_false]
      rw [show (p.1, p.2) = p from rfl] at h3
      rw [h3]
      rfl

section ext
variable {has : T → O → Prop} {num : V → Nat → V} {ps tm ps' tm' : List (V × T)} {ren ren' : List (V × V)}

theorem Params.names_eq (h : Params num ps tm ren ps' tm' ren') : names ps' = (names ps).map (rn ren') := by rw [h.eq]; simp [names, Function.comp_def]

theorem Params.mem (h : Params num ps tm ren ps' tm' ren') {v : V} (hv : v ∈ names ps) : rn ren' v ∈ names ps' := by rw [h.names_eq]; exact List.mem_map_of_mem hv

theorem Params.inj (h : Params num ps tm ren ps' tm' ren') {u v : V} (hu : u ∈ names ps) (hv : v ∈ names ps) (he : rn ren' u = rn ren' v) : u = v := by
  have := h.nodup
  rw [h.names_eq] at this
  exact List.inj_on_of_nodup_map this hu hv he

/-- values of new parameters give values of the old ones -/
theorem Params.ext_down (h : Params num ps tm ren ps' tm' ren') {S : V → Prop} (hS : ∀ v, S v → v ∉ names ps → rn ren v ∉ names ps') {τ τ' : V → O} (he : Ext has ps' τ τ') :
    ∃ σ', Ext has ps (τ ∘ rn ren) σ' ∧ ∀ v, S v → (τ' ∘ rn ren') v = σ' v := by
  refine ⟨fun v => if v ∈ names ps then τ' (rn ren' v) else τ (rn ren v), ⟨fun v hv => if_neg hv, fun p hp => ?_⟩, fun v hv => ?_⟩
  · beta_reduce
    have hm : p.1 ∈ names ps := List.mem_map_of_mem hp
    rw [if_pos hm]
    exact he.2 (rn ren' p.1, p.2) (by rw [h.eq]; exact List.mem_map_of_mem (f := fun p => (rn ren' p.1, p.2)) hp)
  · beta_reduce
    split
    · rfl
    · rename_i hn
      rw [Function.comp, h.other v hn]
      exact he.1 _ (hS v hv hn)

/-- values of old parameters give values of the new ones -/
theorem Params.ext_up (h : Params num ps tm ren ps' tm' ren') {S : V → Prop} (hS : ∀ v, S v → v ∉ names ps → rn ren v ∉ names ps') {τ σ' : V → O} (he : Ext has ps (τ ∘ rn ren) σ') :
    ∃ τ', Ext has ps' τ τ' ∧ ∀ v, S v → (τ' ∘ rn ren') v = σ' v := by
  classical
  have hval : ∀ v ∈ names ps, (fun w => if h : ∃ v ∈ names ps, rn ren' v = w then σ' h.choose else τ w) (rn ren' v) = σ' v := by
    intro v hv
    have hex : ∃ u ∈ names ps, rn ren' u = rn ren' v := ⟨v, hv, rfl⟩
    beta_reduce
    rw [dif_pos hex, h.inj hex.choose_spec.1 hv hex.choose_spec.2]
  refine ⟨fun w => if h : ∃ v ∈ names ps, rn ren' v = w then σ' h.choose else τ w, ⟨fun w hw => dif_neg ?_, fun q hq => ?_⟩, fun v hv => ?_⟩
  · rintro ⟨v, hv, rfl⟩
    exact hw (h.mem hv)
  · rw [h.eq] at hq
    obtain ⟨p, hp, rfl⟩ := List.mem_map.mp hq
    have := hval p.1 (List.mem_map_of_mem hp)
    simp only at this ⊢
    rw [this]
    exact he.2 p hp
  · by_cases hp : v ∈ names ps
    · exact hval v hp
    · rw [he.1 v hp, Function.comp, h.other v hp]
      refine dif_neg ?_
      rintro ⟨u, hu, h'⟩
      exact hS v hv hp (h' ▸ h.mem hu)

theorem Params.nonempty (h : Params num ps tm ren ps' tm' ren') : (∃ τ : V → O, ∀ p ∈ ps', has p.2 (τ p.1)) ↔ ∃ τ : V → O, ∀ p ∈ ps, has p.2 (τ p.1) := by
  constructor
  · rintro ⟨τ, hτ⟩
    exact ⟨fun v => τ (rn ren' v), fun p hp => hτ (rn ren' p.1, p.2) (by rw [h.eq]; exact List.mem_map_of_mem (f := fun p => (rn ren' p.1, p.2)) hp)⟩
  · rintro ⟨σ, hσ⟩
    obtain ⟨τ', h1, _⟩ := h.ext_up (has := has) (S := fun _ => False) (fun _ h => h.elim) (τ := σ) (σ' := fun v => if v ∈ names ps then σ v else σ (rn ren v)) ⟨fun v hv => if_neg hv, fun p hp => by
      have hm : p.1 ∈ names ps := List.mem_map_of_mem hp
      beta_reduce
      rw [if_pos hm]
      exact hσ p hp⟩
    exact ⟨τ', h1.2⟩
end ext

theorem inst_rename {ren : List (V × V)} {a : SymAtom P V O} {τ : V → O} : (renameAtom ren a).inst τ = a.inst (τ ∘ rn ren) := by
  simp only [SymAtom.inst, renameAtom, List.map_map]
  congr 1
  refine List.map_congr_left fun t _ => ?_
  cases t <;> rfl

theorem vars_rename {ren : List (V × V)} {a : SymAtom P V O} : (renameAtom ren a).vars = a.vars.map (rn ren) := by
  simp only [SymAtom.vars, renameAtom, List.filterMap_map, List.map_filterMap]
  refine List.filterMap_congr fun t _ => ?_
  cases t <;> rfl

/-- no free variable is captured: its new name has a type already, or it is not a quantified variable with a number -/
def Safe (num : V → Nat → V) (tm : List (V × T)) (ren : List (V × V)) (c : Cond P V O T) : Prop := ∀ v ∈ freeVars c, rn ren v ∈ names tm ∨ ∀ u ∈ names c.bound, ∀ i, v ≠ num u i

/-- the condition after renaming -/
structure Same (num : V → Nat → V) (tm : List (V × T)) (ren : List (V × V)) (c c' : Cond P V O T) : Prop where
  sat : ∀ (has : T → O → Prop) (ev under : Bool → GAtom P O → Prop) (τ : V → O), Safe num tm ren c → (c'.sat has ev under τ ↔ c.sat has ev under (τ ∘ rn ren))
  occurs : ∀ (has : T → O → Prop) (n : Bool) (p : GAtom P O) (u : Bool) (τ : V → O), Safe num tm ren c → (c'.occurs has n p u τ ↔ c.occurs has n p u (τ ∘ rn ren))
  lits : ∀ q : Bool → SymAtom P V O → Prop, (∀ n a ren, q n a → q n (renameAtom ren a)) → c.Lits q → c'.Lits q
  free : ∀ w ∈ freeVars c', ∃ v ∈ freeVars c, w = rn ren v
  isConj : c'.isConj = c.isConj
  isDisj : c'.isDisj = c.isDisj
  isConst : c'.isConst = c.isConst
  flat : c.Flat → c'.Flat
  trivially : ∀ v, c'.trivially v = c.trivially v
  proper : ∀ has : T → O → Prop, c.Proper has → c'.Proper has

theorem Safe.mono {num : V → Nat → V} {tm tm' : List (V × T)} {ren : List (V × V)} {c : Cond P V O T} (h : Safe num tm ren c) (hs : names tm ⊆ names tm') : Safe num tm' ren c := fun v hv => (h v hv).imp (fun h => hs h) id

theorem Same.mono {num : V → Nat → V} {tm tm' : List (V × T)} {ren : List (V × V)} {c c' : Cond P V O T} (h : Same num tm' ren c c') (hs : names tm ⊆ names tm') : Same num tm ren c c' :=
  { h with sat := fun has ev under τ hS => h.sat has ev under τ (hS.mono hs), occurs := fun has n p u τ hS => h.occurs has n p u τ (hS.mono hs) }

theorem Safe.conj {num : V → Nat → V} {tm : List (V × T)} {ren : List (V × V)} {cs : List (Cond P V O T)} (h : Safe num tm ren (.conj cs)) : ∀ c ∈ cs, Safe num tm ren c := by
  intro c hc v hv
  refine (h v (by rw [freeVars_conj]; exact List.mem_flatMap.mpr ⟨c, hc, hv⟩)).imp id fun h u hu => h u ?_
  obtain ⟨t, ht⟩ := mem_names.mp hu
  exact mem_names.mpr ⟨t, by rw [bound_conj]; exact List.mem_flatMap.mpr ⟨c, hc, ht⟩⟩

theorem Safe.disj {num : V → Nat → V} {tm : List (V × T)} {ren : List (V × V)} {cs : List (Cond P V O T)} (h : Safe num tm ren (.disj cs)) : ∀ c ∈ cs, Safe num tm ren c := by
  intro c hc v hv
  refine (h v (by rw [freeVars_disj]; exact List.mem_flatMap.mpr ⟨c, hc, hv⟩)).imp id fun h u hu => h u ?_
  obtain ⟨t, ht⟩ := mem_names.mp hu
  exact mem_names.mpr ⟨t, by rw [bound_disj]; exact List.mem_flatMap.mpr ⟨c, hc, ht⟩⟩

/-- the variables of the body of a quantifier, if `F` are those of the condition with the quantifier and `B` are its quantified variables -/
theorem Params.capture {num : V → Nat → V} {ps tm ps' tm' : List (V × T)} {ren ren' : List (V × V)} (h : Params num ps tm ren ps' tm' ren') (hi : RenInv tm ren) {v : V} (hv : v ∉ names ps) (hs : rn ren v ∈ names tm ∨ ∀ u ∈ names ps, ∀ i, v ≠ num u i) : rn ren v ∉ names ps' := by
  intro hc
  have h1 := h.fresh _ hc
  have h2 := hi.not_mem' h1
  rcases hs with hs | hs
  · exact h1 hs
  · rw [h2] at hc
    rcases h.form v hc with h' | ⟨u, hu, i, h'⟩
    · exact hv h'
    · exact hs u hu i h'

theorem Params.safe {num : V → Nat → V} {ps tm ps' tm' : List (V × T)} {ren ren' : List (V × V)} (h : Params num ps tm ren ps' tm' ren') {b : Cond P V O T} (hs : ∀ v ∈ freeVars b, v ∉ names ps → rn ren v ∈ names tm ∨ ∀ u ∈ names (ps ++ b.bound), ∀ i, v ≠ num u i) :
    Safe num tm' ren' b := by
  intro v hv
  rw [h.types, names_append]
  by_cases hp : v ∈ names ps
  · exact .inl (List.mem_append_right _ (h.mem hp))
  · rw [h.other v hp]
    exact (hs v hv hp).imp (List.mem_append_left _) fun h u hu => h u (by rw [names_append]; exact List.mem_append_right _ hu)

theorem bound_params {ps : List (V × T)} {b : Cond P V O T} {u : V} (h : u ∈ names ps) : u ∈ names (ps ++ b.bound) := by rw [names_append]; exact List.mem_append_left _ h

section quantifiers
variable {num : V → Nat → V} {ps tm ps' tm' : List (V × T)} {ren ren' : List (V × V)} {b b' : Cond P V O T}

theorem same_ex (hi : RenInv tm ren) (hP : Params num ps tm ren ps' tm' ren') (h : Same num tm' ren' b b') : Same num tm ren (.ex ps b) (.ex ps' b') where
  sat has ev under τ hS := by
    have hS' : ∀ v ∈ freeVars b, v ∉ names ps → rn ren v ∈ names tm ∨ ∀ u ∈ names (ps ++ b.bound), ∀ i, v ≠ num u i := fun v hv hn => hS v (mem_freeVars_ex.mpr ⟨hv, hn⟩)
    have hsafe := hP.safe hS'
    have hcap : ∀ v, v ∈ freeVars b → v ∉ names ps → rn ren v ∉ names ps' := fun v hv hn => hP.capture hi hn ((hS' v hv hn).imp id fun h u hu => h u (bound_params hu))
    rw [sat_ex, sat_ex]
    constructor
    · rintro ⟨τ', hE, h'⟩
      obtain ⟨σ', h1, h2⟩ := hP.ext_down hcap hE
      exact ⟨σ', h1, sat_agree _ h2 ((h.sat _ _ _ _ hsafe).mp h')⟩
    · rintro ⟨σ', hE, h'⟩
      obtain ⟨τ', h1, h2⟩ := hP.ext_up hcap hE
      exact ⟨τ', h1, (h.sat _ _ _ _ hsafe).mpr (sat_agree _ (fun v hv => (h2 v hv).symm) h')⟩
  occurs has n p u τ hS := by
    have hS' : ∀ v ∈ freeVars b, v ∉ names ps → rn ren v ∈ names tm ∨ ∀ u ∈ names (ps ++ b.bound), ∀ i, v ≠ num u i := fun v hv hn => hS v (mem_freeVars_ex.mpr ⟨hv, hn⟩)
    have hsafe := hP.safe hS'
    have hcap : ∀ v, v ∈ freeVars b → v ∉ names ps → rn ren v ∉ names ps' := fun v hv hn => hP.capture hi hn ((hS' v hv hn).imp id fun h u hu => h u (bound_params hu))
    rw [Cond.occurs, Cond.occurs]
    constructor
    · rintro ⟨τ', hE, h'⟩
      obtain ⟨σ', h1, h2⟩ := hP.ext_down hcap hE
      exact ⟨σ', h1, occurs_agree _ h2 ((h.occurs _ _ _ _ _ hsafe).mp h')⟩
    · rintro ⟨σ', hE, h'⟩
      obtain ⟨τ', h1, h2⟩ := hP.ext_up hcap hE
      exact ⟨τ', h1, (h.occurs _ _ _ _ _ hsafe).mpr (occurs_agree _ (fun v hv => (h2 v hv).symm) h')⟩
  lits q hq hl := h.lits q hq hl
  free w hw := by
    rw [mem_freeVars_ex] at hw
    obtain ⟨v, hv, rfl⟩ := h.free w hw.1
    have hn : v ∉ names ps := fun hn => hw.2 (hP.mem hn)
    exact ⟨v, mem_freeVars_ex.mpr ⟨hv, hn⟩, hP.other v hn⟩
  isConj := rfl
  isDisj := rfl
  isConst := rfl
  flat hf := h.flat hf
  trivially v := h.trivially v
  proper has hp := by
    rw [Cond.Proper] at hp ⊢
    rw [hP.nonempty, h.trivially]
    exact ⟨hp.1, h.proper has hp.2⟩

theorem same_all (hi : RenInv tm ren) (hP : Params num ps tm ren ps' tm' ren') (h : Same num tm' ren' b b') : Same num tm ren (.all ps b) (.all ps' b') where
  sat has ev under τ hS := by
    have hS' : ∀ v ∈ freeVars b, v ∉ names ps → rn ren v ∈ names tm ∨ ∀ u ∈ names (ps ++ b.bound), ∀ i, v ≠ num u i := fun v hv hn => hS v (mem_freeVars_all.mpr ⟨hv, hn⟩)
    have hsafe := hP.safe hS'
    have hcap : ∀ v, v ∈ freeVars b → v ∉ names ps → rn ren v ∉ names ps' := fun v hv hn => hP.capture hi hn ((hS' v hv hn).imp id fun h u hu => h u (bound_params hu))
    rw [sat_all, sat_all]
    constructor
    · intro hA σ' hE
      obtain ⟨τ', h1, h2⟩ := hP.ext_up hcap hE
      exact sat_agree _ h2 ((h.sat _ _ _ _ hsafe).mp (hA τ' h1))
    · intro hA τ' hE
      obtain ⟨σ', h1, h2⟩ := hP.ext_down hcap hE
      exact (h.sat _ _ _ _ hsafe).mpr (sat_agree _ (fun v hv => (h2 v hv).symm) (hA σ' h1))
  occurs has n p u τ hS := by
    have hS' : ∀ v ∈ freeVars b, v ∉ names ps → rn ren v ∈ names tm ∨ ∀ u ∈ names (ps ++ b.bound), ∀ i, v ≠ num u i := fun v hv hn => hS v (mem_freeVars_all.mpr ⟨hv, hn⟩)
    have hsafe := hP.safe hS'
    have hcap : ∀ v, v ∈ freeVars b → v ∉ names ps → rn ren v ∉ names ps' := fun v hv hn => hP.capture hi hn ((hS' v hv hn).imp id fun h u hu => h u (bound_params hu))
    rw [Cond.occurs, Cond.occurs]
    constructor
    · rintro ⟨τ', hE, h'⟩
      obtain ⟨σ', h1, h2⟩ := hP.ext_down hcap hE
      exact ⟨σ', h1, occurs_agree _ h2 ((h.occurs _ _ _ _ _ hsafe).mp h')⟩
    · rintro ⟨σ', hE, h'⟩
      obtain ⟨τ', h1, h2⟩ := hP.ext_up hcap hE
      exact ⟨τ', h1, (h.occurs _ _ _ _ _ hsafe).mpr (occurs_agree _ (fun v hv => (h2 v hv).symm) h')⟩
  lits q hq hl := h.lits q hq hl
  free w hw := by
    rw [mem_freeVars_all] at hw
    obtain ⟨v, hv, rfl⟩ := h.free w hw.1
    have hn : v ∉ names ps := fun hn => hw.2 (hP.mem hn)
    exact ⟨v, mem_freeVars_all.mpr ⟨hv, hn⟩, hP.other v hn⟩
  isConj := rfl
  isDisj := rfl
  isConst := rfl
  flat hf := h.flat hf
  trivially v := h.trivially v
  proper has hp := by
    rw [Cond.Proper] at hp ⊢
    rw [hP.nonempty, h.trivially]
    exact ⟨hp.1, h.proper has hp.2⟩
end quantifiers

section junctors
variable {num : V → Nat → V} {tm : List (V × T)} {ren : List (V × V)} {cs cs' : List (Cond P V O T)}

omit [DecidableEq V] in
theorem forall₂_all {α : Type} {R : α → α → Prop} {f : α → Bool} (hf : ∀ a b, R a b → f b = f a) {l m : List α} (h : List.Forall₂ R l m) : m.all f = l.all f := by
  induction h with
  | nil => rfl
  | cons h _ ih => rw [List.all_cons, List.all_cons, ih, hf _ _ h]

omit [DecidableEq V] in
theorem forall₂_any {α : Type} {R : α → α → Prop} {f : α → Bool} (hf : ∀ a b, R a b → f b = f a) {l m : List α} (h : List.Forall₂ R l m) : m.any f = l.any f := by
  induction h with
  | nil => rfl
  | cons h _ ih => rw [List.any_cons, List.any_cons, ih, hf _ _ h]

omit [DecidableEq V] in
theorem forall₂_ball {α : Type} {R : α → α → Prop} {p q : α → Prop} {l m : List α} (h : List.Forall₂ R l m) (hpq : ∀ a ∈ l, ∀ b, R a b → (q b ↔ p a)) : (∀ b ∈ m, q b) ↔ ∀ a ∈ l, p a := by
  constructor
  · intro hb a ha
    obtain ⟨b, hb', hR⟩ := Normalize.forall₂_left h a ha
    exact (hpq a ha b hR).mp (hb b hb')
  · intro hb b hb'
    obtain ⟨a, ha, hR⟩ := Normalize.forall₂_right h b hb'
    exact (hpq a ha b hR).mpr (hb a ha)

omit [DecidableEq V] in
theorem forall₂_bex {α : Type} {R : α → α → Prop} {p q : α → Prop} {l m : List α} (h : List.Forall₂ R l m) (hpq : ∀ a ∈ l, ∀ b, R a b → (q b ↔ p a)) : (∃ b ∈ m, q b) ↔ ∃ a ∈ l, p a := by
  constructor
  · rintro ⟨b, hb', hb⟩
    obtain ⟨a, ha, hR⟩ := Normalize.forall₂_right h b hb'
    exact ⟨a, ha, (hpq a ha b hR).mp hb⟩
  · rintro ⟨a, ha, hb⟩
    obtain ⟨b, hb', hR⟩ := Normalize.forall₂_left h a ha
    exact ⟨b, hb', (hpq a ha b hR).mpr hb⟩

theorem same_conj (h : List.Forall₂ (Same num tm ren) cs cs') : Same num tm ren (.conj cs) (.conj cs') where
  sat has ev under τ hS := by rw [sat_conj, sat_conj]; exact forall₂_ball h fun c hc c' hR => hR.sat _ _ _ _ (hS.conj c hc)
  occurs has n p u τ hS := by rw [occurs_conj, occurs_conj]; exact forall₂_bex h fun c hc c' hR => hR.occurs _ _ _ _ _ (hS.conj c hc)
  lits q hq hl := by
    rw [Lits_conj] at hl ⊢
    intro c' hc'
    obtain ⟨c, hc, hR⟩ := Normalize.forall₂_right h c' hc'
    exact hR.lits q hq (hl c hc)
  free w hw := by
    rw [freeVars_conj] at hw ⊢
    obtain ⟨c', hc', hw⟩ := List.mem_flatMap.mp hw
    obtain ⟨c, hc, hR⟩ := Normalize.forall₂_right h c' hc'
    obtain ⟨v, hv, h'⟩ := hR.free w hw
    exact ⟨v, List.mem_flatMap.mpr ⟨c, hc, hv⟩, h'⟩
  isConj := rfl
  isDisj := rfl
  isConst := rfl
  flat hf := by
    rw [Flat_conj] at hf ⊢
    intro c' hc'
    obtain ⟨c, hc, hR⟩ := Normalize.forall₂_right h c' hc'
    rw [hR.isConj, hR.isConst]
    exact ⟨(hf c hc).1, (hf c hc).2.1, hR.flat (hf c hc).2.2⟩
  trivially v := by rw [trivially_conj, trivially_conj, forall₂_all (fun a b h => h.trivially v) h, forall₂_any (fun a b h => h.trivially v) h]
  proper has hp := by
    rw [Proper_conj] at hp ⊢
    intro c' hc'
    obtain ⟨c, hc, hR⟩ := Normalize.forall₂_right h c' hc'
    exact hR.proper has (hp c hc)

theorem same_disj (h : List.Forall₂ (Same num tm ren) cs cs') : Same num tm ren (.disj cs) (.disj cs') where
  sat has ev under τ hS := by rw [sat_disj, sat_disj]; exact forall₂_bex h fun c hc c' hR => hR.sat _ _ _ _ (hS.disj c hc)
  occurs has n p u τ hS := by rw [occurs_disj, occurs_disj]; exact forall₂_bex h fun c hc c' hR => hR.occurs _ _ _ _ _ (hS.disj c hc)
  lits q hq hl := by
    rw [Lits_disj] at hl ⊢
    intro c' hc'
    obtain ⟨c, hc, hR⟩ := Normalize.forall₂_right h c' hc'
    exact hR.lits q hq (hl c hc)
  free w hw := by
    rw [freeVars_disj] at hw ⊢
    obtain ⟨c', hc', hw⟩ := List.mem_flatMap.mp hw
    obtain ⟨c, hc, hR⟩ := Normalize.forall₂_right h c' hc'
    obtain ⟨v, hv, h'⟩ := hR.free w hw
    exact ⟨v, List.mem_flatMap.mpr ⟨c, hc, hv⟩, h'⟩
  isConj := rfl
  isDisj := rfl
  isConst := rfl
  flat hf := by
    rw [Flat_disj] at hf ⊢
    intro c' hc'
    obtain ⟨c, hc, hR⟩ := Normalize.forall₂_right h c' hc'
    rw [hR.isDisj, hR.isConst]
    exact ⟨(hf c hc).1, (hf c hc).2.1, hR.flat (hf c hc).2.2⟩
  trivially v := by rw [trivially_disj, trivially_disj, forall₂_all (fun a b h => h.trivially v) h, forall₂_any (fun a b h => h.trivially v) h]
  proper has hp := by
    rw [Proper_disj] at hp ⊢
    intro c' hc'
    obtain ⟨c, hc, hR⟩ := Normalize.forall₂_right h c' hc'
    exact hR.proper has (hp c hc)
end junctors

/-- new variables have different names that have no type yet -/
def NewNames (tm new : List (V × T)) : Prop := (names new).Nodup ∧ ∀ w ∈ names new, w ∉ names tm

omit [DecidableEq V] in
theorem NewNames.nil {tm : List (V × T)} : NewNames tm [] := ⟨List.nodup_nil, by simp [names]⟩

omit [DecidableEq V] in
theorem NewNames.append {tm xs ys : List (V × T)} (h1 : NewNames tm xs) (h2 : NewNames (tm ++ xs) ys) : NewNames tm (xs ++ ys) := by
  constructor
  · rw [names_append, List.nodup_append]
    exact ⟨h1.1, h2.1, fun a ha b hb h => h2.2 b hb (by rw [names_append]; exact List.mem_append_right _ (h ▸ ha))⟩
  · intro w hw
    rw [names_append] at hw
    rcases List.mem_append.mp hw with hw | hw
    · exact h1.2 w hw
    · exact fun h => h2.2 w hw (by rw [names_append]; exact List.mem_append_left _ h)

omit [DecidableEq V] in
theorem NewNames.all {tm new : List (V × T)} (h : NewNames tm new) (ht : (names tm).Nodup) : (names (tm ++ new)).Nodup := by
  rw [names_append, List.nodup_append]
  exact ⟨ht, h.1, fun a ha b hb he => h.2 b hb (he ▸ ha)⟩

theorem uniqAll_spec {num : V → Nat → V} : ∀ (cs : List (Cond P V O T)), (∀ c ∈ cs, ∀ tm ren, c.Distinct → RenInv tm ren → ∃ c', uniq num c tm ren = some (c', tm ++ c'.bound) ∧ NewNames tm c'.bound ∧ Same num tm ren c c') →
    ∀ tm ren, (∀ c ∈ cs, c.Distinct) → RenInv tm ren → ∃ cs', uniqAll num cs tm ren = some (cs', tm ++ cs'.flatMap Cond.bound) ∧ NewNames tm (cs'.flatMap Cond.bound) ∧ List.Forall₂ (Same num tm ren) cs cs'
  | [], _, tm, ren, _, _ => ⟨[], by simp [uniqAll], .nil, .nil⟩
  | c :: cs, ih, tm, ren, hd, hi => by
    have hsub : ∀ {xs : List (V × T)}, names tm ⊆ names (tm ++ xs) := fun {xs} => by rw [names_append]; exact List.subset_append_left _ _
    obtain ⟨c', h1, h2, h3⟩ := ih c List.mem_cons_self tm ren (hd c List.mem_cons_self) hi
    obtain ⟨cs', h4, h5, h6⟩ := uniqAll_spec cs (fun d hd => ih d (List.mem_cons_of_mem _ hd)) (tm ++ c'.bound) ren (fun d hd' => hd d (List.mem_cons_of_mem _ hd')) (hi.mono hsub)
    refine ⟨c' :: cs', by simp only [uniqAll, h1, h4, Option.map_some, List.flatMap_cons, List.append_assoc], ?_, .cons h3 (h6.imp fun a b h => h.mono hsub)⟩
    rw [List.flatMap_cons]
    exact h2.append h5

/-- `uniquify_variables` for conditions -/
theorem uniq_spec {num : V → Nat → V} (hnum : ∀ v i j, num v i = num v j → i = j) (c : Cond P V O T) : ∀ tm ren, c.Distinct → RenInv tm ren → ∃ c', uniq num c tm ren = some (c', tm ++ c'.bound) ∧ NewNames tm c'.bound ∧ Same num tm ren c c' := by
  induction c using Cond.ind with
  | truth => exact fun tm ren _ _ => ⟨.truth, by simp [uniq, Cond.bound], .nil, ⟨fun _ _ _ _ _ => by simp [Cond.sat], fun _ _ _ _ _ _ => by simp [Cond.occurs], fun _ _ _ => trivial, by simp [freeVars], rfl, rfl, rfl, id, fun _ => rfl, fun _ => id⟩⟩
  | falsity => exact fun tm ren _ _ => ⟨.falsity, by simp [uniq, Cond.bound], .nil, ⟨fun _ _ _ _ _ => by simp [Cond.sat], fun _ _ _ _ _ _ => by simp [Cond.occurs], fun _ _ _ => trivial, by simp [freeVars], rfl, rfl, rfl, id, fun _ => rfl, fun _ => id⟩⟩
  | lit n a =>
    refine fun tm ren _ _ => ⟨.lit n (renameAtom ren a), by simp [uniq, Cond.bound], .nil, ⟨fun _ _ _ _ _ => by simp only [Cond.sat, inst_rename], fun _ _ _ _ _ _ => by simp only [Cond.occurs, inst_rename], fun q hq hl => hq _ _ _ hl, ?_, rfl, rfl, rfl, id, fun _ => rfl, fun _ => id⟩⟩
    intro w hw
    rw [freeVars, vars_rename] at hw
    obtain ⟨v, hv, rfl⟩ := List.mem_map.mp hw
    exact ⟨v, by rw [freeVars]; exact hv, rfl⟩
  | conj cs ih =>
    intro tm ren hd hi
    obtain ⟨cs', h1, h2, h3⟩ := uniqAll_spec cs ih tm ren (Distinct_conj.mp hd) hi
    exact ⟨.conj cs', by rw [uniq, h1, bound_conj]; rfl, by rw [bound_conj]; exact h2, same_conj h3⟩
  | disj cs ih =>
    intro tm ren hd hi
    obtain ⟨cs', h1, h2, h3⟩ := uniqAll_spec cs ih tm ren (Distinct_disj.mp hd) hi
    exact ⟨.disj cs', by rw [uniq, h1, bound_disj]; rfl, by rw [bound_disj]; exact h2, same_disj h3⟩
  | all ps b ih =>
    intro tm ren hd hi
    rw [Cond.Distinct] at hd
    obtain ⟨ps', tm', ren', h1, hP⟩ := uniqParams_spec hnum ps tm ren hd.1 hi
    obtain ⟨b', h2, h3, h4⟩ := ih tm' ren' hd.2 hP.inv
    have h5 := hP.types
    subst h5
    exact ⟨.all ps' b', by rw [uniq, h1]; simp only [h2, Option.map_some, Cond.bound, List.append_assoc], NewNames.append ⟨hP.nodup, hP.fresh⟩ h3, same_all hi hP h4⟩
  | ex ps b ih =>
    intro tm ren hd hi
    rw [Cond.Distinct] at hd
    obtain ⟨ps', tm', ren', h1, hP⟩ := uniqParams_spec hnum ps tm ren hd.1 hi
    obtain ⟨b', h2, h3, h4⟩ := ih tm' ren' hd.2 hP.inv
    have h5 := hP.types
    subst h5
    exact ⟨.ex ps' b', by rw [uniq, h1]; simp only [h2, Option.map_some, Cond.bound, List.append_assoc], NewNames.append ⟨hP.nodup, hP.fresh⟩ h3, same_ex hi hP h4⟩

end Verif.Uniquify
