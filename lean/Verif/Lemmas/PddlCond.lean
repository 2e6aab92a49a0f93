import Verif.Spec.Pddl
import Verif.Model.Normalize
import Mathlib.Tactic.Push

/-
Conditions: equations for lists of parts, negation, and what the truth of a condition depends on.
-/
namespace Verif.Pddl
open Verif.Datalog Verif.Lifted
variable {P V O T F : Type}

section
mutual
theorem Cond.ind {motive : Cond P V O T → Prop} (truth : motive .truth) (falsity : motive .falsity) (lit : ∀ n a, motive (.lit n a)) (conj : ∀ cs, (∀ c ∈ cs, motive c) → motive (.conj cs))
    (disj : ∀ cs, (∀ c ∈ cs, motive c) → motive (.disj cs)) (all : ∀ ps b, motive b → motive (.all ps b)) (ex : ∀ ps b, motive b → motive (.ex ps b)) : ∀ c, motive c
  | .truth => truth
  | .falsity => falsity
  | .lit n a => lit n a
  | .conj cs => conj cs (Cond.indAll truth falsity lit conj disj all ex cs)
  | .disj cs => disj cs (Cond.indAll truth falsity lit conj disj all ex cs)
  | .all ps b => all ps b (Cond.ind truth falsity lit conj disj all ex b)
  | .ex ps b => ex ps b (Cond.ind truth falsity lit conj disj all ex b)
theorem Cond.indAll {motive : Cond P V O T → Prop} (truth : motive .truth) (falsity : motive .falsity) (lit : ∀ n a, motive (.lit n a)) (conj : ∀ cs, (∀ c ∈ cs, motive c) → motive (.conj cs))
    (disj : ∀ cs, (∀ c ∈ cs, motive c) → motive (.disj cs)) (all : ∀ ps b, motive b → motive (.all ps b)) (ex : ∀ ps b, motive b → motive (.ex ps b)) : ∀ cs : List (Cond P V O T), ∀ c ∈ cs, motive c
  | [] => by simp
  | c :: cs => List.forall_mem_cons.mpr ⟨Cond.ind truth falsity lit conj disj all ex c, Cond.indAll truth falsity lit conj disj all ex cs⟩
end

variable {has : T → O → Prop} {ev under : Bool → GAtom P O → Prop} {σ τ : V → O}

theorem satAll_iff : ∀ {cs : List (Cond P V O T)}, satAll has ev under σ cs ↔ ∀ c ∈ cs, c.sat has ev under σ
  | [] => by simp [satAll]
  | c :: cs => by simp [satAll, satAll_iff (cs := cs)]

theorem satSome_iff : ∀ {cs : List (Cond P V O T)}, satSome has ev under σ cs ↔ ∃ c ∈ cs, c.sat has ev under σ
  | [] => by simp [satSome]
  | c :: cs => by simp [satSome, satSome_iff (cs := cs)]

theorem sat_truth : (Cond.truth : Cond P V O T).sat has ev under σ ↔ True := by simp [Cond.sat]
theorem sat_falsity : (Cond.falsity : Cond P V O T).sat has ev under σ ↔ False := by simp [Cond.sat]
theorem sat_lit {n : Bool} {a : SymAtom P V O} : (Cond.lit n a : Cond P V O T).sat has ev under σ ↔ ev n (a.inst σ) := by simp [Cond.sat]
theorem sat_conj {cs : List (Cond P V O T)} : (Cond.conj cs).sat has ev under σ ↔ ∀ c ∈ cs, c.sat has ev under σ := by rw [Cond.sat, satAll_iff]
theorem sat_disj {cs : List (Cond P V O T)} : (Cond.disj cs).sat has ev under σ ↔ ∃ c ∈ cs, c.sat has ev under σ := by rw [Cond.sat, satSome_iff]
theorem sat_all {ps : List (V × T)} {b : Cond P V O T} : (Cond.all ps b).sat has ev under σ ↔ ∀ τ, Ext has ps σ τ → b.sat has under under τ := by rw [Cond.sat]
theorem sat_ex {ps : List (V × T)} {b : Cond P V O T} : (Cond.ex ps b).sat has ev under σ ↔ ∃ τ, Ext has ps σ τ ∧ b.sat has ev under τ := by rw [Cond.sat]

theorem occursAny_iff {strict u : Bool} {p : GAtom P O} : ∀ {cs : List (Cond P V O T)}, occursAny has strict p u σ cs ↔ ∃ c ∈ cs, c.occurs has strict p u σ
  | [] => by simp [occursAny]
  | c :: cs => by simp [occursAny, occursAny_iff (cs := cs)]

theorem occurs_conj {strict u : Bool} {p : GAtom P O} {cs : List (Cond P V O T)} : (Cond.conj cs).occurs has strict p u σ ↔ ∃ c ∈ cs, c.occurs has strict p u σ := by rw [Cond.occurs, occursAny_iff]
theorem occurs_disj {strict u : Bool} {p : GAtom P O} {cs : List (Cond P V O T)} : (Cond.disj cs).occurs has strict p u σ ↔ ∃ c ∈ cs, c.occurs has strict p u σ := by rw [Cond.occurs, occursAny_iff]

theorem boundAll_eq : ∀ {cs : List (Cond P V O T)}, boundAll cs = cs.flatMap Cond.bound
  | [] => by simp [boundAll]
  | c :: cs => by simp [boundAll, boundAll_eq (cs := cs)]

theorem bound_conj {cs : List (Cond P V O T)} : (Cond.conj cs).bound = cs.flatMap Cond.bound := by rw [Cond.bound, boundAll_eq]
theorem bound_disj {cs : List (Cond P V O T)} : (Cond.disj cs).bound = cs.flatMap Cond.bound := by rw [Cond.bound, boundAll_eq]

theorem LitsAll_iff {p : Bool → SymAtom P V O → Prop} : ∀ {cs : List (Cond P V O T)}, LitsAll p cs ↔ ∀ c ∈ cs, c.Lits p
  | [] => by simp [LitsAll]
  | c :: cs => by simp [LitsAll, LitsAll_iff (cs := cs)]

theorem Lits_conj {p : Bool → SymAtom P V O → Prop} {cs : List (Cond P V O T)} : (Cond.conj cs).Lits p ↔ ∀ c ∈ cs, c.Lits p := by rw [Cond.Lits, LitsAll_iff]
theorem Lits_disj {p : Bool → SymAtom P V O → Prop} {cs : List (Cond P V O T)} : (Cond.disj cs).Lits p ↔ ∀ c ∈ cs, c.Lits p := by rw [Cond.Lits, LitsAll_iff]

theorem ScopedAll_iff {vs : List V} : ∀ {cs : List (Cond P V O T)}, ScopedAll vs cs ↔ ∀ c ∈ cs, c.Scoped vs
  | [] => by simp [ScopedAll]
  | c :: cs => by simp [ScopedAll, ScopedAll_iff (cs := cs)]

theorem Scoped_conj {vs : List V} {cs : List (Cond P V O T)} : (Cond.conj cs).Scoped vs ↔ ∀ c ∈ cs, c.Scoped vs := by rw [Cond.Scoped, ScopedAll_iff]
theorem Scoped_disj {vs : List V} {cs : List (Cond P V O T)} : (Cond.disj cs).Scoped vs ↔ ∀ c ∈ cs, c.Scoped vs := by rw [Cond.Scoped, ScopedAll_iff]

theorem allTrivially_eq {v : Bool} : ∀ {cs : List (Cond P V O T)}, allTrivially v cs = cs.all (Cond.trivially v)
  | [] => by simp [allTrivially]
  | c :: cs => by simp [allTrivially, allTrivially_eq (cs := cs)]

theorem someTrivially_eq {v : Bool} : ∀ {cs : List (Cond P V O T)}, someTrivially v cs = cs.any (Cond.trivially v)
  | [] => by simp [someTrivially]
  | c :: cs => by simp [someTrivially, someTrivially_eq (cs := cs)]

theorem trivially_conj {v : Bool} {cs : List (Cond P V O T)} : (Cond.conj cs).trivially v = if v then cs.all (Cond.trivially v) else cs.any (Cond.trivially v) := by rw [Cond.trivially, allTrivially_eq, someTrivially_eq]
theorem trivially_disj {v : Bool} {cs : List (Cond P V O T)} : (Cond.disj cs).trivially v = if v then cs.any (Cond.trivially v) else cs.all (Cond.trivially v) := by rw [Cond.trivially, allTrivially_eq, someTrivially_eq]

theorem ProperAll_iff : ∀ {cs : List (Cond P V O T)}, ProperAll has cs ↔ ∀ c ∈ cs, c.Proper has
  | [] => by simp [ProperAll]
  | c :: cs => by simp [ProperAll, ProperAll_iff (cs := cs)]

theorem Proper_conj {cs : List (Cond P V O T)} : (Cond.conj cs).Proper has ↔ ∀ c ∈ cs, c.Proper has := by rw [Cond.Proper, ProperAll_iff]
theorem Proper_disj {cs : List (Cond P V O T)} : (Cond.disj cs).Proper has ↔ ∀ c ∈ cs, c.Proper has := by rw [Cond.Proper, ProperAll_iff]

theorem FlatAll_iff : ∀ {cs : List (Cond P V O T)}, FlatAll cs ↔ ∀ c ∈ cs, c.Flat
  | [] => by simp [FlatAll]
  | c :: cs => by simp [FlatAll, FlatAll_iff (cs := cs)]

theorem Flat_conj {cs : List (Cond P V O T)} : (Cond.conj cs).Flat ↔ ∀ c ∈ cs, c.isConj = false ∧ c.isConst = false ∧ c.Flat := by
  rw [Cond.Flat, FlatAll_iff]
  exact ⟨fun h c hc => ⟨(h.1 c hc).1, (h.1 c hc).2, h.2 c hc⟩, fun h => ⟨fun c hc => ⟨(h c hc).1, (h c hc).2.1⟩, fun c hc => (h c hc).2.2⟩⟩

theorem Flat_disj {cs : List (Cond P V O T)} : (Cond.disj cs).Flat ↔ ∀ c ∈ cs, c.isDisj = false ∧ c.isConst = false ∧ c.Flat := by
  rw [Cond.Flat, FlatAll_iff]
  exact ⟨fun h c hc => ⟨(h.1 c hc).1, (h.1 c hc).2, h.2 c hc⟩, fun h => ⟨fun c hc => ⟨(h c hc).1, (h c hc).2.1⟩, fun c hc => (h c hc).2.2⟩⟩

theorem names_append {ps qs : List (V × T)} : names (ps ++ qs) = names ps ++ names qs := List.map_append

theorem mem_names {ps : List (V × T)} {v : V} : v ∈ names ps ↔ ∃ t, (v, t) ∈ ps := by simp [names]

theorem Ext.nil_iff : Ext has [] σ τ ↔ τ = σ := by simp [Ext, funext_iff]

theorem Ext.rfl' {ps : List (V × T)} (h : ∀ p ∈ ps, has p.2 (σ p.1)) : Ext has ps σ σ := ⟨fun _ _ => rfl, h⟩

/-- if there are objects of the right types, then the variables can have them as values -/
theorem Ext.exists [DecidableEq V] {ps : List (V × T)} (h : ∃ τ : V → O, ∀ p ∈ ps, has p.2 (τ p.1)) (σ : V → O) : ∃ τ, Ext has ps σ τ := by
  obtain ⟨τ, hτ⟩ := h
  refine ⟨fun v => if v ∈ ps.map (·.1) then τ v else σ v, fun v hv => by simp only [hv, if_false], fun p hp => ?_⟩
  have : p.1 ∈ ps.map (·.1) := List.mem_map_of_mem hp
  simp only [this, if_true]
  exact hτ p hp

/-- values of variables that agree can be extended in the same way -/
theorem Ext.transfer [DecidableEq V] {ps : List (V × T)} {σ' : V → O} {S : V → Prop} (h : Ext has ps σ τ) (hs : ∀ v, S v → v ∉ ps.map (·.1) → σ v = σ' v) :
    ∃ τ', Ext has ps σ' τ' ∧ ∀ v, S v → τ v = τ' v := by
  refine ⟨fun v => if v ∈ ps.map (·.1) then τ v else σ' v, ⟨fun v hv => by simp only [hv, if_false], fun p hp => ?_⟩, fun v hv => ?_⟩
  · have : p.1 ∈ ps.map (·.1) := List.mem_map_of_mem hp
    simp only [this, if_true]
    exact h.2 p hp
  · by_cases hv' : v ∈ ps.map (·.1)
    · simp only [hv', if_true]
    · simp only [hv', if_false]
      rw [h.1 v hv', hs v hv hv']

theorem inst_agree {a : SymAtom P V O} (h : ∀ v ∈ a.vars, σ v = τ v) : a.inst σ = a.inst τ := by
  unfold SymAtom.inst
  congr 1
  apply List.map_congr_left
  intro t ht
  cases t with
  | var v => exact h v (List.mem_filterMap.mpr ⟨_, ht, rfl⟩)
  | const o => rfl

theorem holds_lit {s : GAtom P O → Prop} {n : Bool} {a : SymAtom P V O} : (Cond.lit n a : Cond P V O T).holds has s σ ↔ if n then ¬ s (a.inst σ) else s (a.inst σ) := by
  unfold Cond.holds
  rw [sat_lit]
  rfl

/-- more literals are true, and then more conditions are true -/
theorem sat_imp {under' : Bool → GAtom P O → Prop} {q : Bool → SymAtom P V O → Prop} (hu : ∀ n a σ, q n a → under n (a.inst σ) → under' n (a.inst σ)) :
    ∀ (c : Cond P V O T) {ev ev' : Bool → GAtom P O → Prop} {σ : V → O}, c.Lits q → (∀ n a σ, q n a → ev n (a.inst σ) → ev' n (a.inst σ)) → c.sat has ev under σ → c.sat has ev' under' σ := by
  intro c
  induction c using Cond.ind with
  | truth => intros; rw [sat_truth]; trivial
  | falsity => intro ev ev' σ _ _ h; rw [sat_falsity] at h; exact h.elim
  | lit n a => intro ev ev' σ hc he h; rw [sat_lit] at h ⊢; exact he n a σ hc h
  | conj cs ih =>
    intro ev ev' σ hc he h
    rw [sat_conj] at h ⊢
    exact fun c hm => ih c hm (Lits_conj.mp hc c hm) he (h c hm)
  | disj cs ih =>
    intro ev ev' σ hc he h
    rw [sat_disj] at h ⊢
    obtain ⟨c, hm, h⟩ := h
    exact ⟨c, hm, ih c hm (Lits_disj.mp hc c hm) he h⟩
  | all ps b ih =>
    intro ev ev' σ hc he h
    rw [sat_all] at h ⊢
    exact fun τ hτ => ih hc hu (h τ hτ)
  | ex ps b ih =>
    intro ev ev' σ hc he h
    rw [sat_ex] at h ⊢
    obtain ⟨τ, hτ, h⟩ := h
    exact ⟨τ, hτ, ih hc he h⟩

theorem sat_congr {ev' under' : Bool → GAtom P O → Prop} {q : Bool → SymAtom P V O → Prop} (hu : ∀ n a σ, q n a → (under n (a.inst σ) ↔ under' n (a.inst σ))) (c : Cond P V O T) (hc : c.Lits q)
    (he : ∀ n a σ, q n a → (ev n (a.inst σ) ↔ ev' n (a.inst σ))) : c.sat has ev under σ ↔ c.sat has ev' under' σ :=
  ⟨sat_imp (fun n a σ h => (hu n a σ h).mp) c hc (fun n a σ h => (he n a σ h).mp), sat_imp (fun n a σ h => (hu n a σ h).mpr) c hc (fun n a σ h => (he n a σ h).mpr)⟩

theorem Lits_true (c : Cond P V O T) : c.Lits (fun _ _ => True) := by
  induction c using Cond.ind with
  | truth => trivial
  | falsity => trivial
  | lit n a => trivial
  | conj cs ih => exact Lits_conj.mpr ih
  | disj cs ih => exact Lits_disj.mpr ih
  | all ps b ih => exact ih
  | ex ps b ih => exact ih

theorem Lits_mono {q r : Bool → SymAtom P V O → Prop} (h : ∀ n a, q n a → r n a) (c : Cond P V O T) : c.Lits q → c.Lits r := by
  induction c using Cond.ind with
  | truth => exact id
  | falsity => exact id
  | lit n a => exact h n a
  | conj cs ih => intro hc; exact Lits_conj.mpr fun c hm => ih c hm (Lits_conj.mp hc c hm)
  | disj cs ih => intro hc; exact Lits_disj.mpr fun c hm => ih c hm (Lits_disj.mp hc c hm)
  | all ps b ih => exact ih
  | ex ps b ih => exact ih

theorem sat_occurs_under {ev' : Bool → GAtom P O → Prop} (c : Cond P V O T) : ∀ {σ : V → O}, (∀ n p, c.occurs has true p true σ → ev n p → ev' n p) → c.sat has ev ev σ → c.sat has ev' ev' σ := by
  induction c using Cond.ind with
  | truth => intros; rw [sat_truth]; trivial
  | falsity => intro σ _ h; rw [sat_falsity] at h; exact h.elim
  | lit n a =>
    intro σ he h
    rw [sat_lit] at h ⊢
    exact he n _ (by rw [Cond.occurs]; simp) h
  | conj cs ih =>
    intro σ he h
    rw [sat_conj] at h ⊢
    exact fun c hm => ih c hm (fun n p ho => he n p (occurs_conj.mpr ⟨c, hm, ho⟩)) (h c hm)
  | disj cs ih =>
    intro σ he h
    rw [sat_disj] at h ⊢
    obtain ⟨c, hm, h⟩ := h
    exact ⟨c, hm, ih c hm (fun n p ho => he n p (occurs_disj.mpr ⟨c, hm, ho⟩)) h⟩
  | all ps b ih =>
    intro σ he h
    rw [sat_all] at h ⊢
    exact fun τ hτ => ih (fun n p ho => he n p (by rw [Cond.occurs]; exact ⟨τ, hτ, ho⟩)) (h τ hτ)
  | ex ps b ih =>
    intro σ he h
    rw [sat_ex] at h ⊢
    obtain ⟨τ, hτ, h⟩ := h
    exact ⟨τ, hτ, ih (fun n p ho => he n p (by rw [Cond.occurs]; exact ⟨τ, hτ, ho⟩)) h⟩

/-- as `sat_imp`, for the atoms that occur -/
theorem sat_occurs {ev' under' : Bool → GAtom P O → Prop} (c : Cond P V O T) : ∀ {σ : V → O}, (∀ n p, c.occurs has n p false σ → ev n p → ev' n p) → (∀ n p, c.occurs has true p false σ → under n p → under' n p) →
    c.sat has ev under σ → c.sat has ev' under' σ := by
  induction c using Cond.ind with
  | truth => intros; rw [sat_truth]; trivial
  | falsity => intro σ _ _ h; rw [sat_falsity] at h; exact h.elim
  | lit n a =>
    intro σ he _ h
    rw [sat_lit] at h ⊢
    exact he n _ (by rw [Cond.occurs]; simp) h
  | conj cs ih =>
    intro σ he hu h
    rw [sat_conj] at h ⊢
    exact fun c hm => ih c hm (fun n p ho => he n p (occurs_conj.mpr ⟨c, hm, ho⟩)) (fun n p ho => hu n p (occurs_conj.mpr ⟨c, hm, ho⟩)) (h c hm)
  | disj cs ih =>
    intro σ he hu h
    rw [sat_disj] at h ⊢
    obtain ⟨c, hm, h⟩ := h
    exact ⟨c, hm, ih c hm (fun n p ho => he n p (occurs_disj.mpr ⟨c, hm, ho⟩)) (fun n p ho => hu n p (occurs_disj.mpr ⟨c, hm, ho⟩)) h⟩
  | all ps b ih =>
    intro σ he hu h
    rw [sat_all] at h ⊢
    exact fun τ hτ => sat_occurs_under b (fun n p ho => hu n p (by rw [Cond.occurs]; exact ⟨τ, hτ, ho⟩)) (h τ hτ)
  | ex ps b ih =>
    intro σ he hu h
    rw [sat_ex] at h ⊢
    obtain ⟨τ, hτ, h⟩ := h
    exact ⟨τ, hτ, ih (fun n p ho => he n p (by rw [Cond.occurs]; exact ⟨τ, hτ, ho⟩)) (fun n p ho => hu n p (by rw [Cond.occurs]; exact ⟨τ, hτ, ho⟩)) h⟩

end

end Verif.Pddl

namespace Verif.Normalize
open Verif.Datalog Verif.Lifted Verif.Pddl
variable {P V O T F : Type}

theorem negateAll_eq : ∀ {cs : List (Cond P V O T)}, negateAll cs = cs.map negate
  | [] => by simp [negateAll]
  | c :: cs => by simp [negateAll, negateAll_eq (cs := cs)]

theorem negate_conj {cs : List (Cond P V O T)} : negate (.conj cs) = .disj (cs.map negate) := by rw [negate, negateAll_eq]
theorem negate_disj {cs : List (Cond P V O T)} : negate (.disj cs) = .conj (cs.map negate) := by rw [negate, negateAll_eq]

theorem negate_negate (c : Cond P V O T) : negate (negate c) = c := by
  induction c using Cond.ind with
  | truth => rfl
  | falsity => rfl
  | lit n a => simp [negate]
  | conj cs ih => rw [negate_conj, negate_disj, List.map_map]; congr 1; exact (List.map_congr_left ih).trans (by simp)
  | disj cs ih => rw [negate_disj, negate_conj, List.map_map]; congr 1; exact (List.map_congr_left ih).trans (by simp)
  | all ps b ih => simp only [negate]; rw [ih]
  | ex ps b ih => simp only [negate]; rw [ih]

theorem bound_negate (c : Cond P V O T) : (negate c).bound = c.bound := by
  induction c using Cond.ind with
  | truth => rfl
  | falsity => rfl
  | lit n a => rfl
  | conj cs ih => rw [negate_conj, bound_disj, bound_conj, List.flatMap_map]; exact List.flatMap_congr ih
  | disj cs ih => rw [negate_disj, bound_disj, bound_conj, List.flatMap_map]; exact List.flatMap_congr ih
  | all ps b ih => simp only [negate, Cond.bound]; rw [ih]
  | ex ps b ih => simp only [negate, Cond.bound]; rw [ih]

theorem trivially_negate (c : Cond P V O T) : ∀ v, (negate c).trivially v = c.trivially (!v) := by
  induction c using Cond.ind with
  | truth => intro v; rfl
  | falsity => intro v; simp [negate, Cond.trivially]
  | lit n a => intro v; rfl
  | conj cs ih =>
    intro v
    have h1 : ∀ w, (cs.map negate).all (Cond.trivially w) = cs.all (Cond.trivially (!w)) := by
      intro w; rw [List.all_map]; exact Bool.eq_iff_iff.mpr (by simp only [List.all_eq_true, Function.comp_def]; exact forall₂_congr fun c hc => by rw [ih c hc])
    have h2 : ∀ w, (cs.map negate).any (Cond.trivially w) = cs.any (Cond.trivially (!w)) := by
      intro w; rw [List.any_map]; exact Bool.eq_iff_iff.mpr (by simp only [List.any_eq_true, Function.comp_def]; exact exists_congr fun c => and_congr_right fun hc => by rw [ih c hc])
    rw [negate_conj, trivially_disj, trivially_conj, h1, h2]
    cases v <;> rfl
  | disj cs ih =>
    intro v
    have h1 : ∀ w, (cs.map negate).all (Cond.trivially w) = cs.all (Cond.trivially (!w)) := by
      intro w; rw [List.all_map]; exact Bool.eq_iff_iff.mpr (by simp only [List.all_eq_true, Function.comp_def]; exact forall₂_congr fun c hc => by rw [ih c hc])
    have h2 : ∀ w, (cs.map negate).any (Cond.trivially w) = cs.any (Cond.trivially (!w)) := by
      intro w; rw [List.any_map]; exact Bool.eq_iff_iff.mpr (by simp only [List.any_eq_true, Function.comp_def]; exact exists_congr fun c => and_congr_right fun hc => by rw [ih c hc])
    rw [negate_disj, trivially_disj, trivially_conj, h1, h2]
    cases v <;> rfl
  | all ps b ih => intro v; simp only [negate, Cond.trivially]; rw [ih]
  | ex ps b ih => intro v; simp only [negate, Cond.trivially]; rw [ih]

theorem Proper_negate {has : T → O → Prop} (c : Cond P V O T) : (negate c).Proper has ↔ c.Proper has := by
  induction c using Cond.ind with
  | truth => rfl
  | falsity => rfl
  | lit n a => rfl
  | conj cs ih => rw [negate_conj, Proper_disj, Proper_conj]; simp only [List.forall_mem_map]; exact forall₂_congr ih
  | disj cs ih => rw [negate_disj, Proper_conj, Proper_disj]; simp only [List.forall_mem_map]; exact forall₂_congr ih
  | all ps b ih => simp only [negate, Cond.Proper]; rw [ih, trivially_negate]; rfl
  | ex ps b ih => simp only [negate, Cond.Proper]; rw [ih, trivially_negate]; rfl

theorem Lits_negate {q : Bool → SymAtom P V O → Prop} (c : Cond P V O T) : (negate c).Lits q ↔ c.Lits (fun n a => q (!n) a) := by
  induction c using Cond.ind with
  | truth => rfl
  | falsity => rfl
  | lit n a => rfl
  | conj cs ih => rw [negate_conj, Lits_disj, Lits_conj]; simp only [List.forall_mem_map]; exact forall₂_congr ih
  | disj cs ih => rw [negate_disj, Lits_conj, Lits_disj]; simp only [List.forall_mem_map]; exact forall₂_congr ih
  | all ps b ih => simp only [negate, Cond.Lits]; exact ih
  | ex ps b ih => simp only [negate, Cond.Lits]; exact ih

theorem Scoped_negate (c : Cond P V O T) : ∀ {vs : List V}, (negate c).Scoped vs ↔ c.Scoped vs := by
  induction c using Cond.ind with
  | truth => intro vs; rfl
  | falsity => intro vs; rfl
  | lit n a => intro vs; rfl
  | conj cs ih => intro vs; rw [negate_conj, Scoped_disj, Scoped_conj]; simp only [List.forall_mem_map]; exact forall₂_congr fun c hc => ih c hc
  | disj cs ih => intro vs; rw [negate_disj, Scoped_conj, Scoped_disj]; simp only [List.forall_mem_map]; exact forall₂_congr fun c hc => ih c hc
  | all ps b ih => intro vs; simp only [negate, Cond.Scoped]; exact ih
  | ex ps b ih => intro vs; simp only [negate, Cond.Scoped]; exact ih

/-- the negation of a condition is true in a state if the condition is not true -/
theorem holds_negate {has : T → O → Prop} {s : GAtom P O → Prop} (c : Cond P V O T) : ∀ {σ : V → O}, (negate c).holds has s σ ↔ ¬ c.holds has s σ := by
  unfold Cond.holds
  induction c using Cond.ind with
  | truth => intro σ; simp [negate, Cond.sat]
  | falsity => intro σ; simp [negate, Cond.sat]
  | lit n a => intro σ; simp only [negate]; rw [sat_lit, sat_lit]; cases n <;> simp [lits]
  | conj cs ih => intro σ; rw [negate_conj, sat_disj, sat_conj]; simp only [List.mem_map, exists_exists_and_eq_and]; push Not; exact exists_congr fun c => and_congr_right fun hc => ih c hc
  | disj cs ih => intro σ; rw [negate_disj, sat_conj, sat_disj]; simp only [List.forall_mem_map]; push Not; exact forall₂_congr fun c hc => ih c hc
  | all ps b ih => intro σ; simp only [negate]; rw [sat_ex, sat_all]; push Not; exact exists_congr fun τ => and_congr_right fun _ => ih
  | ex ps b ih => intro σ; simp only [negate]; rw [sat_all, sat_ex]; push Not; exact forall₂_congr fun τ _ => ih

section
variable [DecidableEq V]

theorem freeVarsAll_eq : ∀ {cs : List (Cond P V O T)}, freeVarsAll cs = cs.flatMap freeVars
  | [] => by simp [freeVarsAll]
  | c :: cs => by simp [freeVarsAll, freeVarsAll_eq (cs := cs)]

theorem freeVars_conj {cs : List (Cond P V O T)} : freeVars (.conj cs) = cs.flatMap freeVars := by rw [freeVars, freeVarsAll_eq]
theorem freeVars_disj {cs : List (Cond P V O T)} : freeVars (.disj cs) = cs.flatMap freeVars := by rw [freeVars, freeVarsAll_eq]
theorem mem_freeVars_all {ps : List (V × T)} {b : Cond P V O T} {v : V} : v ∈ freeVars (.all ps b) ↔ v ∈ freeVars b ∧ v ∉ names ps := by rw [freeVars]; simp [names]
theorem mem_freeVars_ex {ps : List (V × T)} {b : Cond P V O T} {v : V} : v ∈ freeVars (.ex ps b) ↔ v ∈ freeVars b ∧ v ∉ names ps := by rw [freeVars]; simp [names]

theorem freeVars_negate (c : Cond P V O T) : freeVars (negate c) = freeVars c := by
  induction c using Cond.ind with
  | truth => rfl
  | falsity => rfl
  | lit n a => rfl
  | conj cs ih => rw [negate_conj, freeVars_disj, freeVars_conj, List.flatMap_map]; exact List.flatMap_congr ih
  | disj cs ih => rw [negate_disj, freeVars_disj, freeVars_conj, List.flatMap_map]; exact List.flatMap_congr ih
  | all ps b ih => simp only [negate, freeVars]; rw [ih]
  | ex ps b ih => simp only [negate, freeVars]; rw [ih]

/-- the value of a condition depends on its free variables only -/
theorem sat_agree {has : T → O → Prop} {under : Bool → GAtom P O → Prop} (c : Cond P V O T) : ∀ {ev : Bool → GAtom P O → Prop} {σ σ' : V → O}, (∀ v ∈ freeVars c, σ v = σ' v) → c.sat has ev under σ → c.sat has ev under σ' := by
  induction c using Cond.ind with
  | truth => intros; rw [sat_truth]; trivial
  | falsity => intro ev σ σ' _ h; rw [sat_falsity] at h; exact h.elim
  | lit n a => intro ev σ σ' hs h; rw [sat_lit] at h ⊢; rw [← inst_agree hs]; exact h
  | conj cs ih =>
    intro ev σ σ' hs h
    rw [sat_conj] at h ⊢
    exact fun c hc => ih c hc (fun v hv => hs v (by rw [freeVars_conj]; exact List.mem_flatMap.mpr ⟨c, hc, hv⟩)) (h c hc)
  | disj cs ih =>
    intro ev σ σ' hs h
    rw [sat_disj] at h ⊢
    obtain ⟨c, hc, h⟩ := h
    exact ⟨c, hc, ih c hc (fun v hv => hs v (by rw [freeVars_disj]; exact List.mem_flatMap.mpr ⟨c, hc, hv⟩)) h⟩
  | all ps b ih =>
    intro ev σ σ' hs h
    rw [sat_all] at h ⊢
    intro τ hτ
    obtain ⟨τ', h1, h2⟩ := hτ.transfer (σ' := σ) (S := fun v => v ∈ freeVars b) (fun v hv hv' => (hs v (mem_freeVars_all.mpr ⟨hv, hv'⟩)).symm)
    exact ih (fun v hv => (h2 v hv).symm) (h τ' h1)
  | ex ps b ih =>
    intro ev σ σ' hs h
    rw [sat_ex] at h ⊢
    obtain ⟨τ, hτ, h⟩ := h
    obtain ⟨τ', h1, h2⟩ := hτ.transfer (σ' := σ') (S := fun v => v ∈ freeVars b) (fun v hv hv' => hs v (mem_freeVars_ex.mpr ⟨hv, hv'⟩))
    exact ⟨τ', h1, ih h2 h⟩

theorem occurs_agree {has : T → O → Prop} {strict : Bool} {p : GAtom P O} (c : Cond P V O T) : ∀ {u : Bool} {σ σ' : V → O}, (∀ v ∈ freeVars c, σ v = σ' v) → c.occurs has strict p u σ → c.occurs has strict p u σ' := by
  induction c using Cond.ind with
  | truth => intro u σ σ' _ h; exact h
  | falsity => intro u σ σ' _ h; exact h
  | lit n a => intro u σ σ' hs h; rw [Cond.occurs] at h ⊢; rw [← inst_agree hs]; exact h
  | conj cs ih =>
    intro u σ σ' hs h
    rw [occurs_conj] at h ⊢
    obtain ⟨c, hc, h⟩ := h
    exact ⟨c, hc, ih c hc (fun v hv => hs v (by rw [freeVars_conj]; exact List.mem_flatMap.mpr ⟨c, hc, hv⟩)) h⟩
  | disj cs ih =>
    intro u σ σ' hs h
    rw [occurs_disj] at h ⊢
    obtain ⟨c, hc, h⟩ := h
    exact ⟨c, hc, ih c hc (fun v hv => hs v (by rw [freeVars_disj]; exact List.mem_flatMap.mpr ⟨c, hc, hv⟩)) h⟩
  | all ps b ih =>
    intro u σ σ' hs h
    rw [Cond.occurs] at h ⊢
    obtain ⟨τ, hτ, h⟩ := h
    obtain ⟨τ', h1, h2⟩ := hτ.transfer (σ' := σ') (S := fun v => v ∈ freeVars b) (fun v hv hv' => hs v (mem_freeVars_all.mpr ⟨hv, hv'⟩))
    exact ⟨τ', h1, ih h2 h⟩
  | ex ps b ih =>
    intro u σ σ' hs h
    rw [Cond.occurs] at h ⊢
    obtain ⟨τ, hτ, h⟩ := h
    obtain ⟨τ', h1, h2⟩ := hτ.transfer (σ' := σ') (S := fun v => v ∈ freeVars b) (fun v hv hv' => hs v (mem_freeVars_ex.mpr ⟨hv, hv'⟩))
    exact ⟨τ', h1, ih h2 h⟩

/-- free variables are in scope -/
theorem scoped_iff (c : Cond P V O T) : ∀ {vs : List V}, c.Scoped vs ↔ ∀ v ∈ freeVars c, v ∈ vs := by
  induction c using Cond.ind with
  | truth => intro vs; simp [Cond.Scoped, freeVars]
  | falsity => intro vs; simp [Cond.Scoped, freeVars]
  | lit n a => intro vs; rfl
  | conj cs ih => intro vs; rw [Scoped_conj, freeVars_conj]; simp only [List.mem_flatMap]; exact ⟨fun h v ⟨c, hc, hv⟩ => (ih c hc).mp (h c hc) v hv, fun h c hc => (ih c hc).mpr fun v hv => h v ⟨c, hc, hv⟩⟩
  | disj cs ih => intro vs; rw [Scoped_disj, freeVars_disj]; simp only [List.mem_flatMap]; exact ⟨fun h v ⟨c, hc, hv⟩ => (ih c hc).mp (h c hc) v hv, fun h c hc => (ih c hc).mpr fun v hv => h v ⟨c, hc, hv⟩⟩
  | all ps b ih =>
    intro vs
    rw [Cond.Scoped, ih]
    simp only [mem_freeVars_all, List.mem_append]
    exact ⟨fun h v hv => (h v hv.1).resolve_left hv.2, fun h v hv => or_iff_not_imp_left.mpr fun hn => h v ⟨hv, hn⟩⟩
  | ex ps b ih =>
    intro vs
    rw [Cond.Scoped, ih]
    simp only [mem_freeVars_ex, List.mem_append]
    exact ⟨fun h v hv => (h v hv.1).resolve_left hv.2, fun h v hv => or_iff_not_imp_left.mpr fun hn => h v ⟨hv, hn⟩⟩

end

end Verif.Normalize
