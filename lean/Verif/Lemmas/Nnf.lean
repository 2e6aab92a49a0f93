import Verif.Lemmas.UniquifyCond

/-
Negation normal form of PDDL formulas.
-/
namespace Verif.Uniquify
open Verif.Datalog Verif.Lifted Verif.Pddl
open Verif.Normalize (freeVars freeVars_conj freeVars_disj mem_freeVars_all mem_freeVars_ex)
variable {P V O T : Type}

theorem nnfs_eq {neg : Bool} : ∀ {fs : List (Formula P V O T)}, nnfs neg fs = fs.map (nnf neg)
  | [] => by simp [nnfs]
  | f :: fs => by simp [nnfs, nnfs_eq (fs := fs)]

theorem holdsAll_iff {has : T → O → Prop} {s : GAtom P O → Prop} {σ : V → O} : ∀ {fs : List (Formula P V O T)}, holdsAll has s σ fs ↔ ∀ f ∈ fs, f.holds has s σ
  | [] => by simp [holdsAll]
  | f :: fs => by simp [holdsAll, holdsAll_iff (fs := fs)]

theorem holdsSome_iff {has : T → O → Prop} {s : GAtom P O → Prop} {σ : V → O} : ∀ {fs : List (Formula P V O T)}, holdsSome has s σ fs ↔ ∃ f ∈ fs, f.holds has s σ
  | [] => by simp [holdsSome]
  | f :: fs => by simp [holdsSome, holdsSome_iff (fs := fs)]

theorem freeAny_iff {v : V} : ∀ {fs : List (Formula P V O T)}, FreeAny v fs ↔ ∃ f ∈ fs, f.Free v
  | [] => by simp [FreeAny]
  | f :: fs => by simp [FreeAny, freeAny_iff (fs := fs)]

theorem quantifiersAll_eq : ∀ {fs : List (Formula P V O T)}, quantifiersAll fs = fs.flatMap Formula.quantifiers
  | [] => by simp [quantifiersAll]
  | f :: fs => by simp [quantifiersAll, quantifiersAll_eq (fs := fs)]

/-- induction over formulas -/
theorem Formula.ind {R : Formula P V O T → Prop} (atom : ∀ a, R (.atom a)) (not : ∀ f, R f → R (.not f)) (and : ∀ fs, (∀ f ∈ fs, R f) → R (.and fs)) (or : ∀ fs, (∀ f ∈ fs, R f) → R (.or fs))
    (imply : ∀ f g, R f → R g → R (.imply f g)) (all : ∀ ps f, R f → R (.forall_ ps f)) (ex : ∀ ps f, R f → R (.exists_ ps f)) (f : Formula P V O T) : R f := by
  refine Formula.rec (motive_1 := R) (motive_2 := fun fs => ∀ f ∈ fs, R f) atom not and or imply all ex (by simp) (fun f fs h1 h2 g hg => ?_) f
  rcases List.mem_cons.mp hg with rfl | hg
  · exact h1
  · exact h2 g hg

theorem nnf_holds (has : T → O → Prop) (s : GAtom P O → Prop) (f : Formula P V O T) : ∀ (neg : Bool) (σ : V → O), (nnf neg f).holds has s σ ↔ if neg then ¬ f.holds has s σ else f.holds has s σ := by
  induction f using Formula.ind with
  | atom a => intro neg σ; simp only [nnf, Cond.holds, Cond.sat, lits, Formula.holds]
  | not f ih =>
    intro neg σ
    rw [nnf, ih]
    cases neg <;> simp [Formula.holds]
  | and fs ih =>
    intro neg σ
    cases neg
    · simp only [nnf, Bool.false_eq_true, if_false, nnfs_eq, Cond.holds, sat_conj, List.forall_mem_map, Formula.holds, holdsAll_iff]
      exact forall₂_congr fun f hf => by simpa [Cond.holds] using ih f hf false σ
    · simp only [nnf, if_true, nnfs_eq, Cond.holds, sat_disj, List.mem_map, exists_exists_and_eq_and, Formula.holds, holdsAll_iff]
      push Not
      exact exists_congr fun f => and_congr_right fun hf => by simpa [Cond.holds] using ih f hf true σ
  | or fs ih =>
    intro neg σ
    cases neg
    · simp only [nnf, Bool.false_eq_true, if_false, nnfs_eq, Cond.holds, sat_disj, List.mem_map, exists_exists_and_eq_and, Formula.holds, holdsSome_iff]
      exact exists_congr fun f => and_congr_right fun hf => by simpa [Cond.holds] using ih f hf false σ
    · simp only [nnf, if_true, nnfs_eq, Cond.holds, sat_conj, List.forall_mem_map, Formula.holds, holdsSome_iff]
      push Not
      exact forall₂_congr fun f hf => by simpa [Cond.holds] using ih f hf true σ
  | imply f g ih1 ih2 =>
    intro neg σ
    have h1 := ih1 (!neg) σ
    have h2 := ih2 neg σ
    unfold Cond.holds at h1 h2 ⊢
    cases neg
    · simp only [nnf, Bool.false_eq_true, if_false, sat_disj, Formula.holds, Bool.not_false, if_true, List.mem_cons, List.not_mem_nil, or_false, exists_eq_or_imp, exists_eq_left] at h1 h2 ⊢
      rw [h1, h2]
      tauto
    · simp only [nnf, Bool.false_eq_true, if_false, sat_conj, Formula.holds, Bool.not_true, if_true, List.mem_cons, List.not_mem_nil, or_false, forall_eq_or_imp, forall_eq] at h1 h2 ⊢
      rw [h1, h2]
      tauto
  | all ps f ih =>
    intro neg σ
    cases neg
    · simp only [nnf, Bool.false_eq_true, if_false, Cond.holds, sat_all, Formula.holds]
      exact forall₂_congr fun τ _ => by simpa [Cond.holds] using ih false τ
    · simp only [nnf, if_true, Cond.holds, sat_ex, Formula.holds]
      push Not
      exact exists_congr fun τ => and_congr_right fun _ => by simpa [Cond.holds] using ih true τ
  | ex ps f ih =>
    intro neg σ
    cases neg
    · simp only [nnf, Bool.false_eq_true, if_false, Cond.holds, sat_ex, Formula.holds]
      exact exists_congr fun τ => and_congr_right fun _ => by simpa [Cond.holds] using ih false τ
    · simp only [nnf, if_true, Cond.holds, sat_all, Formula.holds]
      push Not
      exact forall₂_congr fun τ _ => by simpa [Cond.holds] using ih true τ

theorem nnf_bound (f : Formula P V O T) : ∀ neg : Bool, (nnf neg f).bound = f.quantifiers.flatten := by
  have hl : ∀ (neg : Bool) (fs : List (Formula P V O T)), (∀ f ∈ fs, ∀ neg : Bool, (nnf neg f).bound = f.quantifiers.flatten) → (fs.map (nnf neg)).flatMap Cond.bound = (fs.flatMap Formula.quantifiers).flatten := by
    intro neg fs
    induction fs with
    | nil => simp
    | cons f fs ih => intro h; simp [h f List.mem_cons_self neg, ih fun g hg => h g (List.mem_cons_of_mem _ hg)]
  induction f using Formula.ind with
  | atom a => simp [nnf, Cond.bound, Formula.quantifiers]
  | not f ih => intro neg; rw [nnf, ih, Formula.quantifiers]
  | and fs ih => intro neg; cases neg <;> simp only [nnf, Bool.false_eq_true, if_false, if_true, bound_conj, bound_disj, nnfs_eq, Formula.quantifiers, quantifiersAll_eq] <;> exact hl _ _ ih
  | or fs ih => intro neg; cases neg <;> simp only [nnf, Bool.false_eq_true, if_false, if_true, bound_conj, bound_disj, nnfs_eq, Formula.quantifiers, quantifiersAll_eq] <;> exact hl _ _ ih
  | imply f g h1 h2 => intro neg; cases neg <;> simp [nnf, bound_conj, bound_disj, Formula.quantifiers, h1, h2]
  | all ps f ih => intro neg; cases neg <;> simp [nnf, Cond.bound, Formula.quantifiers, ih]
  | ex ps f ih => intro neg; cases neg <;> simp [nnf, Cond.bound, Formula.quantifiers, ih]

theorem nnf_distinct (f : Formula P V O T) : ∀ neg : Bool, (∀ ps ∈ f.quantifiers, (names ps).Nodup) → (nnf neg f).Distinct := by
  induction f using Formula.ind with
  | atom a => intro neg _; simp [nnf, Cond.Distinct]
  | not f ih => intro neg h; rw [nnf]; exact ih _ h
  | and fs ih =>
    intro neg h
    rw [Formula.quantifiers, quantifiersAll_eq] at h
    have : ∀ f ∈ fs, (nnf neg f).Distinct := fun f hf => ih f hf neg fun ps hps => h ps (List.mem_flatMap.mpr ⟨f, hf, hps⟩)
    cases neg <;> simpa [nnf, Distinct_conj, Distinct_disj, nnfs_eq] using this
  | or fs ih =>
    intro neg h
    rw [Formula.quantifiers, quantifiersAll_eq] at h
    have : ∀ f ∈ fs, (nnf neg f).Distinct := fun f hf => ih f hf neg fun ps hps => h ps (List.mem_flatMap.mpr ⟨f, hf, hps⟩)
    cases neg <;> simpa [nnf, Distinct_conj, Distinct_disj, nnfs_eq] using this
  | imply f g ih1 ih2 =>
    intro neg h
    rw [Formula.quantifiers, List.forall_mem_append] at h
    have h1 := ih1 (!neg) h.1
    have h2 := ih2 neg h.2
    cases neg <;> simpa [nnf, Distinct_conj, Distinct_disj] using And.intro h1 h2
  | all ps f ih =>
    intro neg h
    rw [Formula.quantifiers, List.forall_mem_cons] at h
    have := ih neg h.2
    cases neg <;> simpa [nnf, Cond.Distinct] using And.intro h.1 this
  | ex ps f ih =>
    intro neg h
    rw [Formula.quantifiers, List.forall_mem_cons] at h
    have := ih neg h.2
    cases neg <;> simpa [nnf, Cond.Distinct] using And.intro h.1 this

theorem nnf_proper {has : T → O → Prop} (f : Formula P V O T) : ∀ neg : Bool, (∀ ps ∈ f.quantifiers, ∃ τ : V → O, ∀ p ∈ ps, has p.2 (τ p.1)) → (nnf neg f).Proper has := by
  induction f using Formula.ind with
  | atom a => intro neg _; simp [nnf, Cond.Proper]
  | not f ih => intro neg h; rw [nnf]; exact ih _ h
  | and fs ih =>
    intro neg h
    rw [Formula.quantifiers, quantifiersAll_eq] at h
    have : ∀ f ∈ fs, (nnf neg f).Proper has := fun f hf => ih f hf neg fun ps hps => h ps (List.mem_flatMap.mpr ⟨f, hf, hps⟩)
    cases neg <;> simpa [nnf, Proper_conj, Proper_disj, nnfs_eq] using this
  | or fs ih =>
    intro neg h
    rw [Formula.quantifiers, quantifiersAll_eq] at h
    have : ∀ f ∈ fs, (nnf neg f).Proper has := fun f hf => ih f hf neg fun ps hps => h ps (List.mem_flatMap.mpr ⟨f, hf, hps⟩)
    cases neg <;> simpa [nnf, Proper_conj, Proper_disj, nnfs_eq] using this
  | imply f g ih1 ih2 =>
    intro neg h
    rw [Formula.quantifiers, List.forall_mem_append] at h
    have h1 := ih1 (!neg) h.1
    have h2 := ih2 neg h.2
    cases neg <;> simpa [nnf, Proper_conj, Proper_disj] using And.intro h1 h2
  | all ps f ih =>
    intro neg h
    rw [Formula.quantifiers, List.forall_mem_cons] at h
    have := ih neg h.2
    cases neg
    · simp only [nnf, Bool.false_eq_true, if_false, Cond.Proper]; exact ⟨.inl h.1, this⟩
    · simp only [nnf, if_true, Cond.Proper]; exact ⟨.inl h.1, this⟩
  | ex ps f ih =>
    intro neg h
    rw [Formula.quantifiers, List.forall_mem_cons] at h
    have := ih neg h.2
    cases neg
    · simp only [nnf, Bool.false_eq_true, if_false, Cond.Proper]; exact ⟨.inl h.1, this⟩
    · simp only [nnf, if_true, Cond.Proper]; exact ⟨.inl h.1, this⟩

theorem nnf_free [DecidableEq V] {v : V} (f : Formula P V O T) : ∀ neg : Bool, v ∈ freeVars (nnf neg f) ↔ f.Free v := by
  induction f using Formula.ind with
  | atom a => intro neg; simp [nnf, freeVars, Formula.Free]
  | not f ih => intro neg; rw [nnf, Formula.Free]; exact ih _
  | and fs ih =>
    intro neg
    have : (∃ f ∈ fs, v ∈ freeVars (nnf neg f)) ↔ ∃ f ∈ fs, f.Free v := exists_congr fun f => and_congr_right fun hf => ih f hf neg
    rw [Formula.Free, freeAny_iff, ← this]
    cases neg <;> simp [nnf, freeVars_conj, freeVars_disj, nnfs_eq]
  | or fs ih =>
    intro neg
    have : (∃ f ∈ fs, v ∈ freeVars (nnf neg f)) ↔ ∃ f ∈ fs, f.Free v := exists_congr fun f => and_congr_right fun hf => ih f hf neg
    rw [Formula.Free, freeAny_iff, ← this]
    cases neg <;> simp [nnf, freeVars_conj, freeVars_disj, nnfs_eq]
  | imply f g h1 h2 => intro neg; cases neg <;> simp [nnf, freeVars_conj, freeVars_disj, Formula.Free, h1, h2]
  | all ps f ih => intro neg; cases neg <;> simp [nnf, mem_freeVars_all, mem_freeVars_ex, Formula.Free, ih, and_comm]
  | ex ps f ih => intro neg; cases neg <;> simp [nnf, mem_freeVars_all, mem_freeVars_ex, Formula.Free, ih, and_comm]

end Verif.Uniquify
