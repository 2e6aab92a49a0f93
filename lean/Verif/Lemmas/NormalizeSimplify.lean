import Verif.Lemmas.PddlCond

/-
Simplification of conditions: same meaning, simplified form.
-/
namespace Verif.Normalize
open Verif.Datalog Verif.Lifted Verif.Pddl
variable {P V O T F : Type}

/-- what a part contributes to a conjunction -/
def conjPiece : Cond P V O T → List (Cond P V O T)
  | .conj qs => qs
  | .truth => []
  | .falsity => []
  | c => [c]

/-- what a part contributes to a disjunction -/
def disjPiece : Cond P V O T → List (Cond P V O T)
  | .disj qs => qs
  | .truth => []
  | .falsity => []
  | c => [c]

theorem conjParts_none : ∀ {cs : List (Cond P V O T)}, conjParts cs = none ↔ .falsity ∈ cs
  | [] => by simp [conjParts]
  | c :: cs => by cases c <;> simp [conjParts, conjParts_none (cs := cs)]

theorem conjParts_some : ∀ {cs ds : List (Cond P V O T)}, conjParts cs = some ds → ds = cs.flatMap conjPiece
  | [], ds, h => by simpa [conjParts] using h.symm
  | c :: cs, ds, h => by
    cases c <;> simp only [conjParts, Option.map_eq_some_iff, reduceCtorEq, List.flatMap_cons, conjPiece, List.nil_append] at h ⊢
    case truth => exact conjParts_some h
    all_goals
      obtain ⟨es, h1, rfl⟩ := h
      rw [conjParts_some h1]
      try rfl

theorem disjParts_none : ∀ {cs : List (Cond P V O T)}, disjParts cs = none ↔ .truth ∈ cs
  | [] => by simp [disjParts]
  | c :: cs => by cases c <;> simp [disjParts, disjParts_none (cs := cs)]

theorem disjParts_some : ∀ {cs ds : List (Cond P V O T)}, disjParts cs = some ds → ds = cs.flatMap disjPiece
  | [], ds, h => by simpa [disjParts] using h.symm
  | c :: cs, ds, h => by
    cases c <;> simp only [disjParts, Option.map_eq_some_iff, reduceCtorEq, List.flatMap_cons, disjPiece, List.nil_append] at h ⊢
    case falsity => exact disjParts_some h
    all_goals
      obtain ⟨es, h1, rfl⟩ := h
      rw [disjParts_some h1]
      try rfl

/-- the result of simplifying a conjunction -/
theorem simplifyConj_cases (cs : List (Cond P V O T)) : (.falsity ∈ cs ∧ simplifyConj cs = .falsity) ∨ (.falsity ∉ cs ∧ (
    (cs.flatMap conjPiece = [] ∧ simplifyConj cs = .truth) ∨ (∃ c, cs.flatMap conjPiece = [c] ∧ simplifyConj cs = c) ∨
    (∃ c d ds, cs.flatMap conjPiece = c :: d :: ds ∧ simplifyConj cs = .conj (c :: d :: ds)))) := by
  cases h : conjParts cs with
  | none => exact .inl ⟨conjParts_none.mp h, by simp only [simplifyConj, h]⟩
  | some ds =>
    have hn : .falsity ∉ cs := fun hf => by rw [conjParts_none.mpr hf] at h; simp at h
    have := conjParts_some h
    subst this
    refine .inr ⟨hn, ?_⟩
    cases h' : cs.flatMap conjPiece with
    | nil => exact .inl ⟨rfl, by simp only [simplifyConj, h, h']⟩
    | cons c l =>
      cases l with
      | nil => exact .inr (.inl ⟨c, rfl, by simp only [simplifyConj, h, h']⟩)
      | cons d ds => exact .inr (.inr ⟨c, d, ds, rfl, by simp only [simplifyConj, h, h']⟩)

/-- the result of simplifying a disjunction -/
theorem simplifyDisj_cases (cs : List (Cond P V O T)) : (.truth ∈ cs ∧ simplifyDisj cs = .truth) ∨ (.truth ∉ cs ∧ (
    (cs.flatMap disjPiece = [] ∧ simplifyDisj cs = .falsity) ∨ (∃ c, cs.flatMap disjPiece = [c] ∧ simplifyDisj cs = c) ∨
    (∃ c d ds, cs.flatMap disjPiece = c :: d :: ds ∧ simplifyDisj cs = .disj (c :: d :: ds)))) := by
  cases h : disjParts cs with
  | none => exact .inl ⟨disjParts_none.mp h, by simp only [simplifyDisj, h]⟩
  | some ds =>
    have hn : .truth ∉ cs := fun hf => by rw [disjParts_none.mpr hf] at h; simp at h
    have := disjParts_some h
    subst this
    refine .inr ⟨hn, ?_⟩
    cases h' : cs.flatMap disjPiece with
    | nil => exact .inl ⟨rfl, by simp only [simplifyDisj, h, h']⟩
    | cons c l =>
      cases l with
      | nil => exact .inr (.inl ⟨c, rfl, by simp only [simplifyDisj, h, h']⟩)
      | cons d ds => exact .inr (.inr ⟨c, d, ds, rfl, by simp only [simplifyDisj, h, h']⟩)

theorem simplifyAll_eq : ∀ {cs : List (Cond P V O T)}, simplifyAll cs = cs.map simplify
  | [] => by simp [simplifyAll]
  | c :: cs => by simp [simplifyAll, simplifyAll_eq (cs := cs)]

theorem simplify_conj {cs : List (Cond P V O T)} : simplify (.conj cs) = simplifyConj (cs.map simplify) := by rw [simplify, simplifyAll_eq]
theorem simplify_disj {cs : List (Cond P V O T)} : simplify (.disj cs) = simplifyDisj (cs.map simplify) := by rw [simplify, simplifyAll_eq]

theorem simplify_all {ps : List (V × T)} {b : Cond P V O T} : ((simplify b).isConst = true ∧ simplify (.all ps b) = simplify b) ∨ ((simplify b).isConst = false ∧ simplify (.all ps b) = .all ps (simplify b)) := by
  rw [simplify]
  cases simplify b <;> simp [Cond.isConst]

theorem simplify_ex {ps : List (V × T)} {b : Cond P V O T} : ((simplify b).isConst = true ∧ simplify (.ex ps b) = simplify b) ∨ ((simplify b).isConst = false ∧ simplify (.ex ps b) = .ex ps (simplify b)) := by
  rw [simplify]
  cases simplify b <;> simp [Cond.isConst]

theorem isConst_iff {c : Cond P V O T} : c.isConst = true ↔ c = .truth ∨ c = .falsity := by cases c <;> simp [Cond.isConst]

/-- a property that conditions have if their parts have it -/
structure Hered (R : Cond P V O T → Prop) : Prop where
  truth : R .truth
  falsity : R .falsity
  conj : ∀ cs, R (.conj cs) ↔ ∀ c ∈ cs, R c
  disj : ∀ cs, R (.disj cs) → (∀ c ∈ cs, R c) ∧ ∀ ds, (∀ d ∈ ds, R d) → R (.disj ds)
  all : ∀ ps b, R (.all ps b) → R b ∧ ∀ c, R c → R (.all ps c)
  ex : ∀ ps b, R (.ex ps b) → R b ∧ ∀ c, R c → R (.ex ps c)

theorem Hered.conjPiece {R : Cond P V O T → Prop} (h : Hered R) {c d : Cond P V O T} (hc : R c) (hd : d ∈ conjPiece c) : R d := by
  cases c with
  | conj qs => exact (h.conj _).mp hc d hd
  | truth => simp [Normalize.conjPiece] at hd
  | falsity => simp [Normalize.conjPiece] at hd
  | lit n a => rw [Normalize.conjPiece, List.mem_singleton] at hd <;> simp_all
  | disj cs => rw [Normalize.conjPiece, List.mem_singleton] at hd <;> simp_all
  | all cs => rw [Normalize.conjPiece, List.mem_singleton] at hd <;> simp_all
  | ex cs => rw [Normalize.conjPiece, List.mem_singleton] at hd <;> simp_all

theorem Hered.disjPiece {R : Cond P V O T → Prop} (h : Hered R) {c d : Cond P V O T} (hc : R c) (hd : d ∈ disjPiece c) : R d := by
  cases c with
  | disj qs => exact (h.disj _ hc).1 d hd
  | truth => simp [Normalize.disjPiece] at hd
  | falsity => simp [Normalize.disjPiece] at hd
  | lit n a => rw [Normalize.disjPiece, List.mem_singleton] at hd <;> simp_all
  | conj cs => rw [Normalize.disjPiece, List.mem_singleton] at hd <;> simp_all
  | all cs => rw [Normalize.disjPiece, List.mem_singleton] at hd <;> simp_all
  | ex cs => rw [Normalize.disjPiece, List.mem_singleton] at hd <;> simp_all

theorem Hered.simplify {R : Cond P V O T → Prop} (h : Hered R) (c : Cond P V O T) : R c → R (simplify c) := by
  induction c using Cond.ind with
  | truth => exact id
  | falsity => exact id
  | lit n a => intro hc; rw [Normalize.simplify]; exact hc
  | conj cs ih =>
    intro hc
    have hp : ∀ d ∈ (cs.map Normalize.simplify).flatMap Normalize.conjPiece, R d := by
      intro d hd
      obtain ⟨c', hc', hd⟩ := List.mem_flatMap.mp hd
      obtain ⟨c, hm, rfl⟩ := List.mem_map.mp hc'
      exact h.conjPiece (ih c hm ((h.conj _).mp hc c hm)) hd
    rw [simplify_conj]
    rcases simplifyConj_cases (cs.map Normalize.simplify) with ⟨_, h2⟩ | ⟨_, ⟨_, h2⟩ | ⟨c, h1, h2⟩ | ⟨c, d, ds, h1, h2⟩⟩
    · rw [h2]; exact h.falsity
    · rw [h2]; exact h.truth
    · rw [h2]; exact hp c (by rw [h1]; simp)
    · rw [h2, h.conj, ← h1]; exact hp
  | disj cs ih =>
    intro hc
    have hp : ∀ d ∈ (cs.map Normalize.simplify).flatMap Normalize.disjPiece, R d := by
      intro d hd
      obtain ⟨c', hc', hd⟩ := List.mem_flatMap.mp hd
      obtain ⟨c, hm, rfl⟩ := List.mem_map.mp hc'
      exact h.disjPiece (ih c hm ((h.disj _ hc).1 c hm)) hd
    rw [simplify_disj]
    rcases simplifyDisj_cases (cs.map Normalize.simplify) with ⟨_, h2⟩ | ⟨_, ⟨_, h2⟩ | ⟨c, h1, h2⟩ | ⟨c, d, ds, h1, h2⟩⟩
    · rw [h2]; exact h.truth
    · rw [h2]; exact h.falsity
    · rw [h2]; exact hp c (by rw [h1]; simp)
    · rw [h2, ← h1]; exact (h.disj _ hc).2 _ hp
  | all ps b ih =>
    intro hc
    obtain ⟨h1, h2⟩ := h.all _ _ hc
    rcases simplify_all (ps := ps) (b := b) with ⟨_, h3⟩ | ⟨_, h3⟩ <;> rw [h3]
    · exact ih h1
    · exact h2 _ (ih h1)
  | ex ps b ih =>
    intro hc
    obtain ⟨h1, h2⟩ := h.ex _ _ hc
    rcases simplify_ex (ps := ps) (b := b) with ⟨_, h3⟩ | ⟨_, h3⟩ <;> rw [h3]
    · exact ih h1
    · exact h2 _ (ih h1)

theorem anyHasAll_eq : ∀ {cs : List (Cond P V O T)}, anyHasAll cs = cs.any hasAll
  | [] => by simp [anyHasAll]
  | c :: cs => by simp [anyHasAll, anyHasAll_eq (cs := cs)]

theorem anyHasEx_eq : ∀ {cs : List (Cond P V O T)}, anyHasEx cs = cs.any hasEx
  | [] => by simp [anyHasEx]
  | c :: cs => by simp [anyHasEx, anyHasEx_eq (cs := cs)]

theorem anyHasDisj_eq : ∀ {cs : List (Cond P V O T)}, anyHasDisj cs = cs.any hasDisj
  | [] => by simp [anyHasDisj]
  | c :: cs => by simp [anyHasDisj, anyHasDisj_eq (cs := cs)]

theorem noAll_conj {cs : List (Cond P V O T)} : hasAll (.conj cs) = false ↔ ∀ c ∈ cs, hasAll c = false := by rw [hasAll, anyHasAll_eq]; simp
theorem noAll_disj {cs : List (Cond P V O T)} : hasAll (.disj cs) = false ↔ ∀ c ∈ cs, hasAll c = false := by rw [hasAll, anyHasAll_eq]; simp
theorem noEx_conj {cs : List (Cond P V O T)} : hasEx (.conj cs) = false ↔ ∀ c ∈ cs, hasEx c = false := by rw [hasEx, anyHasEx_eq]; simp
theorem noEx_disj {cs : List (Cond P V O T)} : hasEx (.disj cs) = false ↔ ∀ c ∈ cs, hasEx c = false := by rw [hasEx, anyHasEx_eq]; simp
theorem noDisj_conj {cs : List (Cond P V O T)} : hasDisj (.conj cs) = false ↔ ∀ c ∈ cs, hasDisj c = false := by rw [hasDisj, anyHasDisj_eq]; simp

theorem hered_all : Hered (fun c : Cond P V O T => hasAll c = false) where
  truth := rfl
  falsity := rfl
  conj _ := noAll_conj
  disj _ h := ⟨noAll_disj.mp h, fun _ => noAll_disj.mpr⟩
  all _ _ h := by simp [hasAll] at h
  ex _ _ h := ⟨by simpa [hasAll] using h, fun _ h => by simpa [hasAll] using h⟩

theorem hered_ex : Hered (fun c : Cond P V O T => hasEx c = false) where
  truth := rfl
  falsity := rfl
  conj _ := noEx_conj
  disj _ h := ⟨noEx_disj.mp h, fun _ => noEx_disj.mpr⟩
  all _ _ h := ⟨by simpa [hasEx] using h, fun _ h => by simpa [hasEx] using h⟩
  ex _ _ h := by simp [hasEx] at h

theorem hered_disj : Hered (fun c : Cond P V O T => hasDisj c = false) where
  truth := rfl
  falsity := rfl
  conj _ := noDisj_conj
  disj _ h := by simp [hasDisj] at h
  all _ _ h := ⟨by simpa [hasDisj] using h, fun _ h => by simpa [hasDisj] using h⟩
  ex _ _ h := ⟨by simpa [hasDisj] using h, fun _ h => by simpa [hasDisj] using h⟩

theorem hered_lits {q : Bool → SymAtom P V O → Prop} : Hered (fun c : Cond P V O T => c.Lits q) where
  truth := trivial
  falsity := trivial
  conj _ := Lits_conj
  disj _ h := ⟨Lits_disj.mp h, fun _ => Lits_disj.mpr⟩
  all _ _ h := ⟨h, fun _ h => h⟩
  ex _ _ h := ⟨h, fun _ h => h⟩

theorem conjPiece_of_not {c : Cond P V O T} (h1 : c.isConj = false) (h2 : c.isConst = false) : conjPiece c = [c] := by cases c <;> simp_all [conjPiece, Cond.isConj, Cond.isConst]
theorem disjPiece_of_not {c : Cond P V O T} (h1 : c.isDisj = false) (h2 : c.isConst = false) : disjPiece c = [c] := by cases c <;> simp_all [disjPiece, Cond.isDisj, Cond.isConst]

theorem conjPiece_flat {c d : Cond P V O T} (hc : c.Flat) (hd : d ∈ conjPiece c) : d.isConj = false ∧ d.isConst = false ∧ d.Flat := by
  cases c with
  | conj qs => exact Flat_conj.mp hc d hd
  | truth => simp [conjPiece] at hd
  | falsity => simp [conjPiece] at hd
  | _ => rw [conjPiece_of_not rfl rfl, List.mem_singleton] at hd; subst hd; exact ⟨rfl, rfl, hc⟩

theorem disjPiece_flat {c d : Cond P V O T} (hc : c.Flat) (hd : d ∈ disjPiece c) : d.isDisj = false ∧ d.isConst = false ∧ d.Flat := by
  cases c with
  | disj qs => exact Flat_disj.mp hc d hd
  | truth => simp [disjPiece] at hd
  | falsity => simp [disjPiece] at hd
  | _ => rw [disjPiece_of_not rfl rfl, List.mem_singleton] at hd; subst hd; exact ⟨rfl, rfl, hc⟩

/-- the result is simplified -/
theorem flat_simplify (c : Cond P V O T) : (simplify c).Flat := by
  induction c using Cond.ind with
  | truth => trivial
  | falsity => trivial
  | lit n a => trivial
  | conj cs ih =>
    have hp : ∀ d ∈ (cs.map simplify).flatMap conjPiece, d.isConj = false ∧ d.isConst = false ∧ d.Flat := by
      intro d hd
      obtain ⟨c', hc', hd⟩ := List.mem_flatMap.mp hd
      obtain ⟨c, hm, rfl⟩ := List.mem_map.mp hc'
      exact conjPiece_flat (ih c hm) hd
    rw [simplify_conj]
    rcases simplifyConj_cases (cs.map simplify) with ⟨_, h2⟩ | ⟨_, ⟨_, h2⟩ | ⟨c, h1, h2⟩ | ⟨c, d, ds, h1, h2⟩⟩
    · rw [h2]; trivial
    · rw [h2]; trivial
    · rw [h2]; exact (hp c (by rw [h1]; simp)).2.2
    · rw [h2, ← h1, Flat_conj]; exact hp
  | disj cs ih =>
    have hp : ∀ d ∈ (cs.map simplify).flatMap disjPiece, d.isDisj = false ∧ d.isConst = false ∧ d.Flat := by
      intro d hd
      obtain ⟨c', hc', hd⟩ := List.mem_flatMap.mp hd
      obtain ⟨c, hm, rfl⟩ := List.mem_map.mp hc'
      exact disjPiece_flat (ih c hm) hd
    rw [simplify_disj]
    rcases simplifyDisj_cases (cs.map simplify) with ⟨_, h2⟩ | ⟨_, ⟨_, h2⟩ | ⟨c, h1, h2⟩ | ⟨c, d, ds, h1, h2⟩⟩
    · rw [h2]; trivial
    · rw [h2]; trivial
    · rw [h2]; exact (hp c (by rw [h1]; simp)).2.2
    · rw [h2, ← h1, Flat_disj]; exact hp
  | all ps b ih => rcases simplify_all (ps := ps) (b := b) with ⟨_, h3⟩ | ⟨_, h3⟩ <;> rw [h3] <;> exact ih
  | ex ps b ih => rcases simplify_ex (ps := ps) (b := b) with ⟨_, h3⟩ | ⟨_, h3⟩ <;> rw [h3] <;> exact ih

theorem conjPiece_trivially {c : Cond P V O T} (h : c ≠ .falsity) : (conjPiece c).all (Cond.trivially true) = c.trivially true ∧ (conjPiece c).any (Cond.trivially false) = c.trivially false := by
  cases c with
  | conj qs => simp [conjPiece, trivially_conj]
  | truth => simp [conjPiece, Cond.trivially]
  | falsity => exact absurd rfl h
  | _ => rw [conjPiece_of_not rfl rfl]; simp

theorem disjPiece_trivially {c : Cond P V O T} (h : c ≠ .truth) : (disjPiece c).any (Cond.trivially true) = c.trivially true ∧ (disjPiece c).all (Cond.trivially false) = c.trivially false := by
  cases c with
  | disj qs => simp [disjPiece, trivially_disj]
  | falsity => simp [disjPiece, Cond.trivially]
  | truth => exact absurd rfl h
  | _ => rw [disjPiece_of_not rfl rfl]; simp

theorem any_flatMap_eq {α β : Type} {f : α → List β} {p : β → Bool} {q : α → Bool} : ∀ {l : List α}, (∀ a ∈ l, (f a).any p = q a) → (l.flatMap f).any p = l.any q
  | [], _ => rfl
  | a :: l, h => by
    rw [List.flatMap_cons, List.any_append, List.any_cons, h a (by simp), any_flatMap_eq fun b hb => h b (by simp [hb])]

theorem all_flatMap_eq {α β : Type} {f : α → List β} {p : β → Bool} {q : α → Bool} : ∀ {l : List α}, (∀ a ∈ l, (f a).all p = q a) → (l.flatMap f).all p = l.all q
  | [], _ => rfl
  | a :: l, h => by
    rw [List.flatMap_cons, List.all_append, List.all_cons, h a (by simp), all_flatMap_eq fun b hb => h b (by simp [hb])]

/-- conditions stay trivial or not -/
theorem trivially_simplify (c : Cond P V O T) : ∀ v, (simplify c).trivially v = c.trivially v := by
  induction c using Cond.ind with
  | truth => intro v; rfl
  | falsity => intro v; rfl
  | lit n a => intro v; rfl
  | conj cs ih =>
    intro v
    have h1 : (cs.map simplify).all (Cond.trivially true) = cs.all (Cond.trivially true) := by
      rw [List.all_map]; exact Bool.eq_iff_iff.mpr (by simp only [List.all_eq_true, Function.comp_def]; exact forall₂_congr fun c hc => by rw [ih c hc])
    have h2 : (cs.map simplify).any (Cond.trivially false) = cs.any (Cond.trivially false) := by
      rw [List.any_map]; exact Bool.eq_iff_iff.mpr (by simp only [List.any_eq_true, Function.comp_def]; exact exists_congr fun c => and_congr_right fun hc => by rw [ih c hc])
    rw [simplify_conj, trivially_conj]
    rcases simplifyConj_cases (cs.map simplify) with ⟨hf, h4⟩ | ⟨hf, h3⟩
    · rw [h4]
      cases v
      · simp only [Cond.trivially, Bool.not_false, Bool.false_eq_true, if_false]
        rw [← h2]
        exact (List.any_eq_true.mpr ⟨_, hf, rfl⟩).symm
      · simp only [Cond.trivially, Bool.not_true, if_true]
        rw [← h1]
        symm
        rw [List.all_eq_false]
        exact ⟨_, hf, by simp [Cond.trivially]⟩
    · have h5 := all_flatMap_eq (l := cs.map simplify) (f := conjPiece) (p := Cond.trivially true) (fun c hc => (conjPiece_trivially (fun h => hf (h ▸ hc))).1)
      have h6 := any_flatMap_eq (l := cs.map simplify) (f := conjPiece) (p := Cond.trivially false) (fun c hc => (conjPiece_trivially (fun h => hf (h ▸ hc))).2)
      rw [h1] at h5
      rw [h2] at h6
      rcases h3 with ⟨h3, h4⟩ | ⟨c, h3, h4⟩ | ⟨c, d, ds, h3, h4⟩
      · rw [h3] at h5 h6
        rw [h4]
        cases v <;> simp [Cond.trivially, ← h5, ← h6]
      · rw [h3] at h5 h6
        rw [h4]
        cases v <;> simp [← h5, ← h6]
      · rw [h4, trivially_conj, ← h3]
        cases v <;> simp [h5, h6]
  | disj cs ih =>
    intro v
    have h1 : (cs.map simplify).all (Cond.trivially false) = cs.all (Cond.trivially false) := by
      rw [List.all_map]; exact Bool.eq_iff_iff.mpr (by simp only [List.all_eq_true, Function.comp_def]; exact forall₂_congr fun c hc => by rw [ih c hc])
    have h2 : (cs.map simplify).any (Cond.trivially true) = cs.any (Cond.trivially true) := by
      rw [List.any_map]; exact Bool.eq_iff_iff.mpr (by simp only [List.any_eq_true, Function.comp_def]; exact exists_congr fun c => and_congr_right fun hc => by rw [ih c hc])
    rw [simplify_disj, trivially_disj]
    rcases simplifyDisj_cases (cs.map simplify) with ⟨hf, h4⟩ | ⟨hf, h3⟩
    · rw [h4]
      cases v
      · simp only [Cond.trivially, Bool.false_eq_true, if_false]
        rw [← h1]
        symm
        rw [List.all_eq_false]
        exact ⟨_, hf, by simp [Cond.trivially]⟩
      · simp only [Cond.trivially, if_true]
        rw [← h2]
        exact (List.any_eq_true.mpr ⟨_, hf, rfl⟩).symm
    · have h5 := all_flatMap_eq (l := cs.map simplify) (f := disjPiece) (p := Cond.trivially false) (fun c hc => (disjPiece_trivially (fun h => hf (h ▸ hc))).2)
      have h6 := any_flatMap_eq (l := cs.map simplify) (f := disjPiece) (p := Cond.trivially true) (fun c hc => (disjPiece_trivially (fun h => hf (h ▸ hc))).1)
      rw [h1] at h5
      rw [h2] at h6
      rcases h3 with ⟨h3, h4⟩ | ⟨c, h3, h4⟩ | ⟨c, d, ds, h3, h4⟩
      · rw [h3] at h5 h6
        rw [h4]
        cases v <;> simp [Cond.trivially, ← h5, ← h6]
      · rw [h3] at h5 h6
        rw [h4]
        cases v <;> simp [← h5, ← h6]
      · rw [h4, trivially_disj, ← h3]
        cases v <;> simp [h5, h6]
  | all ps b ih => intro v; rcases simplify_all (ps := ps) (b := b) with ⟨_, h3⟩ | ⟨_, h3⟩ <;> rw [h3] <;> simp only [Cond.trivially] <;> exact ih v
  | ex ps b ih => intro v; rcases simplify_ex (ps := ps) (b := b) with ⟨_, h3⟩ | ⟨_, h3⟩ <;> rw [h3] <;> simp only [Cond.trivially] <;> exact ih v

theorem proper_simplify {has : T → O → Prop} (c : Cond P V O T) : c.Proper has → (simplify c).Proper has := by
  have hc1 : ∀ c d : Cond P V O T, c.Proper has → d ∈ conjPiece c → d.Proper has := by
    intro c d hc hd
    cases c with
    | conj qs => exact Proper_conj.mp hc d hd
    | truth => simp [conjPiece] at hd
    | falsity => simp [conjPiece] at hd
    | _ => rw [conjPiece_of_not rfl rfl, List.mem_singleton] at hd; subst hd; exact hc
  have hd1 : ∀ c d : Cond P V O T, c.Proper has → d ∈ disjPiece c → d.Proper has := by
    intro c d hc hd
    cases c with
    | disj qs => exact Proper_disj.mp hc d hd
    | truth => simp [disjPiece] at hd
    | falsity => simp [disjPiece] at hd
    | _ => rw [disjPiece_of_not rfl rfl, List.mem_singleton] at hd; subst hd; exact hc
  induction c using Cond.ind with
  | truth => exact id
  | falsity => exact id
  | lit n a => exact id
  | conj cs ih =>
    intro hc
    have hp : ∀ d ∈ (cs.map simplify).flatMap conjPiece, d.Proper has := by
      intro d hd
      obtain ⟨c', hc', hd⟩ := List.mem_flatMap.mp hd
      obtain ⟨c, hm, rfl⟩ := List.mem_map.mp hc'
      exact hc1 _ _ (ih c hm (Proper_conj.mp hc c hm)) hd
    rw [simplify_conj]
    rcases simplifyConj_cases (cs.map simplify) with ⟨_, h2⟩ | ⟨_, ⟨_, h2⟩ | ⟨c, h1, h2⟩ | ⟨c, d, ds, h1, h2⟩⟩
    · rw [h2]; trivial
    · rw [h2]; trivial
    · rw [h2]; exact hp c (by rw [h1]; simp)
    · rw [h2, ← h1, Proper_conj]; exact hp
  | disj cs ih =>
    intro hc
    have hp : ∀ d ∈ (cs.map simplify).flatMap disjPiece, d.Proper has := by
      intro d hd
      obtain ⟨c', hc', hd⟩ := List.mem_flatMap.mp hd
      obtain ⟨c, hm, rfl⟩ := List.mem_map.mp hc'
      exact hd1 _ _ (ih c hm (Proper_disj.mp hc c hm)) hd
    rw [simplify_disj]
    rcases simplifyDisj_cases (cs.map simplify) with ⟨_, h2⟩ | ⟨_, ⟨_, h2⟩ | ⟨c, h1, h2⟩ | ⟨c, d, ds, h1, h2⟩⟩
    · rw [h2]; trivial
    · rw [h2]; trivial
    · rw [h2]; exact hp c (by rw [h1]; simp)
    · rw [h2, ← h1, Proper_disj]; exact hp
  | all ps b ih =>
    intro hc
    rw [Cond.Proper] at hc
    rcases simplify_all (ps := ps) (b := b) with ⟨_, h3⟩ | ⟨_, h3⟩ <;> rw [h3]
    · exact ih hc.2
    · rw [Cond.Proper, trivially_simplify]; exact ⟨hc.1, ih hc.2⟩
  | ex ps b ih =>
    intro hc
    rw [Cond.Proper] at hc
    rcases simplify_ex (ps := ps) (b := b) with ⟨_, h3⟩ | ⟨_, h3⟩ <;> rw [h3]
    · exact ih hc.2
    · rw [Cond.Proper, trivially_simplify]; exact ⟨hc.1, ih hc.2⟩

section
variable {has : T → O → Prop} {under : Bool → GAtom P O → Prop}

theorem sat_conjPiece {ev : Bool → GAtom P O → Prop} {σ : V → O} {c : Cond P V O T} (h : c ≠ .falsity) : (∀ d ∈ conjPiece c, d.sat has ev under σ) ↔ c.sat has ev under σ := by
  cases c with
  | conj qs => rw [sat_conj]; rfl
  | truth => simp [conjPiece, sat_truth]
  | falsity => exact absurd rfl h
  | _ => rw [conjPiece_of_not rfl rfl]; simp

theorem sat_disjPiece {ev : Bool → GAtom P O → Prop} {σ : V → O} {c : Cond P V O T} (h : c ≠ .truth) : (∃ d ∈ disjPiece c, d.sat has ev under σ) ↔ c.sat has ev under σ := by
  cases c with
  | disj qs => rw [sat_disj]; rfl
  | falsity => simp [disjPiece, sat_falsity]
  | truth => exact absurd rfl h
  | _ => rw [disjPiece_of_not rfl rfl]; simp

theorem sat_simplifyConj {ev : Bool → GAtom P O → Prop} {σ : V → O} {cs : List (Cond P V O T)} : (simplifyConj cs).sat has ev under σ ↔ ∀ c ∈ cs, c.sat has ev under σ := by
  rcases simplifyConj_cases cs with ⟨h1, h2⟩ | ⟨hf, h3⟩
  · rw [h2, sat_falsity]
    exact ⟨False.elim, fun h => sat_falsity.mp (h _ h1)⟩
  · have h : (∀ d ∈ cs.flatMap conjPiece, d.sat has ev under σ) ↔ ∀ c ∈ cs, c.sat has ev under σ := by
      simp only [List.mem_flatMap]
      exact ⟨fun h c hc => (sat_conjPiece fun e => hf (e ▸ hc)).mp fun d hd => h d ⟨c, hc, hd⟩, fun h d ⟨c, hc, hd⟩ => (sat_conjPiece fun e => hf (e ▸ hc)).mpr (h c hc) d hd⟩
    rw [← h]
    rcases h3 with ⟨h3, h4⟩ | ⟨c, h3, h4⟩ | ⟨c, d, ds, h3, h4⟩ <;> rw [h3, h4]
    · simp [sat_truth]
    · simp
    · rw [sat_conj]

theorem sat_simplifyDisj {ev : Bool → GAtom P O → Prop} {σ : V → O} {cs : List (Cond P V O T)} : (simplifyDisj cs).sat has ev under σ ↔ ∃ c ∈ cs, c.sat has ev under σ := by
  rcases simplifyDisj_cases cs with ⟨h1, h2⟩ | ⟨hf, h3⟩
  · rw [h2, sat_truth]
    exact ⟨fun _ => ⟨_, h1, sat_truth.mpr trivial⟩, fun _ => trivial⟩
  · have h : (∃ d ∈ cs.flatMap disjPiece, d.sat has ev under σ) ↔ ∃ c ∈ cs, c.sat has ev under σ := by
      simp only [List.mem_flatMap]
      exact ⟨fun ⟨d, ⟨c, hc, hd⟩, h⟩ => ⟨c, hc, (sat_disjPiece fun e => hf (e ▸ hc)).mp ⟨d, hd, h⟩⟩,
        fun ⟨c, hc, h⟩ => let ⟨d, hd, h'⟩ := (sat_disjPiece fun e => hf (e ▸ hc)).mpr h; ⟨d, ⟨c, hc, hd⟩, h'⟩⟩
    rw [← h]
    rcases h3 with ⟨h3, h4⟩ | ⟨c, h3, h4⟩ | ⟨c, d, ds, h3, h4⟩ <;> rw [h3, h4]
    · simp [sat_falsity]
    · simp
    · rw [sat_disj]

/-- simplification keeps the meaning of conditions -/
theorem sat_simplify [DecidableEq V] (c : Cond P V O T) : ∀ {ev : Bool → GAtom P O → Prop} {σ : V → O}, c.Proper has → ((simplify c).sat has ev under σ ↔ c.sat has ev under σ) := by
  induction c using Cond.ind with
  | truth => intros; rfl
  | falsity => intros; rfl
  | lit n a => intros; rfl
  | conj cs ih =>
    intro ev σ hc
    rw [simplify_conj, sat_simplifyConj, sat_conj, List.forall_mem_map]
    exact forall₂_congr fun c hm => ih c hm (Proper_conj.mp hc c hm)
  | disj cs ih =>
    intro ev σ hc
    rw [simplify_disj, sat_simplifyDisj, sat_disj]
    simp only [List.mem_map, exists_exists_and_eq_and]
    exact exists_congr fun c => and_congr_right fun hm => ih c hm (Proper_disj.mp hc c hm)
  | all ps b ih =>
    intro ev σ hc
    rw [Cond.Proper] at hc
    rw [sat_all]
    rcases simplify_all (ps := ps) (b := b) with ⟨h2, h3⟩ | ⟨_, h3⟩ <;> rw [h3]
    · rcases isConst_iff.mp h2 with h | h <;> rw [h]
      · rw [sat_truth]
        exact ⟨fun _ τ _ => (ih hc.2).mp (by rw [h, sat_truth]; trivial), fun _ => trivial⟩
      · rw [sat_falsity]
        refine ⟨False.elim, fun h' => ?_⟩
        have ht : b.trivially false = true := by rw [← trivially_simplify, h]; rfl
        obtain ⟨τ, hτ⟩ := Ext.exists (hc.1.resolve_right (by simp [ht])) σ
        have := (ih hc.2).mpr (h' τ hτ)
        rwa [h, sat_falsity] at this
    · rw [sat_all]
      exact forall₂_congr fun τ _ => ih hc.2
  | ex ps b ih =>
    intro ev σ hc
    rw [Cond.Proper] at hc
    rw [sat_ex]
    rcases simplify_ex (ps := ps) (b := b) with ⟨h2, h3⟩ | ⟨_, h3⟩ <;> rw [h3]
    · rcases isConst_iff.mp h2 with h | h <;> rw [h]
      · rw [sat_truth]
        refine ⟨fun _ => ?_, fun _ => trivial⟩
        have ht : b.trivially true = true := by rw [← trivially_simplify, h]; rfl
        obtain ⟨τ, hτ⟩ := Ext.exists (hc.1.resolve_right (by simp [ht])) σ
        exact ⟨τ, hτ, (ih hc.2).mp (by rw [h, sat_truth]; trivial)⟩
      · rw [sat_falsity]
        refine ⟨False.elim, fun ⟨τ, _, h'⟩ => ?_⟩
        have := (ih hc.2).mpr h'
        rwa [h, sat_falsity] at this
    · rw [sat_ex]
      exact exists_congr fun τ => and_congr_right fun _ => ih hc.2

end

/-- no new quantified variables -/
theorem bound_simplify (c : Cond P V O T) : (simplify c).bound.Sublist c.bound := by
  have hc1 : ∀ c : Cond P V O T, ((conjPiece c).flatMap Cond.bound).Sublist c.bound := by
    intro c
    cases c with
    | conj qs => rw [bound_conj]; exact .refl _
    | truth => simp [conjPiece]
    | falsity => simp [conjPiece]
    | _ => rw [conjPiece_of_not rfl rfl]; simp
  have hd1 : ∀ c : Cond P V O T, ((disjPiece c).flatMap Cond.bound).Sublist c.bound := by
    intro c
    cases c with
    | disj qs => rw [bound_disj]; exact .refl _
    | truth => simp [disjPiece]
    | falsity => simp [disjPiece]
    | _ => rw [disjPiece_of_not rfl rfl]; simp
  have hg : ∀ (f : Cond P V O T → List (Cond P V O T)), (∀ c, ((f c).flatMap Cond.bound).Sublist c.bound) → ∀ cs : List (Cond P V O T), (∀ c ∈ cs, (simplify c).bound.Sublist c.bound) →
      (((cs.map simplify).flatMap f).flatMap Cond.bound).Sublist (cs.flatMap Cond.bound) := by
    intro f hf cs
    induction cs with
    | nil => intro _; simp
    | cons c cs ih =>
      intro h
      simp only [List.map_cons, List.flatMap_cons, List.flatMap_append]
      exact ((hf _).trans (h c (by simp))).append (ih fun d hd => h d (by simp [hd]))
  induction c using Cond.ind with
  | truth => exact .refl _
  | falsity => exact .refl _
  | lit n a => exact .refl _
  | conj cs ih =>
    have h := hg _ hc1 cs ih
    rw [simplify_conj, bound_conj]
    rcases simplifyConj_cases (cs.map simplify) with ⟨_, h2⟩ | ⟨_, ⟨_, h2⟩ | ⟨c, h1, h2⟩ | ⟨c, d, ds, h1, h2⟩⟩
    · rw [h2]; simp [Cond.bound]
    · rw [h2]; simp [Cond.bound]
    · rw [h2]; simpa [h1] using h
    · rw [h2, bound_conj, ← h1]; exact h
  | disj cs ih =>
    have h := hg _ hd1 cs ih
    rw [simplify_disj, bound_disj]
    rcases simplifyDisj_cases (cs.map simplify) with ⟨_, h2⟩ | ⟨_, ⟨_, h2⟩ | ⟨c, h1, h2⟩ | ⟨c, d, ds, h1, h2⟩⟩
    · rw [h2]; simp [Cond.bound]
    · rw [h2]; simp [Cond.bound]
    · rw [h2]; simpa [h1] using h
    · rw [h2, bound_disj, ← h1]; exact h
  | all ps b ih =>
    rcases simplify_all (ps := ps) (b := b) with ⟨_, h3⟩ | ⟨_, h3⟩ <;> rw [h3]
    · exact ih.trans (by rw [Cond.bound]; exact List.sublist_append_right _ _)
    · rw [Cond.bound, Cond.bound]; exact ih.append_left _
  | ex ps b ih =>
    rcases simplify_ex (ps := ps) (b := b) with ⟨_, h3⟩ | ⟨_, h3⟩ <;> rw [h3]
    · exact ih.trans (by rw [Cond.bound]; exact List.sublist_append_right _ _)
    · rw [Cond.bound, Cond.bound]; exact ih.append_left _

/-- all variables stay in scope -/
theorem scoped_simplify (c : Cond P V O T) : ∀ {vs : List V}, c.Scoped vs → (simplify c).Scoped vs := by
  have hc1 : ∀ (c d : Cond P V O T) (vs : List V), c.Scoped vs → d ∈ conjPiece c → d.Scoped vs := by
    intro c d vs hc hd
    cases c with
    | conj qs => exact Scoped_conj.mp hc d hd
    | truth => simp [conjPiece] at hd
    | falsity => simp [conjPiece] at hd
    | _ => rw [conjPiece_of_not rfl rfl, List.mem_singleton] at hd; subst hd; exact hc
  have hd1 : ∀ (c d : Cond P V O T) (vs : List V), c.Scoped vs → d ∈ disjPiece c → d.Scoped vs := by
    intro c d vs hc hd
    cases c with
    | disj qs => exact Scoped_disj.mp hc d hd
    | truth => simp [disjPiece] at hd
    | falsity => simp [disjPiece] at hd
    | _ => rw [disjPiece_of_not rfl rfl, List.mem_singleton] at hd; subst hd; exact hc
  induction c using Cond.ind with
  | truth => intro vs; exact id
  | falsity => intro vs; exact id
  | lit n a => intro vs; exact id
  | conj cs ih =>
    intro vs hc
    have hp : ∀ d ∈ (cs.map simplify).flatMap conjPiece, d.Scoped vs := by
      intro d hd
      obtain ⟨c', hc', hd⟩ := List.mem_flatMap.mp hd
      obtain ⟨c, hm, rfl⟩ := List.mem_map.mp hc'
      exact hc1 _ _ _ (ih c hm (Scoped_conj.mp hc c hm)) hd
    rw [simplify_conj]
    rcases simplifyConj_cases (cs.map simplify) with ⟨_, h2⟩ | ⟨_, ⟨_, h2⟩ | ⟨c, h1, h2⟩ | ⟨c, d, ds, h1, h2⟩⟩
    · rw [h2]; trivial
    · rw [h2]; trivial
    · rw [h2]; exact hp c (by rw [h1]; simp)
    · rw [h2, ← h1, Scoped_conj]; exact hp
  | disj cs ih =>
    intro vs hc
    have hp : ∀ d ∈ (cs.map simplify).flatMap disjPiece, d.Scoped vs := by
      intro d hd
      obtain ⟨c', hc', hd⟩ := List.mem_flatMap.mp hd
      obtain ⟨c, hm, rfl⟩ := List.mem_map.mp hc'
      exact hd1 _ _ _ (ih c hm (Scoped_disj.mp hc c hm)) hd
    rw [simplify_disj]
    rcases simplifyDisj_cases (cs.map simplify) with ⟨_, h2⟩ | ⟨_, ⟨_, h2⟩ | ⟨c, h1, h2⟩ | ⟨c, d, ds, h1, h2⟩⟩
    · rw [h2]; trivial
    · rw [h2]; trivial
    · rw [h2]; exact hp c (by rw [h1]; simp)
    · rw [h2, ← h1, Scoped_disj]; exact hp
  | all ps b ih =>
    intro vs hc
    rcases simplify_all (ps := ps) (b := b) with ⟨h2, h3⟩ | ⟨_, h3⟩ <;> rw [h3]
    · rcases isConst_iff.mp h2 with h | h <;> rw [h] <;> trivial
    · rw [Cond.Scoped] at hc ⊢; exact ih hc
  | ex ps b ih =>
    intro vs hc
    rcases simplify_ex (ps := ps) (b := b) with ⟨h2, h3⟩ | ⟨_, h3⟩ <;> rw [h3]
    · rcases isConst_iff.mp h2 with h | h <;> rw [h] <;> trivial
    · rw [Cond.Scoped] at hc ⊢; exact ih hc

end Verif.Normalize
