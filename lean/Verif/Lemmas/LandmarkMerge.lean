import Verif.Lemmas.LandmarkGraphs
import Verif.Spec.LandmarkMerge

/-
Merging landmark graphs.
-/
namespace Verif.Landmarks
variable {t : Task}

/-! ### Orderings as a relation -/

def Edge (g : Graph) (i j : Nat) (ty : OrderingType) : Prop := ∃ n, g[i]? = some n ∧ (j, ty) ∈ n.children
def EdgeP (g : Graph) (i j : Nat) (ty : OrderingType) : Prop := ∃ n, g[j]? = some n ∧ (i, ty) ∈ n.parents

/-- the orderings are stored consistently -/
structure MInv (g : Graph) : Prop where
  sym : ∀ i j ty, Edge g i j ty ↔ EdgeP g i j ty
  uniq : ∀ i j ty ty', Edge g i j ty → Edge g i j ty' → ty = ty'

theorem get_modify_iff {g : Graph} {k i : Nat} {F : Node → Node} {n : Node} : (g.modify k F)[i]? = some n ↔ ∃ n0, g[i]? = some n0 ∧ n = if k = i then F n0 else n0 := by
  rw [List.getElem?_modify]
  cases hi : g[i]? with
  | none => simp
  | some n0 =>
    by_cases hk : k = i
    · simp [hk, eq_comm]
    · simp [hk, eq_comm]

theorem edge_modify_keep {g : Graph} {k : Nat} {F : Node → Node} (hF : ∀ n, (F n).children = n.children) (i j : Nat) (ty : OrderingType) : Edge (g.modify k F) i j ty ↔ Edge g i j ty := by
  unfold Edge
  simp only [get_modify_iff]
  constructor
  · rintro ⟨n, ⟨n0, h0, rfl⟩, h⟩
    refine ⟨n0, h0, ?_⟩
    split at h
    · rwa [hF] at h
    · exact h
  · rintro ⟨n0, h0, h⟩
    refine ⟨_, ⟨n0, h0, rfl⟩, ?_⟩
    split
    · rwa [hF]
    · exact h

theorem edgeP_modify_keep {g : Graph} {k : Nat} {F : Node → Node} (hF : ∀ n, (F n).parents = n.parents) (i j : Nat) (ty : OrderingType) : EdgeP (g.modify k F) i j ty ↔ EdgeP g i j ty := by
  unfold EdgeP
  simp only [get_modify_iff]
  constructor
  · rintro ⟨n, ⟨n0, h0, rfl⟩, h⟩
    refine ⟨n0, h0, ?_⟩
    split at h
    · rwa [hF] at h
    · exact h
  · rintro ⟨n0, h0, h⟩
    refine ⟨_, ⟨n0, h0, rfl⟩, ?_⟩
    split
    · rwa [hF]
    · exact h

theorem edge_insert {g : Graph} {s d : Nat} {ty : OrderingType} (hs : s < g.length) (i j : Nat) (ty' : OrderingType) : Edge (insertOrdering g s d ty) i j ty' ↔ Edge g i j ty' ∨ (i = s ∧ j = d ∧ ty' = ty) := by
  unfold insertOrdering
  rw [edge_modify_keep (by intro n; rfl)]
  unfold Edge
  simp only [get_modify_iff]
  constructor
  · rintro ⟨n, ⟨n0, h0, rfl⟩, h⟩
    split at h
    · rename_i hk
      rcases List.mem_append.mp h with h | h
      · exact Or.inl ⟨n0, h0, h⟩
      · simp only [List.mem_singleton, Prod.mk.injEq] at h
        exact Or.inr ⟨hk.symm, h.1, h.2⟩
    · exact Or.inl ⟨n0, h0, h⟩
  · rintro (⟨n0, h0, h⟩ | ⟨rfl, rfl, rfl⟩)
    · refine ⟨_, ⟨n0, h0, rfl⟩, ?_⟩
      split
      · exact List.mem_append_left _ h
      · exact h
    · exact ⟨_, ⟨_, List.getElem?_eq_getElem hs, rfl⟩, by simp⟩

theorem edgeP_insert {g : Graph} {s d : Nat} {ty : OrderingType} (hd : d < g.length) (i j : Nat) (ty' : OrderingType) : EdgeP (insertOrdering g s d ty) i j ty' ↔ EdgeP g i j ty' ∨ (i = s ∧ j = d ∧ ty' = ty) := by
  unfold insertOrdering
  have hd' : d < (g.modify s (fun n => { n with children := n.children ++ [(d, ty)] })).length := by simpa using hd
  rw [← edgeP_modify_keep (g := g) (k := s) (F := fun n => { n with children := n.children ++ [(d, ty)] }) (fun _ => rfl) i j ty']
  unfold EdgeP
  simp only [get_modify_iff (k := d)]
  constructor
  · rintro ⟨n, ⟨n0, h0, rfl⟩, h⟩
    split at h
    · rename_i hk
      rcases List.mem_append.mp h with h | h
      · exact Or.inl ⟨n0, h0, h⟩
      · simp only [List.mem_singleton, Prod.mk.injEq] at h
        exact Or.inr ⟨h.1, hk.symm, h.2⟩
    · exact Or.inl ⟨n0, h0, h⟩
  · rintro (⟨n0, h0, h⟩ | ⟨rfl, rfl, rfl⟩)
    · refine ⟨_, ⟨n0, h0, rfl⟩, ?_⟩
      split
      · exact List.mem_append_left _ h
      · exact h
    · exact ⟨_, ⟨_, List.getElem?_eq_getElem hd', rfl⟩, by simp⟩

theorem edge_remove {g : Graph} {s d : Nat} (i j : Nat) (ty : OrderingType) : Edge (removeOrdering g s d) i j ty ↔ Edge g i j ty ∧ ¬(i = s ∧ j = d) := by
  unfold removeOrdering
  rw [edge_modify_keep (by intro n; rfl)]
  unfold Edge
  simp only [get_modify_iff]
  constructor
  · rintro ⟨n, ⟨n0, h0, rfl⟩, h⟩
    split at h
    · rename_i hk
      simp only [List.mem_filter, bne_iff_ne, ne_eq] at h
      exact ⟨⟨n0, h0, h.1⟩, fun hc => h.2 hc.2⟩
    · rename_i hk
      exact ⟨⟨n0, h0, h⟩, fun hc => hk hc.1.symm⟩
  · rintro ⟨⟨n0, h0, h⟩, hne⟩
    refine ⟨_, ⟨n0, h0, rfl⟩, ?_⟩
    split
    · rename_i hk
      simp only [List.mem_filter, bne_iff_ne, ne_eq]
      exact ⟨h, fun hc => hne ⟨hk.symm, hc⟩⟩
    · exact h

theorem edgeP_remove {g : Graph} {s d : Nat} (i j : Nat) (ty : OrderingType) : EdgeP (removeOrdering g s d) i j ty ↔ EdgeP g i j ty ∧ ¬(i = s ∧ j = d) := by
  unfold removeOrdering
  rw [← edgeP_modify_keep (g := g) (k := s) (F := fun n => { n with children := n.children.filter (fun x => x.1 != d) }) (fun _ => rfl) i j ty]
  unfold EdgeP
  simp only [get_modify_iff (k := d)]
  constructor
  · rintro ⟨n, ⟨n0, h0, rfl⟩, h⟩
    split at h
    · rename_i hk
      simp only [List.mem_filter, bne_iff_ne, ne_eq] at h
      exact ⟨⟨n0, h0, h.1⟩, fun hc => h.2 hc.1⟩
    · rename_i hk
      exact ⟨⟨n0, h0, h⟩, fun hc => hk hc.2.symm⟩
  · rintro ⟨⟨n0, h0, h⟩, hne⟩
    refine ⟨_, ⟨n0, h0, rfl⟩, ?_⟩
    split
    · rename_i hk
      simp only [List.mem_filter, bne_iff_ne, ne_eq]
      exact ⟨h, fun hc => hne ⟨hc, hk.symm⟩⟩
    · exact h

theorem landmarks_modify {g : Graph} {k : Nat} {F : Node → Node} (hF : ∀ n, (F n).landmark = n.landmark) : (g.modify k F).map (·.landmark) = g.map (·.landmark) := by
  refine List.ext_getElem? (fun i => ?_)
  rw [List.getElem?_map, List.getElem?_map, List.getElem?_modify]
  cases g[i]? with
  | none => rfl
  | some n =>
    by_cases hk : k = i
    · simp [hk, hF]
    · simp [hk]

theorem landmarks_insert {g : Graph} {s d : Nat} {ty : OrderingType} : (insertOrdering g s d ty).map (·.landmark) = g.map (·.landmark) := by
  unfold insertOrdering
  rw [landmarks_modify (by intro n; rfl), landmarks_modify (by intro n; rfl)]

theorem landmarks_remove {g : Graph} {s d : Nat} : (removeOrdering g s d).map (·.landmark) = g.map (·.landmark) := by
  unfold removeOrdering
  rw [landmarks_modify (by intro n; rfl), landmarks_modify (by intro n; rfl)]

theorem rank_eq (ty : OrderingType) : ty.strength = ty.rank := by cases ty <;> rfl

theorem rank_inj {a b : OrderingType} (h : a.rank = b.rank) : a = b := by cases a <;> cases b <;> first | rfl | cases h

theorem MInv.lookup (h : MInv g) {i j : Nat} {a : Node} (ha : g[i]? = some a) (ty : OrderingType) : lookupOrdering a.children j = some ty ↔ Edge g i j ty := by
  constructor
  · intro hl
    exact ⟨a, ha, lookup_mem hl⟩
  · rintro ⟨n, hn, hm⟩
    rw [ha] at hn
    cases hn
    cases hl : lookupOrdering a.children j with
    | none => exact absurd hm (lookup_none.mp hl ty)
    | some ty' => rw [h.uniq i j ty' ty ⟨a, ha, lookup_mem hl⟩ ⟨a, ha, hm⟩]

theorem MInv.lookupP (h : MInv g) {i j : Nat} {b : Node} (hb : g[j]? = some b) (ty : OrderingType) : lookupOrdering b.parents i = some ty ↔ Edge g i j ty := by
  rw [h.sym]
  constructor
  · intro hl
    exact ⟨b, hb, lookup_mem hl⟩
  · rintro ⟨n, hn, hm⟩
    rw [hb] at hn
    cases hn
    cases hl : lookupOrdering b.parents i with
    | none => exact absurd hm (lookup_none.mp hl ty)
    | some ty' => rw [h.uniq i j ty' ty ((h.sym _ _ _).mpr ⟨b, hb, lookup_mem hl⟩) ((h.sym _ _ _).mpr ⟨b, hb, hm⟩)]

theorem MInv.lookups (h : MInv g) {i j : Nat} {a b : Node} (ha : g[i]? = some a) (hb : g[j]? = some b) : lookupOrdering b.parents i = lookupOrdering a.children j := by
  refine Option.ext (fun ty => ?_)
  rw [h.lookup ha, h.lookupP hb]

theorem addIfMissing_spec (h : MInv g) {i j : Nat} (hi : i < g.length) (hj : j < g.length) (ty : OrderingType) :
    ∃ g', addOrderingIfMissing g i j ty = some g' ∧ MInv g' ∧ g'.map (·.landmark) = g.map (·.landmark) ∧
      ∀ a b ty', Edge g' a b ty' ↔ Edge g a b ty' ∨ (a = i ∧ b = j ∧ ty' = ty ∧ ∀ old, ¬Edge g i j old) := by
  unfold addOrderingIfMissing
  have ha := List.getElem?_eq_getElem hi
  have hb := List.getElem?_eq_getElem hj
  rw [ha, hb]
  simp only
  rw [h.lookups ha hb]
  cases hl : lookupOrdering g[i].children j with
  | some old =>
    refine ⟨g, rfl, h, rfl, fun a b ty' => ⟨Or.inl, fun hh => hh.elim id (fun hc => absurd ((h.lookup ha old).mp hl) (hc.2.2.2 old))⟩⟩
  | none =>
    have hno : ∀ old, ¬Edge g i j old := by
      intro old he
      rw [(h.lookup ha old).mpr he] at hl
      cases hl
    refine ⟨_, rfl, ⟨fun a b ty' => ?_, fun a b ty1 ty2 h1 h2 => ?_⟩, landmarks_insert, fun a b ty' => ?_⟩
    · rw [edge_insert hi, edgeP_insert hj, h.sym]
    · rw [edge_insert hi] at h1 h2
      rcases h1 with h1 | ⟨rfl, rfl, rfl⟩
      · rcases h2 with h2 | ⟨rfl, rfl, rfl⟩
        · exact h.uniq _ _ _ _ h1 h2
        · exact absurd h1 (hno _)
      · rcases h2 with h2 | ⟨_, _, rfl⟩
        · exact absurd h2 (hno _)
        · rfl
    · rw [edge_insert hi]
      refine or_congr Iff.rfl ⟨fun ⟨h1, h2, h3⟩ => ⟨h1, h2, h3, hno⟩, fun ⟨h1, h2, h3, _⟩ => ⟨h1, h2, h3⟩⟩

/-- the strongest of the requested orderings -/
def Best (S : Nat → Nat → OrderingType → Prop) (i j : Nat) (ty : OrderingType) : Prop := S i j ty ∧ ∀ ty', S i j ty' → ty'.rank ≤ ty.rank

theorem addOrReplace_spec {S : Nat → Nat → OrderingType → Prop} (h : MInv g) (hS : ∀ a b ty, Edge g a b ty ↔ Best S a b ty) (hex : ∀ a b ty, S a b ty → ∃ ty', Best S a b ty')
    {i j : Nat} (hi : i < g.length) (hj : j < g.length) (ty : OrderingType) :
    ∃ g', addOrReplaceOrdering g i j ty = some g' ∧ MInv g' ∧ g'.map (·.landmark) = g.map (·.landmark) ∧
      (∀ a b ty', Edge g' a b ty' ↔ Best (fun p q r => S p q r ∨ (p = i ∧ q = j ∧ r = ty)) a b ty') := by
  have ha := List.getElem?_eq_getElem hi
  have hb := List.getElem?_eq_getElem hj
  have hother : ∀ {a b ty'}, ¬(a = i ∧ b = j) → (Best (fun p q r => S p q r ∨ (p = i ∧ q = j ∧ r = ty)) a b ty' ↔ Best S a b ty') := by
    intro a b ty' hne
    have : ∀ r, (S a b r ∨ (a = i ∧ b = j ∧ r = ty)) ↔ S a b r := fun r => ⟨fun hh => hh.elim id (fun hc => absurd ⟨hc.1, hc.2.1⟩ hne), Or.inl⟩
    unfold Best
    simp only [this]
  have hw : weakerOrderingExists g[i] g[j] i j ty = true ↔ ∃ old, Edge g i j old ∧ old.rank < ty.rank := by
    unfold weakerOrderingExists
    have : (if g[i].children.length < g[j].parents.length then lookupOrdering g[i].children j else lookupOrdering g[j].parents i) = lookupOrdering g[i].children j := by
      rw [h.lookups ha hb, ite_self]
    rw [this]
    cases hl : lookupOrdering g[i].children j with
    | none =>
      simp only [Bool.false_eq_true, false_iff]
      rintro ⟨old, he, _⟩
      rw [(h.lookup ha old).mpr he] at hl
      cases hl
    | some old =>
      simp only [decide_eq_true_eq, rank_eq]
      have he := (h.lookup ha old).mp hl
      refine ⟨fun hlt => ⟨old, he, hlt⟩, ?_⟩
      rintro ⟨o', he', hlt⟩
      rwa [h.uniq _ _ _ _ he he']
  unfold addOrReplaceOrdering
  rw [ha, hb]
  simp only
  by_cases hwk : weakerOrderingExists g[i] g[j] i j ty = true
  · rw [if_pos hwk]
    obtain ⟨old, he, hlt⟩ := hw.mp hwk
    have hl := (h.lookup ha old).mpr he
    rw [h.lookups ha hb, hl]
    simp only
    have hrem : MInv (removeOrdering g i j) := by
      refine ⟨fun a b ty' => ?_, fun a b ty1 ty2 h1 h2 => ?_⟩
      · rw [edge_remove, edgeP_remove, h.sym]
      · rw [edge_remove] at h1 h2
        exact h.uniq _ _ _ _ h1.1 h2.1
    have hlen : (removeOrdering g i j).length = g.length := by
      have := congrArg List.length (landmarks_remove (g := g) (s := i) (d := j))
      simpa using this
    obtain ⟨g', h1, h2, h3, h4⟩ := addIfMissing_spec hrem (hlen ▸ hi) (hlen ▸ hj) ty
    refine ⟨g', h1, h2, h3.trans landmarks_remove, fun a b ty' => ?_⟩
    rw [h4, edge_remove]
    by_cases hab : a = i ∧ b = j
    · obtain ⟨rfl, rfl⟩ := hab
      simp only [and_self, not_true_eq_false, and_false, false_or, true_and, edge_remove, not_false_eq_true, implies_true, and_true]
      have hbest := (hS _ _ _).mp he
      constructor
      · rintro rfl
        refine ⟨Or.inr ⟨rfl, rfl, rfl⟩, ?_⟩
        rintro r (hr | ⟨_, _, rfl⟩)
        · have := hbest.2 r hr
          omega
        · exact Nat.le_refl _
      · rintro ⟨h5 | h5, h6⟩
        · have h7 := h6 ty (Or.inr ⟨rfl, rfl, rfl⟩)
          have h8 := hbest.2 ty' h5
          omega
        · exact h5.2.2
    · rw [hother hab, hS]
      constructor
      · rintro (h5 | h5)
        · exact h5.1
        · exact absurd ⟨h5.1, h5.2.1⟩ hab
      · intro h5
        exact Or.inl ⟨h5, hab⟩
  · rw [if_neg hwk]
    obtain ⟨g', h1, h2, h3, h4⟩ := addIfMissing_spec h hi hj ty
    refine ⟨g', h1, h2, h3, fun a b ty' => ?_⟩
    rw [h4]
    by_cases hab : a = i ∧ b = j
    · obtain ⟨rfl, rfl⟩ := hab
      have hnw : ∀ old, Edge g a b old → ty.rank ≤ old.rank := by
        intro old he
        by_contra hc
        exact hwk (hw.mpr ⟨old, he, by omega⟩)
      simp only [true_and]
      constructor
      · rintro (h5 | ⟨rfl, h5⟩)
        · have h6 := (hS _ _ _).mp h5
          refine ⟨Or.inl h6.1, ?_⟩
          rintro r (hr | ⟨_, _, rfl⟩)
          · exact h6.2 r hr
          · exact hnw ty' h5
        · refine ⟨Or.inr ⟨rfl, rfl, rfl⟩, ?_⟩
          rintro r (hr | ⟨_, _, rfl⟩)
          · obtain ⟨r', hr'⟩ := hex _ _ _ hr
            exact absurd ((hS _ _ _).mpr hr') (h5 r')
          · exact Nat.le_refl _
      · rintro ⟨h5 | ⟨_, _, rfl⟩, h6⟩
        · exact Or.inl ((hS _ _ _).mpr ⟨h5, fun r hr => h6 r (Or.inl hr)⟩)
        · by_cases hc : ∃ old, Edge g a b old
          · obtain ⟨old, ho⟩ := hc
            have h7 := h6 old (Or.inl ((hS _ _ _).mp ho).1)
            have h8 := hnw old ho
            rw [rank_inj (Nat.le_antisymm h8 h7)]
            exact Or.inl ho
          · exact Or.inr ⟨rfl, fun old ho => hc ⟨old, ho⟩⟩
    · rw [hother hab, hS]
      refine ⟨fun hh => hh.elim id (fun hc => absurd ⟨hc.1, hc.2.1⟩ hab), Or.inl⟩

theorem best_exists {S : Nat → Nat → OrderingType → Prop} {a b : Nat} {ty : OrderingType} (h : S a b ty) : ∃ ty', Best S a b ty' := by
  classical
  by_cases h3 : S a b .necessary
  · exact ⟨_, h3, fun r _ => by cases r <;> decide⟩
  by_cases h2 : S a b .greedyNecessary
  · exact ⟨_, h2, fun r hr => by cases r <;> first | decide | exact absurd hr h3⟩
  by_cases h1 : S a b .natural
  · exact ⟨_, h1, fun r hr => by cases r <;> first | decide | exact absurd hr h3 | exact absurd hr h2⟩
  · cases ty with
    | reasonable => exact ⟨_, h, fun r hr => by cases r <;> first | decide | exact absurd hr h3 | exact absurd hr h2 | exact absurd hr h1⟩
    | natural => exact absurd h h1
    | greedyNecessary => exact absurd h h2
    | necessary => exact absurd h h3

/-! ### Nodes -/

/-- atomic and disjunctive landmarks without common atoms -/
structure DInv (g : Graph) : Prop where
  form : ∀ n ∈ g, n.landmark.AtomicOrDisjunctive
  disj : ∀ (i j : Nat) (a b : Node) (f : Fact), g[i]? = some a → g[j]? = some b → f ∈ a.landmark.atoms → f ∈ b.landmark.atoms → i = j

theorem landmarks_get {g g' : Graph} (h : g'.map (·.landmark) = g.map (·.landmark)) {i : Nat} {n : Node} (hn : g'[i]? = some n) : ∃ m, g[i]? = some m ∧ m.landmark = n.landmark := by
  have h1 := congrArg (fun l => l[i]?) h
  simp only [List.getElem?_map, hn, Option.map_some] at h1
  cases hi : g[i]? with
  | none => rw [hi] at h1; cases h1
  | some m => rw [hi] at h1; exact ⟨m, rfl, by simpa using h1.symm⟩

theorem DInv.of_landmarks (h : DInv g) {g' : Graph} (he : g'.map (·.landmark) = g.map (·.landmark)) : DInv g' := by
  refine ⟨fun n hn => ?_, fun i j a b f hi hj hfa hfb => ?_⟩
  · obtain ⟨i, hi⟩ := List.mem_iff_getElem?.mp hn
    obtain ⟨m, h1, h2⟩ := landmarks_get he hi
    rw [← h2]
    exact h.form m (List.mem_of_getElem? h1)
  · obtain ⟨m, h1, h2⟩ := landmarks_get he hi
    obtain ⟨m', h1', h2'⟩ := landmarks_get he hj
    exact h.disj i j m m' f h1 h1' (h2 ▸ hfa) (h2' ▸ hfb)

theorem findIdx_iff {α : Type} {l : List α} {p : α → Bool} (hu : ∀ (i j : Nat) (a b : α), l[i]? = some a → l[j]? = some b → p a = true → p b = true → i = j) (i : Nat) :
    l.findIdx? p = some i ↔ ∃ a, l[i]? = some a ∧ p a = true := by
  constructor
  · intro h
    rw [List.findIdx?_eq_some_iff_getElem] at h
    obtain ⟨hlt, h1, _⟩ := h
    exact ⟨_, List.getElem?_eq_getElem hlt, h1⟩
  · rintro ⟨a, ha, hp⟩
    cases hc : l.findIdx? p with
    | none =>
      rw [List.findIdx?_eq_none_iff] at hc
      rw [hc a (List.mem_of_getElem? ha)] at hp
      cases hp
    | some j =>
      rw [List.findIdx?_eq_some_iff_getElem] at hc
      obtain ⟨hlt, h1, _⟩ := hc
      rw [hu i j a _ ha (List.getElem?_eq_getElem hlt) hp h1]

theorem DInv.findAtomic (h : DInv g) (f : Fact) (i : Nat) : g.findAtomic f = some i ↔ ∃ n, g[i]? = some n ∧ n.landmark.type = .atomic ∧ n.landmark.atoms = [f] := by
  unfold Graph.findAtomic
  rw [findIdx_iff]
  · simp
  · intro i j a b ha hb hpa hpb
    simp only [Bool.and_eq_true, beq_iff_eq] at hpa hpb
    exact h.disj i j a b f ha hb (by rw [hpa.2]; simp) (by rw [hpb.2]; simp)

theorem DInv.findDisjunctive (h : DInv g) (f : Fact) (i : Nat) : g.findDisjunctive f = some i ↔ ∃ n, g[i]? = some n ∧ n.landmark.type = .disjunctive ∧ f ∈ n.landmark.atoms := by
  unfold Graph.findDisjunctive
  rw [findIdx_iff]
  · simp
  · intro i j a b ha hb hpa hpb
    simp only [Bool.and_eq_true, beq_iff_eq, List.contains_iff_mem] at hpa hpb
    exact h.disj i j a b f ha hb hpa.2 hpb.2

theorem DInv.contains (h : DInv g) (f : Fact) : g.containsLandmark f = true ↔ ∃ n ∈ g, f ∈ n.landmark.atoms := by
  unfold Graph.containsLandmark
  rw [Bool.or_eq_true, Option.isSome_iff_exists, Option.isSome_iff_exists]
  simp only [h.findAtomic, h.findDisjunctive]
  constructor
  · rintro (⟨i, n, hn, _, hf⟩ | ⟨i, n, hn, _, hf⟩)
    · exact ⟨n, List.mem_of_getElem? hn, by rw [hf]; simp⟩
    · exact ⟨n, List.mem_of_getElem? hn, hf⟩
  · rintro ⟨n, hn, hf⟩
    obtain ⟨i, hi⟩ := List.mem_iff_getElem?.mp hn
    rcases h.form n hn with ⟨ht, x, hx⟩ | ⟨ht, _⟩
    · rw [hx, List.mem_singleton] at hf
      subst hf
      exact Or.inl ⟨i, n, hi, ht, hx⟩
    · exact Or.inr ⟨i, n, hi, ht, hf⟩

theorem append_get {g : Graph} {x n : Node} {i : Nat} (h : (g ++ [x])[i]? = some n) : g[i]? = some n ∨ (i = g.length ∧ n = x) := by
  by_cases hlt : i < g.length
  · rw [List.getElem?_append_left hlt] at h
    exact Or.inl h
  · rw [List.getElem?_append_right (by omega)] at h
    have h0 : i - g.length = 0 := by
      by_contra hne
      obtain ⟨k, hk⟩ := Nat.exists_eq_succ_of_ne_zero hne
      rw [hk] at h
      simp at h
    rw [h0] at h
    simp only [List.getElem?_cons_zero, Option.some.injEq] at h
    exact Or.inr ⟨by omega, h.symm⟩

theorem DInv.add (h : DInv g) {l : Landmark} (hl : l.AtomicOrDisjunctive) (hno : ∀ f ∈ l.atoms, g.containsLandmark f = false) :
    g.addLandmark l = some (g ++ [⟨l, [], []⟩]) ∧ DInv (g ++ [⟨l, [], []⟩]) := by
  have hnot : ∀ f ∈ l.atoms, ∀ n ∈ g, f ∉ n.landmark.atoms := by
    intro f hf n hn hc
    have := (h.contains f).mpr ⟨n, hn, hc⟩
    rw [hno f hf] at this
    cases this
  refine ⟨?_, fun n hn => ?_, fun i j a b f hi hj hfa hfb => ?_⟩
  · unfold Graph.addLandmark
    rw [if_pos]
    right
    rw [List.all_eq_true]
    intro f hf
    rw [hno f hf]
    rfl
  · rcases List.mem_append.mp hn with hn | hn
    · exact h.form n hn
    · rw [List.mem_singleton] at hn
      subst hn
      exact hl
  · rcases append_get hi with hi | ⟨rfl, rfl⟩
    · rcases append_get hj with hj | ⟨rfl, rfl⟩
      · exact h.disj i j a b f hi hj hfa hfb
      · exact absurd hfa (hnot f hfb a (List.mem_of_getElem? hi))
    · rcases append_get hj with hj | ⟨rfl, rfl⟩
      · exact absurd hfb (hnot f hfa b (List.mem_of_getElem? hj))
      · rfl

theorem covered_form {l m : Landmark} (hl : l.AtomicOrDisjunctive) (h : l.CoveredBy m) : ∃ f, f ∈ l.atoms ∧ f ∈ m.atoms := by
  rcases hl with ⟨_, f, hf⟩ | ⟨_, hne⟩
  · exact ⟨f, by rw [hf]; simp, h.2 f (by rw [hf]; simp)⟩
  · obtain ⟨f, hf⟩ := List.exists_mem_of_ne_nil _ hne
    exact ⟨f, hf, h.2 f hf⟩

theorem DInv.matching (h : DInv g) {l : Landmark} (hl : l.AtomicOrDisjunctive) :
    ∃ r, getMatchingLandmark g l = some r ∧ ∀ i, r = some i ↔ ∃ n, g[i]? = some n ∧ l.CoveredBy n.landmark := by
  rcases hl with ⟨ht, f, hf⟩ | ⟨ht, hne⟩
  · refine ⟨g.findAtomic f, ?_, fun i => ?_⟩
    · unfold getMatchingLandmark
      rw [ht, hf]
    · rw [h.findAtomic]
      constructor
      · rintro ⟨n, hn, h1, h2⟩
        exact ⟨n, hn, by rw [ht, h1], by rw [hf, h2]; exact fun _ h => h⟩
      · rintro ⟨n, hn, h1, h2⟩
        rw [ht] at h1
        refine ⟨n, hn, h1.symm, ?_⟩
        rcases h.form n (List.mem_of_getElem? hn) with ⟨_, x, hx⟩ | ⟨h3, _⟩
        · have := h2 f (by rw [hf]; simp)
          rw [hx, List.mem_singleton] at this
          rw [hx, this]
        · rw [h3] at h1
          cases h1
  · obtain ⟨f, fs, hfs⟩ := List.exists_cons_of_ne_nil hne
    have hsup : ∀ i, g.findSuperset l.atoms = some i ↔ ∃ n, g[i]? = some n ∧ l.CoveredBy n.landmark := by
      intro i
      unfold Graph.findSuperset
      rw [hfs]
      simp only
      have hcov : ∀ n : Node, l.CoveredBy n.landmark ↔ n.landmark.type = .disjunctive ∧ f ∈ n.landmark.atoms ∧ ∀ x ∈ fs, x ∈ n.landmark.atoms := by
        intro n
        unfold Landmark.CoveredBy
        rw [ht, hfs]
        simp only [List.mem_cons, forall_eq_or_imp]
        exact and_congr eq_comm Iff.rfl
      cases hd : g.findDisjunctive f with
      | none =>
        simp only [false_iff, reduceCtorEq]
        rintro ⟨n, hn, hc⟩
        rw [hcov] at hc
        rw [(h.findDisjunctive f i).mpr ⟨n, hn, hc.1, hc.2.1⟩] at hd
        cases hd
      | some k =>
        simp only
        obtain ⟨m, hm, hmt, hmf⟩ := (h.findDisjunctive f k).mp hd
        by_cases hall : fs.all (fun f' => g.findDisjunctive f' == some k) = true
        · rw [if_pos hall]
          have hx : ∀ x ∈ fs, x ∈ m.landmark.atoms := by
            intro x hx
            have := List.all_eq_true.mp hall x hx
            rw [beq_iff_eq, h.findDisjunctive] at this
            obtain ⟨m', hm', _, hxm⟩ := this
            rw [hm] at hm'
            cases hm'
            exact hxm
          rw [Option.some.injEq]
          constructor
          · rintro rfl
            exact ⟨m, hm, (hcov m).mpr ⟨hmt, hmf, hx⟩⟩
          · rintro ⟨n, hn, hc⟩
            exact h.disj k i m n f hm hn hmf ((hcov n).mp hc).2.1
        · rw [if_neg hall]
          simp only [false_iff, reduceCtorEq]
          rintro ⟨n, hn, hc⟩
          rw [hcov] at hc
          have hik := h.disj k i m n f hm hn hmf hc.2.1
          subst hik
          refine hall (List.all_eq_true.mpr (fun x hx => ?_))
          rw [beq_iff_eq, h.findDisjunctive]
          exact ⟨n, hn, hc.1, hc.2.2 x hx⟩
    refine ⟨g.findSuperset l.atoms, ?_, hsup⟩
    have hun : getMatchingLandmark g l = match g.findSuperset l.atoms with
        | none => some none
        | some i => if l.atoms.any (fun f => (g.findAtomic f).isSome) then none else some (some i) := by
      unfold getMatchingLandmark
      rw [ht, hfs]
      rfl
    rw [hun]
    cases hs : g.findSuperset l.atoms with
    | none => rfl
    | some i =>
      obtain ⟨n, hn, hc⟩ := (hsup i).mp hs
      simp only
      rw [if_neg]
      rw [List.any_eq_true]
      rintro ⟨x, hx, hsome⟩
      obtain ⟨k, hk⟩ := Option.isSome_iff_exists.mp hsome
      obtain ⟨m, hm, h1, h2⟩ := (h.findAtomic x k).mp hk
      have := h.disj i k n m x hn hm (hc.2 x hx) (by rw [h2]; simp)
      subst this
      rw [hn] at hm
      cases hm
      rw [← hc.1, ht] at h1
      cases h1

/-! ### The loops -/

/-- the atomic landmark for `f` -/
def isAtomicFor (f : Fact) (l : Landmark) : Bool := l.type == .atomic && l.atoms == [f]

theorem find_drop {α : Type} {p : α → Bool} {A B : List α} {x : α} (h : p x = true → ∃ a ∈ A, p a = true) : (A ++ x :: B).find? p = (A ++ B).find? p := by
  rw [List.find?_append, List.find?_append]
  by_cases hx : p x = true
  · obtain ⟨a, ha, hp⟩ := h hx
    cases hf : A.find? p with
    | none => exact absurd hp (List.find?_eq_none.mp hf a ha)
    | some _ => rfl
  · rw [List.find?_cons_of_neg hx]

theorem addAtomic_spec : ∀ (ns : List Node) (g : Graph), (∀ n ∈ ns, n.landmark.AtomicOrDisjunctive) → DInv g → (∀ n ∈ g, n.landmark.type = .atomic ∧ n.parents = [] ∧ n.children = []) →
    ∃ g', addAtomicLandmarks ns g = .graph g' ∧ DInv g' ∧ (∀ n ∈ g', n.landmark.type = .atomic ∧ n.parents = [] ∧ n.children = []) ∧
      (∀ n ∈ g', n ∈ g ∨ ∃ m ∈ ns, n.landmark = m.landmark) ∧
      ∀ f, (g'.map (·.landmark)).find? (isAtomicFor f) = ((g ++ ns).map (·.landmark)).find? (isAtomicFor f)
  | [], g, _, hd, ha => ⟨g, rfl, hd, ha, fun _ h => Or.inl h, by simp⟩
  | n :: ns, g, hf, hd, ha => by
    have hf' : ∀ m ∈ ns, m.landmark.AtomicOrDisjunctive := fun m hm => hf m (by simp [hm])
    rcases hf n (by simp) with ⟨ht, x, hx⟩ | ⟨ht, _⟩
    · by_cases hc : g.containsLandmark x = true
      · obtain ⟨g', h1, h2, h3, h4, h5⟩ := addAtomic_spec ns g hf' hd ha
        refine ⟨g', ?_, h2, h3, fun k hk => (h4 k hk).imp_right (fun ⟨m, hm, he⟩ => ⟨m, by simp [hm], he⟩), fun f => ?_⟩
        · rw [addAtomicLandmarks, ht, hx]
          simp only
          rw [if_pos hc, h1]
        · rw [h5 f, List.map_append, List.map_append, List.map_cons, find_drop]
          intro hp
          obtain ⟨m, hm, hxm⟩ := (hd.contains x).mp hc
          refine ⟨m.landmark, List.mem_map_of_mem hm, ?_⟩
          unfold isAtomicFor at hp ⊢
          simp only [Bool.and_eq_true, beq_iff_eq] at hp ⊢
          refine ⟨(ha m hm).1, ?_⟩
          rcases hd.form m hm with ⟨_, y, hy⟩ | ⟨h, _⟩
          · rw [hy, List.mem_singleton] at hxm
            rw [hy, ← hxm, ← hx, hp.2]
          · rw [(ha m hm).1] at h
            cases h
      · obtain ⟨h6, h7⟩ := hd.add (hf n (by simp)) (l := n.landmark) (by rw [hx]; simpa using hc)
        obtain ⟨g', h1, h2, h3, h4, h5⟩ := addAtomic_spec ns _ hf' h7 (by
          intro k hk
          rcases List.mem_append.mp hk with hk | hk
          · exact ha k hk
          · rw [List.mem_singleton] at hk
            subst hk
            exact ⟨ht, rfl, rfl⟩)
        refine ⟨g', ?_, h2, h3, fun k hk => ?_, fun f => ?_⟩
        · rw [addAtomicLandmarks, ht, hx]
          simp only
          rw [if_neg hc, h6]
          exact h1
        · rcases h4 k hk with hk | ⟨m, hm, he⟩
          · rcases List.mem_append.mp hk with hk | hk
            · exact Or.inl hk
            · rw [List.mem_singleton] at hk
              subst hk
              exact Or.inr ⟨n, by simp, rfl⟩
          · exact Or.inr ⟨m, by simp [hm], he⟩
        · rw [h5 f]
          simp
    · obtain ⟨g', h1, h2, h3, h4, h5⟩ := addAtomic_spec ns g hf' hd ha
      refine ⟨g', ?_, h2, h3, fun k hk => (h4 k hk).imp_right (fun ⟨m, hm, he⟩ => ⟨m, by simp [hm], he⟩), fun f => ?_⟩
      · rw [addAtomicLandmarks, ht]
        exact h1
      · rw [h5 f, List.map_append, List.map_append, List.map_cons, find_drop]
        intro hp
        unfold isAtomicFor at hp
        rw [ht] at hp
        cases hp

theorem addAtomic_unsupported : ∀ (ns : List Node) (g : Graph), (∀ n ∈ ns, n.landmark.AtomicOrDisjunctive ∨ n.landmark.type = .conjunctive) → (∃ n ∈ ns, n.landmark.type = .conjunctive) →
    DInv g → addAtomicLandmarks ns g = .unsupported
  | [], _, _, h, _ => by simp at h
  | n :: ns, g, hf, hc, hd => by
    have hf' : ∀ m ∈ ns, m.landmark.AtomicOrDisjunctive ∨ m.landmark.type = .conjunctive := fun m hm => hf m (by simp [hm])
    by_cases hn : n.landmark.type = .conjunctive
    · rw [addAtomicLandmarks, hn]
    · have hc' : ∃ n ∈ ns, n.landmark.type = .conjunctive := by
        obtain ⟨m, hm, h⟩ := hc
        rcases List.mem_cons.mp hm with rfl | hm
        · exact absurd h hn
        · exact ⟨m, hm, h⟩
      have hform := (hf n (by simp)).resolve_right hn
      rcases id hform with ⟨ht, x, hx⟩ | ⟨ht, _⟩
      · rw [addAtomicLandmarks, ht, hx]
        simp only
        by_cases hcx : g.containsLandmark x = true
        · rw [if_pos hcx]
          exact addAtomic_unsupported ns g hf' hc' hd
        · obtain ⟨h6, h7⟩ := hd.add (l := n.landmark) hform (by rw [hx]; simpa using hcx)
          rw [if_neg hcx, h6]
          exact addAtomic_unsupported ns _ hf' hc' h7
      · rw [addAtomicLandmarks, ht]
        exact addAtomic_unsupported ns g hf' hc' hd

theorem addDisjunctive_spec : ∀ (ns : List Node) (g : Graph), (∀ n ∈ ns, n.landmark.AtomicOrDisjunctive) → DInv g → (∀ n ∈ g, n.parents = [] ∧ n.children = []) →
    ∃ g', addDisjunctiveLandmarks ns g = some g' ∧ DInv g' ∧ (∀ n ∈ g', n.parents = [] ∧ n.children = []) ∧ (∀ n ∈ g, n ∈ g') ∧
      (∀ n ∈ g', n ∈ g ∨ (n.landmark.type = .disjunctive ∧ ∃ m ∈ ns, n.landmark = m.landmark)) ∧
      (∀ m ∈ ns, m.landmark.type = .disjunctive → ∃ n ∈ g', ∃ f ∈ m.landmark.atoms, f ∈ n.landmark.atoms) ∧
      ∀ f, (g'.map (·.landmark)).find? (isAtomicFor f) = (g.map (·.landmark)).find? (isAtomicFor f)
  | [], g, _, hd, ha => ⟨g, rfl, hd, ha, fun _ h => h, fun _ h => Or.inl h, by simp, fun _ => rfl⟩
  | n :: ns, g, hf, hd, ha => by
    have hf' : ∀ m ∈ ns, m.landmark.AtomicOrDisjunctive := fun m hm => hf m (by simp [hm])
    by_cases ht : n.landmark.type = .disjunctive
    · by_cases hc : n.landmark.atoms.any g.containsLandmark = true
      · obtain ⟨g', h1, h2, h3, h4, h5, h6, h7⟩ := addDisjunctive_spec ns g hf' hd ha
        refine ⟨g', ?_, h2, h3, h4, fun k hk => (h5 k hk).imp_right (fun ⟨h, m, hm, he⟩ => ⟨h, m, by simp [hm], he⟩), fun m hm hmt => ?_, h7⟩
        · rw [addDisjunctiveLandmarks, if_pos ht, if_pos hc, h1]
        · rcases List.mem_cons.mp hm with rfl | hm
          · obtain ⟨f, hfm, hcf⟩ := List.any_eq_true.mp hc
            obtain ⟨k, hk, hkf⟩ := (hd.contains f).mp hcf
            exact ⟨k, h4 k hk, f, hfm, hkf⟩
          · exact h6 m hm hmt
      · obtain ⟨h8, h9⟩ := hd.add (l := n.landmark) (hf n (by simp)) (by
          intro f hfm
          cases hcf : g.containsLandmark f with
          | false => rfl
          | true => exact absurd (List.any_eq_true.mpr ⟨f, hfm, hcf⟩) hc)
        obtain ⟨g', h1, h2, h3, h4, h5, h6, h7⟩ := addDisjunctive_spec ns _ hf' h9 (by
          intro k hk
          rcases List.mem_append.mp hk with hk | hk
          · exact ha k hk
          · rw [List.mem_singleton] at hk
            subst hk
            exact ⟨rfl, rfl⟩)
        refine ⟨g', ?_, h2, h3, fun k hk => h4 k (List.mem_append_left _ hk), fun k hk => ?_, fun m hm hmt => ?_, fun f => ?_⟩
        · rw [addDisjunctiveLandmarks, if_pos ht, if_neg hc, h8]
          exact h1
        · rcases h5 k hk with hk | ⟨h, m, hm, he⟩
          · rcases List.mem_append.mp hk with hk | hk
            · exact Or.inl hk
            · rw [List.mem_singleton] at hk
              subst hk
              exact Or.inr ⟨ht, n, by simp, rfl⟩
          · exact Or.inr ⟨h, m, by simp [hm], he⟩
        · rcases List.mem_cons.mp hm with rfl | hm
          · rcases hf m (by simp) with ⟨h, _⟩ | ⟨_, hne⟩
            · rw [ht] at h
              cases h
            · obtain ⟨f, hfm⟩ := List.exists_mem_of_ne_nil _ hne
              exact ⟨_, h4 _ (List.mem_append_right _ (List.mem_singleton.mpr rfl)), f, hfm, hfm⟩
          · exact h6 m hm hmt
        · rw [h7 f, List.map_append, List.map_cons, find_drop, List.map_nil, List.append_nil]
          intro hp
          unfold isAtomicFor at hp
          simp only [ht] at hp
          cases hp
    · obtain ⟨g', h1, h2, h3, h4, h5, h6, h7⟩ := addDisjunctive_spec ns g hf' hd ha
      refine ⟨g', ?_, h2, h3, h4, fun k hk => (h5 k hk).imp_right (fun ⟨h, m, hm, he⟩ => ⟨h, m, by simp [hm], he⟩), fun m hm hmt => ?_, h7⟩
      · rw [addDisjunctiveLandmarks, if_neg ht, h1]
      · rcases List.mem_cons.mp hm with rfl | hm
        · exact absurd hmt ht
        · exact h6 m hm hmt

theorem Best.congr {S S' : Nat → Nat → OrderingType → Prop} (h : ∀ a b ty, S a b ty ↔ S' a b ty) (a b : Nat) (ty : OrderingType) : Best S a b ty ↔ Best S' a b ty := by
  unfold Best
  simp only [h]

/-- the graph with the landmarks `L` has the strongest of the orderings in `S` -/
structure OInv (L : List Landmark) (S : Nat → Nat → OrderingType → Prop) (g : Graph) : Prop where
  landmarks : g.map (·.landmark) = L
  nodes : DInv g
  edges : MInv g
  best : ∀ a b ty, Edge g a b ty ↔ Best S a b ty

variable {L : List Landmark} {S : Nat → Nat → OrderingType → Prop}

theorem OInv.congr (h : OInv L S g) {S' : Nat → Nat → OrderingType → Prop} (hs : ∀ a b ty, S a b ty ↔ S' a b ty) : OInv L S' g :=
  ⟨h.landmarks, h.nodes, h.edges, fun a b ty => (h.best a b ty).trans (Best.congr hs a b ty)⟩

theorem OInv.matching (h : OInv L S g) {l : Landmark} (hl : l.AtomicOrDisjunctive) :
    ∃ r, getMatchingLandmark g l = some r ∧ ∀ i, r = some i ↔ ∃ m, L[i]? = some m ∧ l.CoveredBy m := by
  obtain ⟨r, h1, h2⟩ := h.nodes.matching hl
  refine ⟨r, h1, fun i => (h2 i).trans ?_⟩
  rw [← h.landmarks, List.getElem?_map]
  cases g[i]? with
  | none => simp
  | some n => simp

theorem OInv.add (h : OInv L S g) {i j : Nat} {a b : Landmark} (hi : L[i]? = some a) (hj : L[j]? = some b) (ty : OrderingType) :
    ∃ g', addOrReplaceOrdering g i j ty = some g' ∧ OInv L (fun p q r => S p q r ∨ (p = i ∧ q = j ∧ r = ty)) g' := by
  have hlen : g.length = L.length := by rw [← h.landmarks, List.length_map]
  obtain ⟨g', h1, h2, h3, h4⟩ := addOrReplace_spec h.edges h.best (fun a b ty => best_exists) (by rw [hlen]; exact (List.getElem?_eq_some_iff.mp hi).1) (by rw [hlen]; exact (List.getElem?_eq_some_iff.mp hj).1) ty
  exact ⟨g', h1, h3.trans h.landmarks, h.nodes.of_landmarks h3, h2, h4⟩

theorem addChildren_spec {old : Graph} {src : Nat} {a : Landmark} (hsrc : L[src]? = some a) (hform : ∀ n ∈ old, n.landmark.AtomicOrDisjunctive) :
    ∀ (cs : List (Nat × OrderingType)) (S : Nat → Nat → OrderingType → Prop) (g : Graph), (∀ c ∈ cs, c.1 < old.length) → OInv L S g →
    ∃ g', addChildOrderings old src cs g = some g' ∧
      OInv L (fun p q r => S p q r ∨ (p = src ∧ ∃ (k : Nat) (y : Node) (b : Landmark), (k, r) ∈ cs ∧ old[k]? = some y ∧ L[q]? = some b ∧ y.landmark.CoveredBy b)) g'
  | [], S, g, _, h => ⟨g, rfl, h.congr (by simp)⟩
  | c :: cs, S, g, hr, h => by
    have hlt := hr c (by simp)
    have hr' : ∀ c ∈ cs, c.1 < old.length := fun c hc => hr c (by simp [hc])
    rw [addChildOrderings, List.getElem?_eq_getElem hlt]
    simp only
    obtain ⟨r, h1, h2⟩ := h.matching (hform _ (List.getElem_mem hlt))
    rw [h1]
    cases r with
    | none =>
      simp only
      obtain ⟨g', h3, h4⟩ := addChildren_spec hsrc hform cs S g hr' h
      refine ⟨g', h3, h4.congr (fun p q r => or_congr Iff.rfl (and_congr Iff.rfl ⟨?_, ?_⟩))⟩
      · rintro ⟨k, y, b, hk, hh⟩
        exact ⟨k, y, b, by simp [hk], hh⟩
      · rintro ⟨k, y, b, hk, hy, hb, hc⟩
        rcases List.mem_cons.mp hk with rfl | hk
        · rw [List.getElem?_eq_getElem hlt] at hy
          cases hy
          have := (h2 q).mpr ⟨b, hb, hc⟩
          cases this
        · exact ⟨k, y, b, hk, hy, hb, hc⟩
    | some i =>
      simp only
      obtain ⟨m, hm, hcov⟩ := (h2 i).mp rfl
      obtain ⟨g1, h5, h6⟩ := h.add hsrc hm c.2
      rw [h5]
      simp only
      obtain ⟨g', h3, h4⟩ := addChildren_spec hsrc hform cs _ g1 hr' h6
      refine ⟨g', h3, h4.congr (fun p q r => ⟨?_, ?_⟩)⟩
      · rintro ((hh | ⟨rfl, rfl, rfl⟩) | ⟨rfl, k, y, b, hk, hh⟩)
        · exact Or.inl hh
        · exact Or.inr ⟨rfl, c.1, _, m, by simp, List.getElem?_eq_getElem hlt, hm, hcov⟩
        · exact Or.inr ⟨rfl, k, y, b, by simp [hk], hh⟩
      · rintro (hh | ⟨rfl, k, y, b, hk, hy, hb, hc⟩)
        · exact Or.inl (Or.inl hh)
        · rcases List.mem_cons.mp hk with he | hk
          · subst he
            rw [List.getElem?_eq_getElem hlt] at hy
            cases hy
            have := (h2 q).mpr ⟨b, hb, hc⟩
            simp only [Option.some.injEq] at this
            exact Or.inl (Or.inr ⟨rfl, this.symm, rfl⟩)
          · exact Or.inr ⟨rfl, k, y, b, hk, hy, hb, hc⟩

theorem addOrderings_spec {old : Graph} (hform : ∀ n ∈ old, n.landmark.AtomicOrDisjunctive) (hr : ∀ n ∈ old, ∀ c ∈ n.children, c.1 < old.length) :
    ∀ (ns : List Node) (S : Nat → Nat → OrderingType → Prop) (g : Graph), (∀ n ∈ ns, n ∈ old) → OInv L S g →
    ∃ g', addOrderingsOf old ns g = some g' ∧
      OInv L (fun p q r => S p q r ∨ (∃ x ∈ ns, ∃ (k : Nat) (y : Node) (a b : Landmark), (k, r) ∈ x.children ∧ old[k]? = some y ∧ L[p]? = some a ∧ L[q]? = some b ∧ x.landmark.CoveredBy a ∧ y.landmark.CoveredBy b)) g'
  | [], S, g, _, h => ⟨g, rfl, h.congr (by simp)⟩
  | n :: ns, S, g, hns, h => by
    have hn := hns n (by simp)
    have hns' : ∀ m ∈ ns, m ∈ old := fun m hm => hns m (by simp [hm])
    rw [addOrderingsOf]
    obtain ⟨r, h1, h2⟩ := h.matching (hform n hn)
    rw [h1]
    cases r with
    | none =>
      simp only
      obtain ⟨g', h3, h4⟩ := addOrderings_spec hform hr ns S g hns' h
      refine ⟨g', h3, h4.congr (fun p q r => or_congr Iff.rfl ⟨?_, ?_⟩)⟩
      · rintro ⟨x, hx, hh⟩
        exact ⟨x, by simp [hx], hh⟩
      · rintro ⟨x, hx, k, y, a, b, hk, hy, ha, hb, hca, hcb⟩
        rcases List.mem_cons.mp hx with rfl | hx
        · have := (h2 p).mpr ⟨a, ha, hca⟩
          cases this
        · exact ⟨x, hx, k, y, a, b, hk, hy, ha, hb, hca, hcb⟩
    | some i =>
      simp only
      obtain ⟨m, hm, hcov⟩ := (h2 i).mp rfl
      obtain ⟨g1, h5, h6⟩ := addChildren_spec hm hform n.children S g (hr n hn) h
      rw [h5]
      simp only
      obtain ⟨g', h3, h4⟩ := addOrderings_spec hform hr ns _ g1 hns' h6
      refine ⟨g', h3, h4.congr (fun p q r => ⟨?_, ?_⟩)⟩
      · rintro ((hh | ⟨rfl, k, y, b, hk, hy, hb, hc⟩) | ⟨x, hx, hh⟩)
        · exact Or.inl hh
        · exact Or.inr ⟨n, by simp, k, y, m, b, hk, hy, hm, hb, hcov, hc⟩
        · exact Or.inr ⟨x, by simp [hx], hh⟩
      · rintro (hh | ⟨x, hx, k, y, a, b, hk, hy, ha, hb, hca, hcb⟩)
        · exact Or.inl (Or.inl hh)
        · rcases List.mem_cons.mp hx with rfl | hx
          · have := (h2 p).mpr ⟨a, ha, hca⟩
            simp only [Option.some.injEq] at this
            exact Or.inl (Or.inr ⟨this.symm, k, y, b, hk, hy, hb, hcb⟩)
          · exact Or.inr ⟨x, hx, k, y, a, b, hk, hy, ha, hb, hca, hcb⟩

theorem addAllOrderings_spec : ∀ (gs : List Graph) (S : Nat → Nat → OrderingType → Prop) (g : Graph), (∀ old ∈ gs, ∀ n ∈ old, n.landmark.AtomicOrDisjunctive) →
    (∀ old ∈ gs, ∀ n ∈ old, ∀ c ∈ n.children, c.1 < old.length) → OInv L S g →
    ∃ g', addLandmarkOrderings gs g = some g' ∧
      OInv L (fun p q r => S p q r ∨ ∃ a b, L[p]? = some a ∧ L[q]? = some b ∧ HasOrdering gs a b r) g'
  | [], S, g, _, _, h => ⟨g, rfl, h.congr (by simp [HasOrdering])⟩
  | old :: gs, S, g, hform, hr, h => by
    rw [addLandmarkOrderings]
    obtain ⟨g1, h1, h2⟩ := addOrderings_spec (hform old (by simp)) (hr old (by simp)) old S g (fun _ h => h) h
    rw [h1]
    simp only
    obtain ⟨g', h3, h4⟩ := addAllOrderings_spec gs _ g1 (fun o ho => hform o (by simp [ho])) (fun o ho => hr o (by simp [ho])) h2
    refine ⟨g', h3, h4.congr (fun p q r => ⟨?_, ?_⟩)⟩
    · rintro ((hh | ⟨x, hx, k, y, a, b, hk, hy, ha, hb, hca, hcb⟩) | ⟨a, b, ha, hb, o, ho, hh⟩)
      · exact Or.inl hh
      · exact Or.inr ⟨a, b, ha, hb, old, by simp, x, hx, k, y, hk, hy, hca, hcb⟩
      · exact Or.inr ⟨a, b, ha, hb, o, by simp [ho], hh⟩
    · rintro (hh | ⟨a, b, ha, hb, o, ho, x, hx, k, y, hk, hy, hca, hcb⟩)
      · exact Or.inl (Or.inl hh)
      · rcases List.mem_cons.mp ho with rfl | ho
        · exact Or.inl (Or.inr ⟨x, hx, k, y, a, b, hk, hy, ha, hb, hca, hcb⟩)
        · exact Or.inr ⟨a, b, ha, hb, o, ho, x, hx, k, y, hk, hy, hca, hcb⟩

/-- the merged graph -/
theorem merge_spec (gs : List Graph) (hform : ∀ old ∈ gs, ∀ n ∈ old, n.landmark.AtomicOrDisjunctive) (hr : ∀ old ∈ gs, ∀ n ∈ old, ∀ c ∈ n.children, c.1 < old.length) :
    ∃ g, mergeGraphs gs = .graph g ∧ (∀ n ∈ g, ∃ old ∈ gs, ∃ m ∈ old, n.landmark = m.landmark) ∧
      (∀ f, (g.map (·.landmark)).find? (isAtomicFor f) = (gs.flatten.map (·.landmark)).find? (isAtomicFor f)) ∧
      (∀ old ∈ gs, ∀ m ∈ old, ∃ n ∈ g, ∃ f ∈ m.landmark.atoms, f ∈ n.landmark.atoms) ∧
      OInv (g.map (·.landmark)) (fun p q r => ∃ a b, (g.map (·.landmark))[p]? = some a ∧ (g.map (·.landmark))[q]? = some b ∧ HasOrdering gs a b r) g := by
  have hflat : ∀ n ∈ gs.flatten, n.landmark.AtomicOrDisjunctive := by
    intro n hn
    obtain ⟨o, ho, hno⟩ := List.mem_flatten.mp hn
    exact hform o ho n hno
  obtain ⟨g1, a1, a2, a3, a4, a5⟩ := addAtomic_spec gs.flatten [] hflat ⟨by simp, by intro i j a b f hi; simp at hi⟩ (by simp)
  obtain ⟨g2, b1, b2, b3, b4, b5, b6, b7⟩ := addDisjunctive_spec gs.flatten g1 hflat a2 (fun n hn => (a3 n hn).2)
  have hno : ∀ a b ty, ¬Edge g2 a b ty := by
    rintro a b ty ⟨n, hn, hm⟩
    rw [(b3 n (List.mem_of_getElem? hn)).2] at hm
    cases hm
  have hnoP : ∀ a b ty, ¬EdgeP g2 a b ty := by
    rintro a b ty ⟨n, hn, hm⟩
    rw [(b3 n (List.mem_of_getElem? hn)).1] at hm
    cases hm
  have h0 : OInv (g2.map (·.landmark)) (fun _ _ _ => False) g2 :=
    ⟨rfl, b2, ⟨fun a b ty => iff_of_false (hno a b ty) (hnoP a b ty), fun a b _ _ h => absurd h (hno _ _ _)⟩, fun a b ty => iff_of_false (hno a b ty) (fun h => h.1)⟩
  obtain ⟨g, c1, c2⟩ := addAllOrderings_spec gs _ g2 hform hr h0
  have hin : ∀ n ∈ g2, ∃ old ∈ gs, ∃ m ∈ old, n.landmark = m.landmark := by
    intro n hn
    have : ∃ m ∈ gs.flatten, n.landmark = m.landmark := by
      rcases b5 n hn with hn | ⟨_, m, hm, he⟩
      · rcases a4 n hn with hn | h
        · simp at hn
        · exact h
      · exact ⟨m, hm, he⟩
    obtain ⟨m, hm, he⟩ := this
    obtain ⟨o, ho, hmo⟩ := List.mem_flatten.mp hm
    exact ⟨o, ho, m, hmo, he⟩
  refine ⟨g, ?_, fun n hn => ?_, fun f => ?_, fun old ho m hm => ?_, ?_⟩
  · unfold mergeGraphs
    rw [a1]
    simp only
    rw [b1]
    simp only
    rw [c1]
  · obtain ⟨i, hi⟩ := List.mem_iff_getElem?.mp hn
    obtain ⟨n2, h1, h2⟩ := landmarks_get c2.landmarks hi
    obtain ⟨o, ho, m, hm, he⟩ := hin n2 (List.mem_of_getElem? h1)
    exact ⟨o, ho, m, hm, h2.symm.trans he⟩
  · rw [c2.landmarks, b7, a5, List.nil_append]
  · have : ∃ n ∈ g2, ∃ f ∈ m.landmark.atoms, f ∈ n.landmark.atoms := by
      rcases hform old ho m hm with ⟨ht, f, hf⟩ | ⟨ht, _⟩
      · have hfind : ((g1.map (·.landmark)).find? (isAtomicFor f)).isSome := by
          rw [a5, List.find?_isSome]
          exact ⟨m.landmark, List.mem_map_of_mem (List.mem_append_right _ (List.mem_flatten.mpr ⟨old, ho, hm⟩)), by simp [isAtomicFor, ht, hf]⟩
        rw [List.find?_isSome] at hfind
        obtain ⟨l, hl, hp⟩ := hfind
        obtain ⟨n, hn, rfl⟩ := List.mem_map.mp hl
        simp only [isAtomicFor, Bool.and_eq_true, beq_iff_eq] at hp
        exact ⟨n, b4 n hn, f, by rw [hf]; simp, by rw [hp.2]; simp⟩
      · exact b6 m (List.mem_flatten.mpr ⟨old, ho, hm⟩) ht
    obtain ⟨n2, hn2, f, h1, h2⟩ := this
    obtain ⟨i, hi⟩ := List.mem_iff_getElem?.mp hn2
    obtain ⟨n, h3, h4⟩ := landmarks_get c2.landmarks.symm hi
    exact ⟨n, List.mem_of_getElem? h3, f, h1, by rw [h4]; exact h2⟩
  · rw [c2.landmarks]
    exact c2.congr (by simp)

end Verif.Landmarks
