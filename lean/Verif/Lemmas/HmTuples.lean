import Verif.Model.Hm
import Verif.Spec.Hm

/- Tuples of facts: the keys of the table and partial tuples. -/
namespace Verif.Hm

/-- strictly sorted by variable -/
def Asc (l : Tuple) : Prop := l.Pairwise (fun a b => a.var < b.var)

theorem mem_partialsAux : ∀ {sz : Nat} {l t u : Tuple}, u ∈ partialsAux sz l t ↔ ∃ v, v.Sublist l ∧ v ≠ [] ∧ v.length ≤ sz ∧ u = t ++ v
  | 0, l, t, u => by
    simp only [partialsAux, List.not_mem_nil, false_iff]
    rintro ⟨v, _, h1, h2, _⟩
    exact h1 (List.length_eq_zero_iff.mp (by omega))
  | sz + 1, [], t, u => by
    simp only [partialsAux, List.not_mem_nil, false_iff]
    rintro ⟨v, h1, h2, _⟩
    exact h2 (List.sublist_nil.mp h1)
  | sz + 1, f :: l, t, u => by
    simp only [partialsAux, List.mem_cons, List.mem_append, mem_partialsAux]
    constructor
    · rintro (rfl | ⟨v, h1, h2, h3, rfl⟩ | ⟨v, h1, h2, h3, rfl⟩)
      · exact ⟨[f], by simp, by simp, by simp, rfl⟩
      · exact ⟨f :: v, h1.cons_cons f, by simp, by simpa using h3, by simp⟩
      · exact ⟨v, h1.cons f, h2, h3, rfl⟩
    · rintro ⟨v, h1, h2, h3, rfl⟩
      cases h1 with
      | cons _ h => exact Or.inr (Or.inr ⟨v, h, h2, h3, rfl⟩)
      | @cons_cons v' _ _ h =>
        by_cases e : v' = []
        · subst e; exact Or.inl rfl
        · exact Or.inr (Or.inl ⟨v', h, e, by simpa using h3, by simp⟩)

theorem mem_partials {m : Nat} {l u : Tuple} : u ∈ partials m l ↔ u.Sublist l ∧ u ≠ [] ∧ u.length ≤ m := by
  unfold partials
  rw [mem_partialsAux]
  constructor
  · rintro ⟨v, h1, h2, h3, rfl⟩; exact ⟨by simpa using h1, by simpa using h2, by simpa using h3⟩
  · rintro ⟨h1, h2, h3⟩; exact ⟨u, h1, h2, h3, rfl⟩

theorem mem_tuplesAux {ds : List Nat} : ∀ {sz var : Nat} {base u : Tuple}, u ∈ tuplesAux ds sz var base ↔
    ∃ v : Tuple, v ≠ [] ∧ v.length ≤ sz ∧ Asc v ∧ (∀ f ∈ v, var ≤ f.var ∧ ∃ d : Nat, ds[f.var]? = some d ∧ f.val < d) ∧ u = base ++ v
  | 0, var, base, u => by
    simp only [tuplesAux, List.not_mem_nil, false_iff]
    rintro ⟨v, h1, h2, _⟩
    exact h1 (List.length_eq_zero_iff.mp (by omega))
  | sz + 1, var, base, u => by
    simp only [tuplesAux, List.mem_flatMap, List.mem_range'_1, List.mem_range, List.mem_cons, mem_tuplesAux]
    constructor
    · rintro ⟨i, ⟨h1, h2⟩, j, h3, h4⟩
      have hi : i < ds.length := by omega
      rw [List.getElem?_eq_getElem hi] at h3
      have e := List.getElem?_eq_getElem hi
      rcases h4 with rfl | ⟨v, k1, k2, k3, k4, rfl⟩
      · refine ⟨[⟨i, j⟩], by simp, by simp, by simp [Asc], ?_, rfl⟩
        intro f hf
        simp only [List.mem_singleton] at hf
        subst hf
        exact ⟨h1, _, e, h3⟩
      · refine ⟨⟨i, j⟩ :: v, by simp, by simpa using k2, ?_, ?_, by simp⟩
        · refine List.pairwise_cons.mpr ⟨fun f hf => ?_, k3⟩
          have := (k4 f hf).1
          show i < f.var
          omega
        · intro f hf
          rcases List.mem_cons.mp hf with rfl | hf
          · exact ⟨h1, _, e, h3⟩
          · have := k4 f hf
            exact ⟨by omega, this.2⟩
    · rintro ⟨v, h1, h2, h3, h4, rfl⟩
      cases v with
      | nil => exact absurd rfl h1
      | cons f v =>
        obtain ⟨k1, d, k2, k3⟩ := h4 f (by simp)
        have hlt := (List.getElem?_eq_some_iff.mp k2).1
        refine ⟨f.var, ⟨k1, by omega⟩, f.val, by rw [k2]; exact k3, ?_⟩
        by_cases e : v = []
        · subst e; exact Or.inl rfl
        · right
          obtain ⟨h5, h6⟩ := List.pairwise_cons.mp h3
          exact ⟨v, e, by simpa using h2, h6, fun g hg => ⟨h5 g hg, (h4 g (by simp [hg])).2⟩, by simp⟩

/-- a key of the table -/
structure Key (t : Task) (m : Nat) (u : Tuple) : Prop where
  ne : u ≠ []
  len : u.length ≤ m
  asc : Asc u
  valid : ∀ f ∈ u, t.ValidFact f

theorem mem_allTuples {t : Task} {m : Nat} {u : Tuple} : u ∈ allTuples t m ↔ Key t m u := by
  unfold allTuples
  rw [mem_tuplesAux]
  have hv : ∀ f : Fact, (∃ d : Nat, (t.vars.map (·.domain))[f.var]? = some d ∧ f.val < d) ↔ t.ValidFact f := by
    intro f
    unfold Task.ValidFact
    simp only [List.getElem?_map, Option.map_eq_some_iff]
    constructor
    · rintro ⟨d, ⟨v, h1, rfl⟩, h2⟩; exact ⟨v, h1, h2⟩
    · rintro ⟨v, h1, h2⟩; exact ⟨_, ⟨v, h1, rfl⟩, h2⟩
  constructor
  · rintro ⟨v, h1, h2, h3, h4, rfl⟩
    exact ⟨by simpa using h1, by simpa using h2, by simpa using h3, fun f hf => (hv f).mp (h4 f (by simpa using hf)).2⟩
  · rintro ⟨h1, h2, h3, h4⟩
    exact ⟨u, h1, h2, h3, fun f hf => ⟨Nat.zero_le _, (hv f).mpr (h4 f hf)⟩, rfl⟩

theorem Asc.sublist {l l' : Tuple} (h : Asc l) (hs : l'.Sublist l) : Asc l' := List.Pairwise.sublist hs h

theorem Asc.nodup {l : Tuple} (h : Asc l) : l.Nodup := List.Pairwise.imp (fun {a b} hab e => by subst e; exact Nat.lt_irrefl _ hab) h

/-- partial tuples of sorted valid facts are keys -/
theorem partials_key {t : Task} {m : Nat} {l : Tuple} (ha : Asc l) (hv : ∀ f ∈ l, t.ValidFact f) {u : Tuple} (hu : u ∈ partials m l) : u ∈ allTuples t m := by
  obtain ⟨h1, h2, h3⟩ := mem_partials.mp hu
  exact mem_allTuples.mpr ⟨h2, h3, ha.sublist h1, fun f hf => hv f (h1.subset hf)⟩

instance : Std.Total factLe := ⟨fun a b => by unfold factLe; omega⟩
instance : IsTrans Fact factLe := ⟨fun a b c h1 h2 => by unfold factLe at *; omega⟩

theorem sortFacts_perm (l : Tuple) : (sortFacts l).Perm l := List.perm_insertionSort factLe l

theorem mem_sortFacts {l : Tuple} {f : Fact} : f ∈ sortFacts l ↔ f ∈ l := (sortFacts_perm l).mem_iff

theorem sortFacts_asc {l : Tuple} (h : (l.map (·.var)).Nodup) : Asc (sortFacts l) := by
  have h1 : (sortFacts l).Pairwise factLe := List.pairwise_insertionSort factLe l
  have h2 : ((sortFacts l).map (·.var)).Nodup := ((sortFacts_perm l).map _).nodup_iff.mpr h
  have h3 : (sortFacts l).Pairwise (fun a b => a.var ≠ b.var) := List.pairwise_map.mp h2
  refine (h1.and h3).imp ?_
  rintro a b ⟨h4, h5⟩
  unfold factLe at h4
  omega

/-- a sorted list contained in a sorted list is a sublist of it -/
theorem asc_sublist : ∀ {u l : Tuple}, Asc u → Asc l → (∀ f ∈ u, f ∈ l) → u.Sublist l
  | [], l, _, _, _ => List.nil_sublist l
  | f :: u, l, hu, hl, h => by
    induction l with
    | nil => simpa using h f (by simp)
    | cons g l ih =>
      obtain ⟨h1, h2⟩ := List.pairwise_cons.mp hu
      obtain ⟨h3, h4⟩ := List.pairwise_cons.mp hl
      by_cases e : f = g
      · subst e
        refine List.Sublist.cons_cons f (asc_sublist h2 h4 fun x hx => ?_)
        rcases List.mem_cons.mp (h x (by simp [hx])) with rfl | hx'
        · have := h1 x hx; omega
        · exact hx'
      · refine List.Sublist.cons g (ih h4 fun x hx => ?_)
        rcases List.mem_cons.mp (h x hx) with rfl | hx'
        · exfalso
          have hf : f ∈ l := by
            rcases List.mem_cons.mp (h f (by simp)) with e' | h'
            · exact absurd e' e
            · exact h'
          have k1 := h3 f hf
          rcases List.mem_cons.mp hx with rfl | hx
          · exact e rfl
          · have := h1 x hx; omega
        · exact hx'

theorem mem_addFacts {t : Tuple} {f : Fact} : ∀ {fs pre : Tuple}, f ∈ addFacts t fs pre ↔ f ∈ pre ∨ (f ∈ fs ∧ f ∉ t)
  | [], pre => by simp [addFacts]
  | g :: fs, pre => by
    simp only [addFacts]
    split
    · rename_i h
      rw [mem_addFacts]
      simp only [List.mem_cons]
      constructor
      · rintro (h1 | ⟨h1, h2⟩)
        · exact Or.inl h1
        · exact Or.inr ⟨Or.inr h1, h2⟩
      · rintro (h1 | ⟨rfl | h1, h2⟩)
        · exact Or.inl h1
        · exact absurd h h2
        · exact Or.inr ⟨h1, h2⟩
    · rename_i h
      split
      · rename_i h'
        rw [mem_addFacts]
        simp only [List.mem_cons]
        constructor
        · rintro (h1 | ⟨h1, h2⟩)
          · exact Or.inl h1
          · exact Or.inr ⟨Or.inr h1, h2⟩
        · rintro (h1 | ⟨rfl | h1, h2⟩)
          · exact Or.inl h1
          · exact Or.inl h'
          · exact Or.inr ⟨h1, h2⟩
      · rw [mem_addFacts]
        simp only [List.mem_append, List.mem_cons, List.not_mem_nil, or_false]
        constructor
        · rintro ((h1 | rfl) | ⟨h1, h2⟩)
          · exact Or.inl h1
          · exact Or.inr ⟨Or.inl rfl, h⟩
          · exact Or.inr ⟨Or.inr h1, h2⟩
        · rintro (h1 | ⟨rfl | h1, h2⟩)
          · exact Or.inl (Or.inl h1)
          · exact Or.inl (Or.inr rfl)
          · exact Or.inr ⟨h1, h2⟩

theorem mem_extPre {o : Operator} {t tuple : Tuple} {f : Fact} : f ∈ extPre o t tuple ↔ f ∈ o.pre ∨ (f ∈ tuple ∧ f ∉ t) := by
  unfold extPre opPre
  rw [mem_sortFacts, mem_addFacts, mem_sortFacts]

theorem extPre_asc {o : Operator} {t tuple : Tuple} (h : ((extPre o t tuple).map (·.var)).Nodup) : Asc (extPre o t tuple) := by
  unfold extPre at h ⊢
  exact sortFacts_asc ((((sortFacts_perm _).map _).nodup_iff).mp h)

theorem checkIn_zero {t big : Tuple} : checkIn t big = 0 ↔ ∀ f ∈ t, f ∈ big := by
  unfold checkIn
  by_cases h : t.all (fun f => decide (f ∈ big)) = true
  · rw [if_pos h]
    simpa using h
  · rw [if_neg h]
    simp only [List.all_eq_true, decide_eq_true_eq] at h
    simpa [inf] using h

theorem checkIn_le {t big : Tuple} : checkIn t big = 0 ∨ checkIn t big = inf := by
  unfold checkIn
  split <;> simp

theorem contradicts_iff {o : Operator} {f : Fact} : contradicts o f = true ↔ o.deletes f := by
  simp [contradicts, Operator.deletes]

theorem extends_iff {o : Operator} {t tuple : Tuple} : extends? o t tuple = true ↔ (∀ f ∈ tuple, ¬o.deletes f) ∧ t.length < tuple.length ∧ ∀ f ∈ t, f ∈ tuple := by
  unfold extends?
  simp only [Bool.and_eq_true, Bool.not_eq_true', decide_eq_true_eq, beq_iff_eq, checkIn_zero, gt_iff_lt]
  rw [List.any_eq_false]
  simp only [contradicts_iff]

end Verif.Hm
