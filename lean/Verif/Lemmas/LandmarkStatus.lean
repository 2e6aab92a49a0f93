import Verif.Lemmas.LandmarkPasses

/- The invariant of the tracking of landmarks over all sequences of reports. -/
namespace Verif.Landmarks
variable {t : Task}

/-- the formula holds nowhere on the run -/
def Never (L : State → Prop) (s : State) (r : List (Nat × State)) : Prop := ∀ k, ¬HoldsAt L (runStates s r) k

/-- the formula does not become true on the run -/
def NotAdded (L : State → Prop) (s : State) (r : List (Nat × State)) : Prop := ∀ k, ¬AddedAt L (runStates s r) (k + 1)

theorem holdsAt_big {L : State → Prop} {s : State} {r : List (Nat × State)} {k : Nat} (h : HoldsAt L (runStates s r) k) : k ≤ r.length := by
  obtain ⟨x, hx, _⟩ := h
  have := (List.getElem?_eq_some_iff.mp hx).1
  rw [runStates_length] at this
  omega

theorem never_nil {L : State → Prop} {s : State} : Never L s [] ↔ ¬L s := by
  constructor
  · intro h hs; exact h 0 (holdsAt_zero.mpr hs)
  · intro h k hk
    have := holdsAt_big hk
    simp only [List.length_nil, Nat.le_zero] at this
    subst this
    exact h (holdsAt_zero.mp hk)

theorem holdsAt_snoc {L : State → Prop} {s p s' : State} {r : List (Nat × State)} {i : Nat} (h : t.Run s r p) :
    HoldsAt L (runStates s (r ++ [(i, s')])) (r.length + 1) ↔ L s' := by
  rw [holdsAt_right h 1]
  simp [HoldsAt, runStates]

theorem never_snoc {L : State → Prop} {s p s' : State} {r : List (Nat × State)} {i : Nat} (h : t.Run s r p) :
    Never L s (r ++ [(i, s')]) ↔ Never L s r ∧ ¬L s' := by
  constructor
  · intro hn
    refine ⟨fun k hk => ?_, fun hs => hn _ ((holdsAt_snoc h).mpr hs)⟩
    exact hn k ((holdsAt_left (holdsAt_big hk)).mpr hk)
  · rintro ⟨hn, hs⟩ k hk
    have := holdsAt_big hk
    simp only [List.length_append, List.length_cons, List.length_nil] at this
    by_cases hle : k ≤ r.length
    · exact hn k ((holdsAt_left hle).mp hk)
    · have : k = r.length + 1 := by omega
      subst this
      exact hs ((holdsAt_snoc h).mp hk)

theorem notAdded_nil {L : State → Prop} {s : State} : NotAdded L s [] := by
  intro k hk
  have := holdsAt_big hk.1
  simp at this

theorem addedAt_left {L : State → Prop} {s : State} {r r' : List (Nat × State)} {k : Nat} (hk : k ≤ r.length) :
    AddedAt L (runStates s (r ++ r')) k ↔ AddedAt L (runStates s r) k := by
  unfold AddedAt
  rw [holdsAt_left hk]
  refine and_congr Iff.rfl ?_
  constructor
  · intro h j hj; rw [← holdsAt_left (r' := r') (by omega)]; exact h j hj
  · intro h j hj; rw [holdsAt_left (r' := r') (by omega)]; exact h j hj

theorem notAdded_snoc {L : State → Prop} {s p s' : State} {r : List (Nat × State)} {i : Nat} (h : t.Run s r p) :
    NotAdded L s (r ++ [(i, s')]) ↔ NotAdded L s r ∧ (¬L s' ∨ L p) := by
  have hlast : AddedAt L (runStates s (r ++ [(i, s')])) (r.length + 1) ↔ L s' ∧ ¬L p := by
    unfold AddedAt
    rw [holdsAt_snoc h]
    refine and_congr Iff.rfl ?_
    constructor
    · intro hh
      have := hh r.length rfl
      rwa [holdsAt_left (Nat.le_refl _), holdsAt_last h] at this
    · intro hh j hj
      have : j = r.length := by omega
      subst this
      rwa [holdsAt_left (Nat.le_refl _), holdsAt_last h]
  constructor
  · intro hn
    refine ⟨fun k hk => ?_, ?_⟩
    · exact hn k ((addedAt_left (holdsAt_big hk.1)).mpr hk)
    · have := fun h' => hn _ (hlast.mpr h')
      tauto
  · rintro ⟨hn, hs⟩ k hk
    have := holdsAt_big hk.1
    simp only [List.length_append, List.length_cons, List.length_nil] at this
    by_cases hle : k + 1 ≤ r.length
    · exact hn k ((addedAt_left hle).mp hk)
    · have : k = r.length := by omega
      subst this
      have := hlast.mp hk
      tauto

theorem run_snoc {s p s' : State} {r : List (Nat × State)} {i : Nat} (h : t.Run s r p) (hst : t.Step p i s') : t.Run s (r ++ [(i, s')]) s' :=
  h.append (.cons _ _ _ _ _ hst (.nil _))

theorem run_snoc_inv : ∀ {r : List (Nat × State)} {s u : State} {x : Nat × State}, t.Run s (r ++ [x]) u → ∃ p, t.Run s r p ∧ t.Step p x.1 x.2 ∧ u = x.2
  | [], s, u, x, h => by
    cases h with
    | cons _ i s' _ _ h1 h2 =>
      cases h2
      exact ⟨s, .nil s, h1, rfl⟩
  | y :: r, s, u, x, h => by
    cases h with
    | cons _ i s' _ _ h1 h2 =>
      obtain ⟨p, g1, g2, g3⟩ := run_snoc_inv h2
      exact ⟨p, .cons _ _ _ _ _ h1 g1, g2, g3⟩

theorem stepEvents_snoc {i : Nat} {s' : State} : ∀ {r : List (Nat × State)} {s p : State}, t.Run s r p → stepEvents s (r ++ [(i, s')]) = stepEvents s r ++ [.transition p i s']
  | [], s, p, h => by cases h; rfl
  | x :: r, s, p, h => by
    cases h with
    | cons _ i s1 _ _ h1 h2 => simp [stepEvents, stepEvents_snoc h2]

theorem stepEvents_no_initial : ∀ {r : List (Nat × State)} {s : State}, Event.initial ∉ stepEvents s r
  | [], s => by simp [stepEvents]
  | x :: r, s => by simp [stepEvents, stepEvents_no_initial]

theorem Observed.mono {es : List Event} {r : List (Nat × State)} {s : State} (e : Event) (h : Observed t es r s) : Observed t (es ++ [e]) r s :=
  ⟨h.1, h.2.trans (List.sublist_append_left _ _)⟩

theorem observed_initial (t : Task) (es : List Event) : Observed t (es ++ [.initial]) [] t.init :=
  ⟨.nil _, by simp [stepEvents]⟩

theorem Observed.step {es : List Event} {r : List (Nat × State)} {p s : State} {i : Nat} (h : Observed t es r p) (hst : t.Step p i s) :
    Observed t (es ++ [.transition p i s]) (r ++ [(i, s)]) s := by
  refine ⟨run_snoc h.1 hst, ?_⟩
  rw [stepEvents_snoc h.1, ← List.cons_append]
  exact h.2.append (List.Sublist.refl _)

theorem sublist_concat {α : Type} {l es : List α} {e : α} (h : l.Sublist (es ++ [e])) : l.Sublist es ∨ ∃ l', l = l' ++ [e] ∧ l'.Sublist es := by
  obtain ⟨l1, l2, rfl, h1, h2⟩ := List.sublist_append_iff.mp h
  cases h2 with
  | cons _ h3 =>
    rw [List.sublist_nil.mp h3]
    left; simpa using h1
  | cons_cons _ h3 =>
    rw [List.sublist_nil.mp h3]
    exact Or.inr ⟨l1, rfl, h1⟩

theorem Observed.inv {es : List Event} {e : Event} {r : List (Nat × State)} {s : State} (h : Observed t (es ++ [e]) r s) :
    Observed t es r s ∨ (e = .initial ∧ r = [] ∧ s = t.init) ∨ ∃ r0 p i, e = .transition p i s ∧ r = r0 ++ [(i, s)] ∧ t.Step p i s ∧ Observed t es r0 p := by
  rcases sublist_concat h.2 with h' | ⟨l', h1, h2⟩
  · exact Or.inl ⟨h.1, h'⟩
  · rcases List.eq_nil_or_concat r with rfl | ⟨r0, x, rfl⟩
    · right; left
      simp only [stepEvents] at h1
      have hl : l' = [] ∧ e = .initial := by
        cases l' with
        | nil => simp at h1; exact ⟨rfl, h1.symm⟩
        | cons a l => simp at h1
      have := h.1
      cases this
      exact ⟨hl.2, rfl, rfl⟩
    · right; right
      rw [List.concat_eq_append] at h h1 ⊢
      obtain ⟨p, g1, g2, g3⟩ := run_snoc_inv h.1
      obtain ⟨i, x⟩ := x
      simp only at g2 g3
      subst g3
      rw [stepEvents_snoc g1, ← List.cons_append] at h1
      obtain ⟨h3, h4⟩ := List.append_inj' h1 rfl
      simp only [List.cons.injEq, and_true] at h4
      refine ⟨r0, p, i, h4.symm, rfl, g2, g1, ?_⟩
      rw [h3]
      exact h2

section manager
variable {g : Graph}

theorem mem_goalLandmarks {a : Bool} {b c : Bool} {i : Nat} : i ∈ (Manager.new g a b c).goalLandmarks ↔ a = true ∧ ∃ n, g[i]? = some n ∧ n.landmark.isTrueInGoal = true := by
  unfold Manager.new getGoalLandmarks
  cases a with
  | false => simp
  | true =>
    simp only [if_true, List.mem_map, List.mem_filter, true_and]
    constructor
    · rintro ⟨x, ⟨hx, h⟩, rfl⟩; exact ⟨x.1, mem_zipIdx.mp hx, h⟩
    · rintro ⟨n, hn, h⟩; exact ⟨(n, i), ⟨mem_zipIdx.mpr hn, h⟩, rfl⟩

theorem mem_gnChildren {a b c : Bool} {x : Nat × List Nat} (h : x ∈ (Manager.new g a b c).greedyNecessaryChildren) :
    b = true ∧ ∃ n, g[x.1]? = some n ∧ ∀ y, y ∈ x.2 ↔ (y, OrderingType.greedyNecessary) ∈ n.children := by
  unfold Manager.new getGreedyNecessaryChildren at h
  cases b with
  | false => simp at h
  | true =>
    simp only [if_true, List.mem_filter, List.mem_map] at h
    obtain ⟨⟨z, hz, rfl⟩, _⟩ := h
    refine ⟨rfl, z.1, mem_zipIdx.mp hz, fun y => ?_⟩
    simp only [List.mem_map, List.mem_filter, beq_iff_eq]
    constructor
    · rintro ⟨⟨w, ty⟩, ⟨hw, rfl⟩, rfl⟩; exact hw
    · intro hy; exact ⟨_, ⟨hy, rfl⟩, rfl⟩

theorem gnChildren_of {a c : Bool} {i : Nat} {n : Node} (hn : g[i]? = some n) {y : Nat} (hy : (y, OrderingType.greedyNecessary) ∈ n.children) :
    ∃ x ∈ (Manager.new g a true c).greedyNecessaryChildren, x.1 = i ∧ y ∈ x.2 := by
  unfold Manager.new getGreedyNecessaryChildren
  simp only [if_true, List.mem_filter, List.mem_map]
  refine ⟨_, ⟨⟨(n, i), mem_zipIdx.mpr hn, rfl⟩, ?_⟩, rfl, ?_⟩
  · simp only [Bool.not_eq_true', List.isEmpty_eq_false_iff_exists_mem]
    exact ⟨y, List.mem_map.mpr ⟨_, List.mem_filter.mpr ⟨hy, by simp⟩, rfl⟩⟩
  · exact List.mem_map.mpr ⟨_, List.mem_filter.mpr ⟨hy, by simp⟩, rfl⟩

theorem mem_reasonableParents {a b c : Bool} {x : Nat × List Nat} (h : x ∈ (Manager.new g a b c).reasonableParents) :
    c = true ∧ ∃ n, g[x.1]? = some n ∧ ∀ y, y ∈ x.2 ↔ (y, OrderingType.reasonable) ∈ n.parents := by
  unfold Manager.new getReasonableParents at h
  cases c with
  | false => simp at h
  | true =>
    simp only [if_true, List.mem_filter, List.mem_map] at h
    obtain ⟨⟨z, hz, rfl⟩, _⟩ := h
    refine ⟨rfl, z.1, mem_zipIdx.mp hz, fun y => ?_⟩
    simp only [List.mem_map, List.mem_filter, beq_iff_eq]
    constructor
    · rintro ⟨⟨w, ty⟩, ⟨hw, rfl⟩, rfl⟩; exact hw
    · intro hy; exact ⟨_, ⟨hy, rfl⟩, rfl⟩

theorem reasonableParents_of {a b : Bool} {i : Nat} {n : Node} (hn : g[i]? = some n) {y : Nat} (hy : (y, OrderingType.reasonable) ∈ n.parents) :
    ∃ x ∈ (Manager.new g a b true).reasonableParents, x.1 = i ∧ y ∈ x.2 := by
  unfold Manager.new getReasonableParents
  simp only [if_true, List.mem_filter, List.mem_map]
  refine ⟨_, ⟨⟨(n, i), mem_zipIdx.mpr hn, rfl⟩, ?_⟩, rfl, ?_⟩
  · simp only [Bool.not_eq_true', List.isEmpty_eq_false_iff_exists_mem]
    exact ⟨y, List.mem_map.mpr ⟨_, List.mem_filter.mpr ⟨hy, by simp⟩, rfl⟩⟩
  · exact List.mem_map.mpr ⟨_, List.mem_filter.mpr ⟨hy, by simp⟩, rfl⟩

end manager

/-- what `progress` does with the bits of the new state -/
structure ProgressSpec (g : Graph) (a b c : Bool) (parent s : State) (pp pf p f p' f' : Bits) : Prop where
  lenP : p'.length = g.length
  lenF : f'.length = g.length
  past : ∀ i < g.length, (p'[i]? = some false ↔ p[i]? = some false ∨ (pf[i]? = some true ∧ pp[i]? = some false ∧ ¬g.L i s))
  future : ∀ i < g.length, (f'[i]? = some true ↔ f[i]? = some true ∨ (pf[i]? = some true ∧ (¬g.L i s ∨ g.L i parent)) ∨
    (a = true ∧ (∃ n, g[i]? = some n ∧ n.landmark.isTrueInGoal = true) ∧ ¬g.L i s) ∨
    (b = true ∧ ∃ n, g[i]? = some n ∧ ∃ y, (y, OrderingType.greedyNecessary) ∈ n.children ∧ p'[y]? = some false ∧ ¬g.L i s) ∨
    (c = true ∧ ∃ n, g[i]? = some n ∧ ∃ y, (y, OrderingType.reasonable) ∈ n.parents ∧ p'[y]? = some false))

theorem progress_spec {g : Graph} (hg : g.Ok t) {a b c : Bool} {st : Status} {parent s : State} (hne : s ≠ parent) (hpa : t.ValidState parent) (hs : t.ValidState s)
    (hlen : ∀ s, (st.past s).length = g.length ∧ (st.future s).length = g.length) (hpast : ∀ i, g.L i parent → (st.past parent)[i]? = some true) :
    ∃ p' f', progress (Manager.new g a b c) st parent s = some (st.write s p' f') ∧
      ProgressSpec g a b c parent s (st.past parent) (st.future parent) (st.past s) (st.future s) p' f' := by
  obtain ⟨p1, f1, h1, h2, h3, h4⟩ := landmarks_pass hg hpa hs (hlen parent).1 (hlen parent).2 (hlen s).1 (hlen s).2 hpast
  obtain ⟨f2, h5, h6, h7⟩ := goals_pass hg hs (gl := (Manager.new g a b c).goalLandmarks) (fun i hi => by
    obtain ⟨_, n, hn, _⟩ := mem_goalLandmarks.mp hi
    exact (List.getElem?_eq_some_iff.mp hn).1) h3
  obtain ⟨f3, h8, h9, h10⟩ := gn_pass hg hs (gn := (Manager.new g a b c).greedyNecessaryChildren) (fun x hx => by
    obtain ⟨_, n, hn, hy⟩ := mem_gnChildren hx
    refine ⟨(List.getElem?_eq_some_iff.mp hn).1, fun y hyx => ?_⟩
    exact hg.children n (List.mem_of_getElem? hn) _ ((hy y).mp hyx)) h2 h6
  obtain ⟨f4, h11, h12, h13⟩ := reasonable_pass (g := g) (rp := (Manager.new g a b c).reasonableParents) (fun x hx => by
    obtain ⟨_, n, hn, hy⟩ := mem_reasonableParents hx
    refine ⟨(List.getElem?_eq_some_iff.mp hn).1, fun y hyx => ?_⟩
    exact hg.parents n (List.mem_of_getElem? hn) _ ((hy y).mp hyx)) h2 h9
  refine ⟨p1, f4, ?_, h2, h12, fun i hi => (h4 i hi).1, fun i hi => ?_⟩
  · unfold progress
    rw [if_neg hne]
    have : (Manager.new g a b c).graph = g := rfl
    simp only [this, h1, h5, h8, h11]
  · rw [h13 i hi, h10 i hi, h7 i hi, (h4 i hi).2]
    have e1 : (i ∈ (Manager.new g a b c).goalLandmarks ∧ ¬g.L i s) ↔ (a = true ∧ (∃ n, g[i]? = some n ∧ n.landmark.isTrueInGoal = true) ∧ ¬g.L i s) := by
      rw [mem_goalLandmarks, and_assoc]
    have e2 : (∃ x ∈ (Manager.new g a b c).greedyNecessaryChildren, x.1 = i ∧ ∃ c ∈ x.2, p1[c]? = some false ∧ ¬g.L i s) ↔
        (b = true ∧ ∃ n, g[i]? = some n ∧ ∃ y, (y, OrderingType.greedyNecessary) ∈ n.children ∧ p1[y]? = some false ∧ ¬g.L i s) := by
      constructor
      · rintro ⟨x, hx, rfl, y, hy, hh⟩
        obtain ⟨hb, n, hn, hyy⟩ := mem_gnChildren hx
        exact ⟨hb, n, hn, y, (hyy y).mp hy, hh⟩
      · rintro ⟨rfl, n, hn, y, hy, hh⟩
        obtain ⟨x, hx, rfl, hyx⟩ := gnChildren_of (a := a) (c := c) hn hy
        exact ⟨x, hx, rfl, y, hyx, hh⟩
    have e3 : (∃ x ∈ (Manager.new g a b c).reasonableParents, x.1 = i ∧ ∃ c ∈ x.2, p1[c]? = some false) ↔
        (c = true ∧ ∃ n, g[i]? = some n ∧ ∃ y, (y, OrderingType.reasonable) ∈ n.parents ∧ p1[y]? = some false) := by
      constructor
      · rintro ⟨x, hx, rfl, y, hy, hh⟩
        obtain ⟨hb, n, hn, hyy⟩ := mem_reasonableParents hx
        exact ⟨hb, n, hn, y, (hyy y).mp hy, hh⟩
      · rintro ⟨rfl, n, hn, y, hy, hh⟩
        obtain ⟨x, hx, rfl, hyx⟩ := reasonableParents_of (a := a) (b := b) hn hy
        exact ⟨x, hx, rfl, y, hyx, hh⟩
    rw [e1, e2, e3]
    simp only [or_assoc]

end Verif.Landmarks
