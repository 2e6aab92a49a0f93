import Verif.Lemmas.LandmarkLabels
import Verif.Lemmas.LandmarkAchievers

/-
Construction of graphs with atomic landmarks and natural orderings.
-/
namespace Verif.Landmarks
variable {t : Task}

/-- node number `i` is the atomic landmark for `f` -/
def At (g : Graph) (i : Nat) (f : Fact) : Prop := ∃ n, g[i]? = some n ∧ n.landmark.atoms = [f]

/-- The graph has exactly the atomic landmarks in `N`, those in `G` are marked as goals, and exactly the natural orderings in `O`. -/
structure ZInv (G N : Fact → Prop) (O : Fact → Fact → Prop) (g : Graph) : Prop where
  node : ∀ n ∈ g, ∃ f b, n.landmark = atomicLandmark f b ∧ N f ∧ (b = true ↔ G f)
  has : ∀ f, N f → ∃ i, At g i f
  uniq : ∀ i j f, At g i f → At g j f → i = j
  sub : ∀ x y, O x y → N x ∧ N y
  ch : ∀ (A : Nat) (a : Node) (fa : Fact), g[A]? = some a → a.landmark.atoms = [fa] → ∀ B ty, (B, ty) ∈ a.children ↔ ty = .natural ∧ ∃ fb, At g B fb ∧ O fa fb
  pa : ∀ (B : Nat) (b : Node) (fb : Fact), g[B]? = some b → b.landmark.atoms = [fb] → ∀ A ty, (A, ty) ∈ b.parents ↔ ty = .natural ∧ ∃ fa, At g A fa ∧ O fa fb

variable {G N : Fact → Prop} {O : Fact → Fact → Prop} {g : Graph}

theorem At.inj {i : Nat} {f f' : Fact} (h : At g i f) (h' : At g i f') : f = f' := by
  obtain ⟨n, h1, h2⟩ := h
  obtain ⟨n', h3, h4⟩ := h'
  rw [h1] at h3
  cases h3
  rw [h2] at h4
  simpa using h4

theorem At.lt {i : Nat} {f : Fact} (h : At g i f) : i < g.length := by
  obtain ⟨n, h1, _⟩ := h
  exact (List.getElem?_eq_some_iff.mp h1).1

theorem ZInv.congr (h : ZInv G N O g) {G' N' : Fact → Prop} {O' : Fact → Fact → Prop} (hG : ∀ f, N f → (G' f ↔ G f)) (hN : ∀ f, N' f ↔ N f) (hO : ∀ x y, O' x y ↔ O x y) : ZInv G' N' O' g := by
  have h1 : N' = N := funext fun f => propext (hN f)
  have h2 : O' = O := funext fun x => funext fun y => propext (hO x y)
  subst h1 h2
  refine ⟨fun n hn => ?_, h.has, h.uniq, h.sub, h.ch, h.pa⟩
  obtain ⟨f, b, h1, h2, h3⟩ := h.node n hn
  exact ⟨f, b, h1, h2, h3.trans (hG f h2).symm⟩

theorem ZInv.empty : ZInv (fun _ => False) (fun _ => False) (fun _ _ => False) [] := by
  constructor
  · simp
  · simp
  · rintro i j f ⟨n, h, _⟩
    simp at h
  · simp
  · intro A a fa h
    simp at h
  · intro A a fa h
    simp at h

theorem ZInv.atom (h : ZInv G N O g) {i : Nat} {n : Node} (hn : g[i]? = some n) : ∃ f, n.landmark.atoms = [f] ∧ N f := by
  obtain ⟨f, b, h1, h2, _⟩ := h.node n (List.mem_of_getElem? hn)
  exact ⟨f, by rw [h1]; rfl, h2⟩

theorem ZInv.at_N (h : ZInv G N O g) {i : Nat} {f : Fact} (ha : At g i f) : N f := by
  obtain ⟨n, hn, hf⟩ := ha
  obtain ⟨f', h1, h2⟩ := h.atom hn
  rw [hf] at h1
  simp only [List.cons.injEq, and_true] at h1
  rwa [h1]

theorem ZInv.findAtomic_some (h : ZInv G N O g) {f : Fact} {i : Nat} : g.findAtomic f = some i ↔ At g i f := by
  unfold Graph.findAtomic
  have hat : ∀ {j : Nat} {n : Node}, g[j]? = some n → ((n.landmark.type == .atomic && n.landmark.atoms == [f]) = true ↔ n.landmark.atoms = [f]) := by
    intro j n hn
    obtain ⟨f', b, h1, _, _⟩ := h.node n (List.mem_of_getElem? hn)
    rw [h1]
    simp [atomicLandmark]
  constructor
  · intro hi
    rw [List.findIdx?_eq_some_iff_getElem] at hi
    obtain ⟨hlt, h1, _⟩ := hi
    exact ⟨_, List.getElem?_eq_getElem hlt, (hat (List.getElem?_eq_getElem hlt)).mp h1⟩
  · rintro ⟨n, hn, hf⟩
    cases hc : List.findIdx? (fun n => n.landmark.type == .atomic && n.landmark.atoms == [f]) g with
    | none =>
      rw [List.findIdx?_eq_none_iff] at hc
      have := hc n (List.mem_of_getElem? hn)
      rw [(hat hn).mpr hf] at this
      cases this
    | some j =>
      rw [List.findIdx?_eq_some_iff_getElem] at hc
      obtain ⟨hlt, h1, _⟩ := hc
      rw [h.uniq i j f ⟨n, hn, hf⟩ ⟨_, List.getElem?_eq_getElem hlt, (hat (List.getElem?_eq_getElem hlt)).mp h1⟩]

theorem ZInv.findAtomic_none (h : ZInv G N O g) {f : Fact} : g.findAtomic f = none ↔ ¬N f := by
  constructor
  · intro hn hf
    obtain ⟨i, hi⟩ := h.has f hf
    rw [h.findAtomic_some.mpr hi] at hn
    cases hn
  · intro hn
    cases hc : g.findAtomic f with
    | none => rfl
    | some i => exact absurd (h.at_N (h.findAtomic_some.mp hc)) hn

theorem ZInv.addLandmark (h : ZInv G N O g) {f : Fact} (hf : ¬N f) (b : Bool) (hG : b = true ↔ G f) :
    ∃ g', g.addLandmark (atomicLandmark f b) = some g' ∧ ZInv G (fun x => N x ∨ x = f) O g' ∧ At g' g.length f ∧ ∀ i x, At g i x → At g' i x := by
  unfold Graph.addLandmark
  rw [if_pos]
  · have hat : ∀ i x, At (g ++ [⟨atomicLandmark f b, [], []⟩]) i x ↔ At g i x ∨ (i = g.length ∧ x = f) := by
      intro i x
      unfold At
      by_cases hlt : i < g.length
      · rw [List.getElem?_append_left hlt]
        constructor
        · exact Or.inl
        · rintro (h | ⟨rfl, _⟩)
          · exact h
          · omega
      · rw [List.getElem?_append_right (by omega)]
        constructor
        · rintro ⟨n, hn, hx⟩
          have h0 : i - g.length = 0 := by
            by_contra hne
            obtain ⟨k, hk⟩ := Nat.exists_eq_succ_of_ne_zero hne
            rw [hk] at hn
            simp at hn
          rw [h0] at hn
          simp only [List.getElem?_cons_zero, Option.some.injEq] at hn
          subst hn
          simp only [atomicLandmark, List.cons.injEq, and_true] at hx
          exact Or.inr ⟨by omega, hx.symm⟩
        · rintro (⟨n, hn, _⟩ | ⟨rfl, rfl⟩)
          · exact absurd (List.getElem?_eq_some_iff.mp hn).1 hlt
          · exact ⟨_, by simp; rfl, rfl⟩
    refine ⟨_, rfl, ?_, (hat _ _).mpr (Or.inr ⟨rfl, rfl⟩), fun i x hx => (hat i x).mpr (Or.inl hx)⟩
    have hget : ∀ {i : Nat} {n : Node}, (g ++ [⟨atomicLandmark f b, [], []⟩])[i]? = some n → g[i]? = some n ∨ (i = g.length ∧ n = ⟨atomicLandmark f b, [], []⟩) := by
      intro i n hn
      by_cases hlt : i < g.length
      · rw [List.getElem?_append_left hlt] at hn
        exact Or.inl hn
      · rw [List.getElem?_append_right (by omega)] at hn
        have h0 : i - g.length = 0 := by
          by_contra hne
          obtain ⟨k, hk⟩ := Nat.exists_eq_succ_of_ne_zero hne
          rw [hk] at hn
          simp at hn
        rw [h0] at hn
        simp only [List.getElem?_cons_zero, Option.some.injEq] at hn
        exact Or.inr ⟨by omega, hn.symm⟩
    constructor
    · intro n hn
      rcases List.mem_append.mp hn with hn | hn
      · obtain ⟨f', b', h1, h2, h3⟩ := h.node n hn
        exact ⟨f', b', h1, Or.inl h2, h3⟩
      · rw [List.mem_singleton] at hn
        subst hn
        exact ⟨f, b, rfl, Or.inr rfl, hG⟩
    · rintro x (hx | rfl)
      · obtain ⟨i, hi⟩ := h.has x hx
        exact ⟨i, (hat i x).mpr (Or.inl hi)⟩
      · exact ⟨g.length, (hat _ _).mpr (Or.inr ⟨rfl, rfl⟩)⟩
    · intro i j x hi hj
      rcases (hat i x).mp hi with hi' | ⟨h1, h2⟩
      · rcases (hat j x).mp hj with hj' | ⟨h3, h4⟩
        · exact h.uniq i j x hi' hj'
        · exact absurd (h4 ▸ h.at_N hi') hf
      · rcases (hat j x).mp hj with hj' | ⟨h3, _⟩
        · exact absurd (h2 ▸ h.at_N hj') hf
        · rw [h1, h3]
    · intro x y hxy
      exact ⟨Or.inl (h.sub x y hxy).1, Or.inl (h.sub x y hxy).2⟩
    · intro A a fa hA hfa B ty
      rcases hget hA with hA | ⟨rfl, rfl⟩
      · rw [h.ch A a fa hA hfa B ty]
        refine and_congr Iff.rfl ⟨fun ⟨fb, h1, h2⟩ => ⟨fb, (hat _ _).mpr (Or.inl h1), h2⟩, ?_⟩
        rintro ⟨fb, h1, h2⟩
        rcases (hat _ _).mp h1 with h1 | ⟨_, rfl⟩
        · exact ⟨fb, h1, h2⟩
        · exact absurd (h.sub _ _ h2).2 hf
      · simp only [atomicLandmark, List.cons.injEq, and_true] at hfa
        subst hfa
        simp only [List.not_mem_nil, false_iff, not_and, not_exists]
        intro _ fb _ h2
        exact hf (h.sub _ _ h2).1
    · intro B b' fb hB hfb A ty
      rcases hget hB with hB | ⟨rfl, rfl⟩
      · rw [h.pa B b' fb hB hfb A ty]
        refine and_congr Iff.rfl ⟨fun ⟨fa, h1, h2⟩ => ⟨fa, (hat _ _).mpr (Or.inl h1), h2⟩, ?_⟩
        rintro ⟨fa, h1, h2⟩
        rcases (hat _ _).mp h1 with h1 | ⟨_, rfl⟩
        · exact ⟨fa, h1, h2⟩
        · exact absurd (h.sub _ _ h2).1 hf
      · simp only [atomicLandmark, List.cons.injEq, and_true] at hfb
        subst hfb
        simp only [List.not_mem_nil, false_iff, not_and, not_exists]
        intro _ fa _ h2
        exact hf (h.sub _ _ h2).2
  · right
    rw [List.all_eq_true]
    intro x hx
    simp only [atomicLandmark, List.mem_singleton] at hx
    subst hx
    unfold Graph.containsLandmark
    rw [h.findAtomic_none.mpr hf]
    have : g.findDisjunctive x = none := by
      unfold Graph.findDisjunctive
      rw [List.findIdx?_eq_none_iff]
      intro n hn
      obtain ⟨f', b', h1, _, _⟩ := h.node n hn
      rw [h1]
      rfl
    rw [this]
    rfl

/-- changes of nodes that keep the atoms -/
theorem at_modify {g : Graph} {k : Nat} {F : Node → Node} (hF : ∀ n, (F n).landmark.atoms = n.landmark.atoms) (i : Nat) (x : Fact) : At (g.modify k F) i x ↔ At g i x := by
  unfold At
  rw [List.getElem?_modify]
  cases hi : g[i]? with
  | none => simp
  | some n =>
    by_cases hk : k = i
    · subst hk
      simp [hF]
    · simp [hk]

theorem ZInv.createGoal (h : ZInv G N O g) (f : Fact) :
    ∃ g' i, createGoalLandmark g f = some (g', i) ∧ ZInv (fun x => G x ∨ x = f) (fun x => N x ∨ x = f) O g' ∧ At g' i f := by
  unfold createGoalLandmark
  cases hc : g.findAtomic f with
  | some i =>
    have hat := h.findAtomic_some.mp hc
    have hNf := h.at_N hat
    simp only
    have hat' : ∀ j x, At (g.modify i (fun n => { n with landmark := { n.landmark with isTrueInGoal := true } })) j x ↔ At g j x := at_modify (fun _ => rfl)
    refine ⟨_, i, rfl, ?_, (hat' _ _).mpr hat⟩
    have hget : ∀ {j : Nat} {n : Node}, (g.modify i (fun n => { n with landmark := { n.landmark with isTrueInGoal := true } }))[j]? = some n →
        ∃ n0, g[j]? = some n0 ∧ n.landmark.atoms = n0.landmark.atoms ∧ n.children = n0.children ∧ n.parents = n0.parents ∧
          n.landmark = if i = j then { n0.landmark with isTrueInGoal := true } else n0.landmark := by
      intro j n hn
      rw [List.getElem?_modify] at hn
      cases hj : g[j]? with
      | none => rw [hj] at hn; simp at hn
      | some n0 =>
        rw [hj] at hn
        refine ⟨n0, rfl, ?_⟩
        by_cases hij : i = j
        · simp only [if_pos hij, Option.map_eq_map, Option.map_some, Option.some.injEq] at hn ⊢
          subst hn
          exact ⟨rfl, rfl, rfl, rfl⟩
        · simp only [if_neg hij, Option.map_eq_map, Option.map_some, Option.some.injEq] at hn ⊢
          subst hn
          exact ⟨rfl, rfl, rfl, rfl⟩
    constructor
    · intro n hn
      obtain ⟨j, hj⟩ := List.mem_iff_getElem?.mp hn
      obtain ⟨n0, h1, _, _, _, h2⟩ := hget hj
      obtain ⟨x, b, h3, h4, h5⟩ := h.node n0 (List.mem_of_getElem? h1)
      have hax : At g j x := ⟨n0, h1, by rw [h3]; rfl⟩
      by_cases hij : i = j
      · rw [if_pos hij, h3] at h2
        subst hij
        have := hat.inj hax
        subst this
        exact ⟨f, true, h2, Or.inl h4, by simp⟩
      · rw [if_neg hij, h3] at h2
        refine ⟨x, b, h2, Or.inl h4, h5.trans ⟨Or.inl, ?_⟩⟩
        rintro (h | rfl)
        · exact h
        · exact absurd (h.uniq i j x hat hax) hij
    · rintro x (hx | rfl)
      · obtain ⟨j, hj⟩ := h.has x hx
        exact ⟨j, (hat' j x).mpr hj⟩
      · exact ⟨i, (hat' i x).mpr hat⟩
    · intro j k x hj hk
      exact h.uniq j k x ((hat' j x).mp hj) ((hat' k x).mp hk)
    · intro x y hxy
      exact ⟨Or.inl (h.sub x y hxy).1, Or.inl (h.sub x y hxy).2⟩
    · intro A a fa hA hfa B ty
      obtain ⟨n0, h1, h2, h3, _, _⟩ := hget hA
      rw [h3, h.ch A n0 fa h1 (by rw [← h2]; exact hfa) B ty]
      simp only [hat']
    · intro B b fb hB hfb A ty
      obtain ⟨n0, h1, h2, _, h3, _⟩ := hget hB
      rw [h3, h.pa B n0 fb h1 (by rw [← h2]; exact hfb) A ty]
      simp only [hat']
  | none =>
    have hNf := h.findAtomic_none.mp hc
    simp only
    have h' : ZInv (fun x => G x ∨ x = f) N O g := h.congr (fun x hx => ⟨fun hh => hh.elim id (fun e => absurd (e ▸ hx) hNf), Or.inl⟩) (fun _ => Iff.rfl) (fun _ _ => Iff.rfl)
    obtain ⟨g', h1, h2, h3, _⟩ := h'.addLandmark hNf true (by simp)
    rw [h1]
    exact ⟨g', g.length, rfl, h2, h3⟩

theorem ZInv.nodeOfLabel (h : ZInv G N O g) {f : Fact} (hG : N f ∨ ¬G f) :
    ∃ g' i, nodeOfLabel g f = some (g', i) ∧ ZInv G (fun x => N x ∨ x = f) O g' ∧ At g' i f ∧ ∀ j x, At g j x → At g' j x := by
  unfold Verif.Landmarks.nodeOfLabel
  cases hc : g.findAtomic f with
  | some i =>
    have hat := h.findAtomic_some.mp hc
    refine ⟨g, i, rfl, h.congr (fun _ _ => Iff.rfl) (fun x => ⟨fun hh => hh.elim id (fun e => e ▸ h.at_N hat), Or.inl⟩) (fun _ _ => Iff.rfl), hat, fun _ _ hh => hh⟩
  | none =>
    have hNf := h.findAtomic_none.mp hc
    obtain ⟨g', h1, h2, h3, h4⟩ := h.addLandmark hNf false (by simpa using hG.resolve_left hNf)
    simp only [h1]
    exact ⟨g', g.length, rfl, h2, h3, h4⟩

theorem lookup_none {l : List (Nat × OrderingType)} {i : Nat} : lookupOrdering l i = none ↔ ∀ ty, (i, ty) ∉ l := by
  unfold lookupOrdering
  rw [Option.map_eq_none_iff, List.find?_eq_none]
  constructor
  · intro h ty hm
    exact h _ hm (by simp)
  · intro h x hx
    simp only [beq_iff_eq]
    rintro rfl
    exact h x.2 hx

theorem lookup_mem {l : List (Nat × OrderingType)} {i : Nat} {ty : OrderingType} (h : lookupOrdering l i = some ty) : (i, ty) ∈ l := by
  unfold lookupOrdering at h
  rw [Option.map_eq_some_iff] at h
  obtain ⟨x, hx, rfl⟩ := h
  have h1 := List.mem_of_find?_eq_some hx
  have h2 := List.find?_some hx
  simp only [beq_iff_eq] at h2
  rw [← h2]
  exact h1

theorem ZInv.order (h : ZInv G N O g) {i j : Nat} {x y : Fact} (hi : At g i x) (hj : At g j y) (hij : ¬O y x) (useOrders : Bool) :
    ∃ g', orderLabel useOrders g i j = some g' ∧ ZInv G N (fun a b => O a b ∨ (useOrders = true ∧ a = x ∧ b = y)) g' ∧ ∀ k z, At g' k z ↔ At g k z := by
  unfold orderLabel
  cases useOrders with
  | false =>
    simp only [Bool.false_eq_true, if_false]
    exact ⟨g, rfl, h.congr (fun _ _ => Iff.rfl) (fun _ => Iff.rfl) (fun _ _ => by simp), fun _ _ => Iff.rfl⟩
  | true =>
    simp only [if_true, true_and]
    obtain ⟨a, ha, hax⟩ := id hi
    obtain ⟨b, hb, hby⟩ := id hj
    rw [ha, hb]
    simp only
    have e1 : lookupOrdering a.parents j = none := by
      rw [lookup_none]
      intro ty hm
      obtain ⟨_, z, hz, ho⟩ := (h.pa i a x ha hax j ty).mp hm
      rw [hz.inj hj] at ho
      exact hij ho
    have e2 : lookupOrdering b.children i = none := by
      rw [lookup_none]
      intro ty hm
      obtain ⟨_, z, hz, ho⟩ := (h.ch j b y hb hby i ty).mp hm
      rw [hz.inj hi] at ho
      exact hij ho
    rw [e1, e2]
    simp only
    unfold addOrReplaceOrdering
    simp only [ha, hb]
    have hweak : weakerOrderingExists a b i j .natural = false := by
      unfold weakerOrderingExists
      have key : ∀ {l : List (Nat × OrderingType)} {k : Nat}, (∀ B ty, (B, ty) ∈ l → ty = .natural) → (match lookupOrdering l k with
          | none => false
          | some old => decide (old.strength < OrderingType.natural.strength)) = false := by
        intro l k hl
        cases hk : lookupOrdering l k with
        | none => rfl
        | some ty => rw [hl k ty (lookup_mem hk)]; rfl
      by_cases hlen : a.children.length < b.parents.length
      · rw [if_pos hlen]
        exact key (fun B ty hm => ((h.ch i a x ha hax B ty).mp hm).1)
      · rw [if_neg hlen]
        exact key (fun B ty hm => ((h.pa j b y hb hby B ty).mp hm).1)
    rw [hweak]
    simp only [Bool.false_eq_true, if_false]
    unfold addOrderingIfMissing
    simp only [ha, hb]
    by_cases ho : O x y
    · have m1 : (j, OrderingType.natural) ∈ a.children := (h.ch i a x ha hax j .natural).mpr ⟨rfl, y, hj, ho⟩
      have m2 : (i, OrderingType.natural) ∈ b.parents := (h.pa j b y hb hby i .natural).mpr ⟨rfl, x, hi, ho⟩
      cases l1 : lookupOrdering a.children j with
      | none => exact absurd m1 (lookup_none.mp l1 _)
      | some _ =>
        cases l2 : lookupOrdering b.parents i with
        | none => exact absurd m2 (lookup_none.mp l2 _)
        | some _ =>
          refine ⟨g, rfl, h.congr (fun _ _ => Iff.rfl) (fun _ => Iff.rfl) (fun p q => ⟨fun hh => hh.elim id ?_, Or.inl⟩), fun _ _ => Iff.rfl⟩
          rintro ⟨rfl, rfl⟩
          exact ho
    · have l1 : lookupOrdering a.children j = none := by
        rw [lookup_none]
        intro ty hm
        obtain ⟨_, z, hz, ho'⟩ := (h.ch i a x ha hax j ty).mp hm
        rw [hz.inj hj] at ho'
        exact ho ho'
      have l2 : lookupOrdering b.parents i = none := by
        rw [lookup_none]
        intro ty hm
        obtain ⟨_, z, hz, ho'⟩ := (h.pa j b y hb hby i ty).mp hm
        rw [hz.inj hi] at ho'
        exact ho ho'
      rw [l1, l2]
      simp only
      have hat : ∀ k z, At (insertOrdering g i j .natural) k z ↔ At g k z := by
        intro k z
        unfold insertOrdering
        exact (at_modify (fun _ => by rfl) k z).trans (at_modify (fun _ => by rfl) k z)
      refine ⟨_, rfl, ?_, hat⟩
      have hget : ∀ {k : Nat} {n : Node}, (insertOrdering g i j .natural)[k]? = some n → ∃ n0, g[k]? = some n0 ∧ n.landmark = n0.landmark ∧
          n.children = (if i = k then n0.children ++ [(j, .natural)] else n0.children) ∧ n.parents = (if j = k then n0.parents ++ [(i, .natural)] else n0.parents) := by
        intro k n hn
        unfold insertOrdering at hn
        rw [List.getElem?_modify, List.getElem?_modify] at hn
        cases hk : g[k]? with
        | none => rw [hk] at hn; simp at hn
        | some n0 =>
          rw [hk] at hn
          refine ⟨n0, rfl, ?_⟩
          by_cases hik : i = k <;> by_cases hjk : j = k
          all_goals
            simp only [hik, hjk, if_true, if_false, Option.map_eq_map, Option.map_some, Option.some.injEq] at hn ⊢
            subst hn
            exact ⟨rfl, rfl, rfl⟩
      have hxy : N x ∧ N y := ⟨h.at_N hi, h.at_N hj⟩
      constructor
      · intro n hn
        obtain ⟨k, hk⟩ := List.mem_iff_getElem?.mp hn
        obtain ⟨n0, h1, h2, _⟩ := hget hk
        rw [h2]
        exact h.node n0 (List.mem_of_getElem? h1)
      · intro f hf
        obtain ⟨k, hk⟩ := h.has f hf
        exact ⟨k, (hat k f).mpr hk⟩
      · intro p q f hp hq
        exact h.uniq p q f ((hat p f).mp hp) ((hat q f).mp hq)
      · rintro p q (hh | ⟨rfl, rfl⟩)
        · exact h.sub p q hh
        · exact hxy
      · intro A n fa hA hfa B ty
        obtain ⟨n0, h1, h2, h3, _⟩ := hget hA
        rw [h2] at hfa
        simp only [hat]
        rw [h3]
        by_cases hiA : i = A
        · subst hiA
          have : fa = x := At.inj ⟨n0, h1, hfa⟩ hi
          subst this
          rw [if_pos rfl, List.mem_append, h.ch _ n0 _ h1 hfa B ty, List.mem_singleton, Prod.mk.injEq]
          constructor
          · rintro (⟨h4, fb, h5, h6⟩ | ⟨rfl, rfl⟩)
            · exact ⟨h4, fb, h5, Or.inl h6⟩
            · exact ⟨rfl, y, hj, Or.inr ⟨rfl, rfl⟩⟩
          · rintro ⟨h4, fb, h5, h6 | ⟨_, rfl⟩⟩
            · exact Or.inl ⟨h4, fb, h5, h6⟩
            · exact Or.inr ⟨h.uniq _ _ _ h5 hj, h4⟩
        · rw [if_neg hiA, h.ch A n0 fa h1 hfa B ty]
          refine and_congr Iff.rfl ⟨fun ⟨fb, h5, h6⟩ => ⟨fb, h5, Or.inl h6⟩, ?_⟩
          rintro ⟨fb, h5, h6 | ⟨rfl, _⟩⟩
          · exact ⟨fb, h5, h6⟩
          · exact absurd (h.uniq _ _ _ hi ⟨n0, h1, hfa⟩) hiA
      · intro B n fb hB hfb A ty
        obtain ⟨n0, h1, h2, _, h3⟩ := hget hB
        rw [h2] at hfb
        simp only [hat]
        rw [h3]
        by_cases hjB : j = B
        · subst hjB
          have : fb = y := At.inj ⟨n0, h1, hfb⟩ hj
          subst this
          rw [if_pos rfl, List.mem_append, h.pa _ n0 _ h1 hfb A ty, List.mem_singleton, Prod.mk.injEq]
          constructor
          · rintro (⟨h4, fa, h5, h6⟩ | ⟨rfl, rfl⟩)
            · exact ⟨h4, fa, h5, Or.inl h6⟩
            · exact ⟨rfl, x, hi, Or.inr ⟨rfl, rfl⟩⟩
          · rintro ⟨h4, fa, h5, h6 | ⟨rfl, _⟩⟩
            · exact Or.inl ⟨h4, fa, h5, h6⟩
            · exact Or.inr ⟨h.uniq _ _ _ h5 hi, h4⟩
        · rw [if_neg hjB, h.pa B n0 fb h1 hfb A ty]
          refine and_congr Iff.rfl ⟨fun ⟨fa, h5, h6⟩ => ⟨fa, h5, Or.inl h6⟩, ?_⟩
          rintro ⟨fa, h5, h6 | ⟨_, rfl⟩⟩
          · exact ⟨fa, h5, h6⟩
          · exact absurd (h.uniq _ _ _ hj ⟨n0, h1, hfb⟩) hjB

/-- the graph only depends on the members of the sets -/
theorem ZInv.eq (h : ZInv G N O g) {G' N' : Fact → Prop} {O' : Fact → Fact → Prop} (hG : ∀ f, G' f ↔ G f) (hN : ∀ f, N' f ↔ N f) (hO : ∀ x y, O' x y ↔ O x y) : ZInv G' N' O' g :=
  h.congr (fun f _ => hG f) hN hO

theorem extractLabels_spec {goal : Fact} {i : Nat} (useOrders : Bool) : ∀ (fs : List Fact) (g : Graph) (N : Fact → Prop) (O : Fact → Fact → Prop), ZInv G N O g → At g i goal →
    (∀ f, G f → N f) → (∀ f ∈ fs, f ≠ goal → ¬O goal f) →
    ∃ g', extractLabels useOrders goal i fs g = some g' ∧ ZInv G (fun x => N x ∨ x ∈ fs) (fun a b => O a b ∨ (useOrders = true ∧ a ∈ fs ∧ a ≠ goal ∧ b = goal)) g'
  | [], g, N, O, h, _, _, _ => ⟨g, rfl, h.eq (fun _ => Iff.rfl) (fun _ => by simp) (fun _ _ => by simp)⟩
  | f :: fs, g, N, O, h, hi, hGN, hno => by
    rw [extractLabels]
    by_cases hf : f = goal
    · rw [if_pos hf]
      obtain ⟨g', h1, h2⟩ := extractLabels_spec useOrders fs g N O h hi hGN (fun x hx => hno x (by simp [hx]))
      refine ⟨g', h1, h2.eq (fun _ => Iff.rfl) (fun x => ?_) (fun a b => ?_)⟩
      · simp only [List.mem_cons]
        constructor
        · rintro (hx | rfl | hx)
          · exact Or.inl hx
          · rw [hf]; exact Or.inl (h.at_N hi)
          · exact Or.inr hx
        · rintro (hx | hx)
          · exact Or.inl hx
          · exact Or.inr (Or.inr hx)
      · simp only [List.mem_cons]
        constructor
        · rintro (hx | ⟨h3, rfl | h4, h5, h6⟩)
          · exact Or.inl hx
          · exact absurd hf h5
          · exact Or.inr ⟨h3, h4, h5, h6⟩
        · rintro (hx | ⟨h3, h4, h5, h6⟩)
          · exact Or.inl hx
          · exact Or.inr ⟨h3, Or.inr h4, h5, h6⟩
    · rw [if_neg hf]
      obtain ⟨g1, j, k1, k2, k3, k4⟩ := h.nodeOfLabel (f := f) (by
        by_cases hN : N f
        · exact Or.inl hN
        · exact Or.inr (fun hG => hN (hGN f hG)))
      rw [k1]
      simp only
      obtain ⟨g2, l1, l2, l3⟩ := k2.order k3 (k4 i goal hi) (hno f (by simp) hf) useOrders
      rw [l1]
      simp only
      obtain ⟨g', h1, h2⟩ := extractLabels_spec useOrders fs g2 _ _ l2 ((l3 _ _).mpr (k4 i goal hi)) (fun x hx => Or.inl (hGN x hx)) (by
        rintro x hx hxg (hh | ⟨_, h3, h4⟩)
        · exact hno x (by simp [hx]) hxg hh
        · exact hxg h4)
      refine ⟨g', h1, h2.eq (fun _ => Iff.rfl) (fun x => ?_) (fun a b => ?_)⟩
      · simp only [List.mem_cons, or_assoc]
      · simp only [List.mem_cons]
        constructor
        · rintro (hx | ⟨h3, rfl | h4, h5, h6⟩)
          · exact Or.inl (Or.inl hx)
          · exact Or.inl (Or.inr ⟨h3, rfl, h6⟩)
          · exact Or.inr ⟨h3, h4, h5, h6⟩
        · rintro ((hx | ⟨h3, rfl, h6⟩) | ⟨h3, h4, h5, h6⟩)
          · exact Or.inl hx
          · exact Or.inr ⟨h3, Or.inl rfl, hf, h6⟩
          · exact Or.inr ⟨h3, Or.inr h4, h5, h6⟩

theorem extractGoals_spec {ord : HashOrder} (hord : ord.Complete) (useOrders : Bool) {l : Layer} (hanti : ∀ x y, x ≠ y → x ∈ l y → y ∉ l x) :
    ∀ (goals : List Fact) (g : Graph) (G N : Fact → Prop) (O : Fact → Fact → Prop), ZInv G N O g → (∀ f, G f → N f) → (∀ x y, O x y → x ≠ y ∧ x ∈ l y) →
    ∃ g', extractGoals ord useOrders l goals g = some g' ∧ ZInv (fun x => G x ∨ x ∈ goals) (fun x => N x ∨ x ∈ goals ∨ ∃ y ∈ goals, x ∈ l y)
      (fun a b => O a b ∨ (useOrders = true ∧ b ∈ goals ∧ a ∈ l b ∧ a ≠ b)) g'
  | [], g, G, N, O, h, _, _ => ⟨g, rfl, h.eq (fun _ => by simp) (fun _ => by simp) (fun _ _ => by simp)⟩
  | goal :: goals, g, G, N, O, h, hGN, hO => by
    rw [extractGoals]
    obtain ⟨g1, i, k1, k2, k3⟩ := h.createGoal goal
    rw [k1]
    simp only
    have hmem : ∀ x, x ∈ ord.facts (l goal) ↔ x ∈ l goal := fun x => (hord.facts _).mem_iff
    obtain ⟨g2, l1, l2⟩ := extractLabels_spec useOrders (ord.facts (l goal)) g1 _ _ k2 k3 (fun f hf => hf.imp (hGN f) id) (by
      intro f hf hfg hh
      rw [hmem] at hf
      exact hanti f goal hfg hf (hO _ _ hh).2)
    rw [l1]
    simp only
    obtain ⟨g', h1, h2⟩ := extractGoals_spec hord useOrders hanti goals g2 _ _ _ l2 (fun f hf => Or.inl (hf.imp (hGN f) id)) (by
      rintro x y (hh | ⟨_, h3, h4, rfl⟩)
      · exact hO x y hh
      · exact ⟨h4, (hmem x).mp h3⟩)
    refine ⟨g', h1, h2.eq (fun x => ?_) (fun x => ?_) (fun a b => ?_)⟩
    · simp only [List.mem_cons, or_assoc]
    · simp only [List.mem_cons, hmem, exists_eq_or_imp]
      tauto
    · simp only [List.mem_cons, hmem]
      constructor
      · rintro (hx | ⟨h3, rfl | h4, h5, h6⟩)
        · exact Or.inl (Or.inl hx)
        · exact Or.inl (Or.inr ⟨h3, h5, h6, rfl⟩)
        · exact Or.inr ⟨h3, h4, h5, h6⟩
      · rintro ((hx | ⟨h3, h4, h5, rfl⟩) | ⟨h3, h4, h5, h6⟩)
        · exact Or.inl hx
        · exact Or.inr ⟨h3, Or.inl rfl, h4, h5⟩
        · exact Or.inr ⟨h3, Or.inr h4, h5, h6⟩

end Verif.Landmarks
