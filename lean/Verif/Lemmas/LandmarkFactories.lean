import Verif.Lemmas.LandmarkGraphs

/-
The graphs of the landmark factories of Zhu and Givan and of exhaustive search.
-/
namespace Verif.Landmarks
variable {t : Task}

/-- facts that can be reached in the delete relaxation in `n` rounds -/
inductive ReachIn (t : Task) : Nat → Fact → Prop where
  | init (n f) : f.holds t.init → ReachIn t n f
  | effect (n i cs f c) : t.RelEffect i cs f c → (∀ q ∈ cs, ReachIn t n q) → ReachIn t (n + 1) f

theorem ReachIn.mono {n m : Nat} {f : Fact} (h : ReachIn t n f) (hnm : n ≤ m) : ReachIn t m f := by
  induction h generalizing m with
  | init n f h => exact .init _ _ h
  | effect n i cs f c hre _ ih =>
    obtain ⟨m, rfl⟩ : ∃ k, m = k + 1 := ⟨m - 1, by omega⟩
    exact .effect m i cs f c hre (fun q hq => ih q hq (by omega))

theorem bound_list {P : Nat → Fact → Prop} (hm : ∀ {n m f}, P n f → n ≤ m → P m f) : ∀ (cs : List Fact), (∀ q ∈ cs, ∃ n, P n q) → ∃ n, ∀ q ∈ cs, P n q
  | [], _ => ⟨0, by simp⟩
  | q :: cs, h => by
    obtain ⟨n, hn⟩ := h q (by simp)
    obtain ⟨m, hmm⟩ := bound_list (P := P) (fun h hle => hm h hle) cs (fun x hx => h x (by simp [hx]))
    refine ⟨max n m, fun x hx => ?_⟩
    rcases List.mem_cons.mp hx with rfl | hx
    · exact hm hn (by omega)
    · exact hm (hmm x hx) (by omega)

theorem reachIn_of_reach {f : Fact} (h : Reach0 t f) : ∃ n, ReachIn t n f := by
  induction h with
  | state f h => exact ⟨0, .init _ _ h⟩
  | effect i cs f c hre _ _ ih =>
    obtain ⟨n, hn⟩ := bound_list (P := ReachIn t) (fun h hle => h.mono hle) cs ih
    exact ⟨n + 1, .effect n i cs f c hre hn⟩

/-- facts that are reached early do not need facts that are reached late -/
theorem avoid_of_reachIn {n : Nat} {f x : Fact} (h : ReachIn t n f) (hx : ¬ReachIn t n x) : t.ReachAvoiding [x] true f := by
  induction h with
  | init n f h => exact .init f h (by rintro hm; rw [List.mem_singleton] at hm; subst hm; exact hx (.init _ _ h))
  | effect n i cs f c hre hcs ih =>
    refine .effect i cs f c hre ?_ (fun h => by cases h) (fun q hq => ih q hq (fun hh => hx (hh.mono (by omega))))
    intro hm
    rw [List.mem_singleton] at hm
    subst hm
    exact hx (.effect n i cs f c hre hcs)

theorem reachIn_label {n : Nat} {f x : Fact} (h : ReachIn t n f) (hne : x ≠ f) (hx : ¬t.ReachAvoiding [x] true f) : ∃ m, m + 1 = n ∧ ReachIn t m x := by
  cases h with
  | init n f h => exact absurd (.init f h (by simpa using fun h => hne h.symm)) hx
  | effect n i cs f c hre hcs =>
    refine ⟨n, rfl, ?_⟩
    by_contra hc
    exact hx (.effect i cs f c hre (by simpa using fun h => hne h.symm) (fun h => by cases h) (fun q hq => avoid_of_reachIn (hcs q hq) hc))

/-- two different facts are not needed for each other -/
theorem avoid_antisymm {f x : Fact} (hf : Reach0 t f) (hne : x ≠ f) (h1 : ¬t.ReachAvoiding [x] true f) (h2 : ¬t.ReachAvoiding [f] true x) : False := by
  obtain ⟨n, hn⟩ := reachIn_of_reach hf
  induction n using Nat.strongRecOn with
  | ind n ih =>
    obtain ⟨m, rfl, hm⟩ := reachIn_label hn hne h1
    obtain ⟨k, rfl, hk⟩ := reachIn_label hm (Ne.symm hne) h2
    exact ih k (by omega) hk

/-! ### Zhu and Givan -/

/-- the graph before the achievers are computed -/
theorem zhuGivan_graph (hf : t.FactsValid) (hpre : ∀ o ∈ t.ops ++ t.axioms, ∀ q ∈ o.pre, t.ValidFact q) (hs : t.ValidState t.init) {ord : HashOrder} (hord : ord.Complete) (useOrders : Bool) :
    ∃ l g, buildLabels t ord = some l ∧ extractLandmarks t ord useOrders l = some g ∧
      (((∀ y ∈ t.goal, Reach0 t y) ∧ ZInv (· ∈ t.goal) (fun x => ∃ y ∈ t.goal, ¬t.ReachAvoiding [x] true y) (fun a b => useOrders = true ∧ b ∈ t.goal ∧ ¬t.ReachAvoiding [a] true b ∧ a ≠ b) g) ∨
       ∃ y ∈ t.goal, ¬Reach0 t y ∧ g = [⟨atomicLandmark y true, [], []⟩]) := by
  have hpre' : ∀ id o, (id, o) ∈ opsAndAxioms t → ∀ q ∈ o.pre, t.ValidFact q := by
    intro id o ho
    refine hpre o ?_
    rcases mem_opsAndAxioms.mp ho with ⟨i, hi, _⟩ | ⟨i, hi, _⟩
    · exact List.mem_append_left _ (List.mem_of_getElem? hi)
    · exact List.mem_append_right _ (List.mem_of_getElem? hi)
  obtain ⟨l, h1, h2, h3, h4⟩ := buildLabels_spec hf hpre' hs hord
  refine ⟨l, ?_⟩
  unfold extractLandmarks
  rw [if_pos (by rw [List.all_eq_true]; exact fun f hm => hasFact_iff.mpr (hf.goal f hm))]
  cases hu : unreachedGoal l t.goal with
  | some y =>
    unfold unreachedGoal at hu
    have hm := List.mem_of_find?_eq_some hu
    have hy := List.find?_some hu
    refine ⟨[⟨atomicLandmark y true, [], []⟩], h1, ?_, Or.inr ⟨y, hm, ?_, rfl⟩⟩
    · simp only [Graph.addLandmark]
      rw [if_pos]
      · rfl
      · right
        rw [List.all_eq_true]
        intro x _
        rfl
    · rw [← h2]
      simpa [Layer.reached] using hy
  | none =>
    have hreach : ∀ y ∈ t.goal, Reach0 t y := by
      intro y hy
      unfold unreachedGoal at hu
      rw [List.find?_eq_none] at hu
      have := hu y hy
      rw [← h2]
      simpa [Layer.reached] using this
    have hlr : ∀ {x y : Fact}, x ∈ l y → Reach0 t y := by
      intro x y hx
      exact (h2 y).mp (by intro he; rw [he] at hx; cases hx)
    obtain ⟨g, k1, k2⟩ := extractGoals_spec hord useOrders (l := l) (by
      intro x y hne hx hy
      exact avoid_antisymm (hlr hx) hne ((h3 y (hlr hx) x).mp hx) ((h3 x (hlr hy) y).mp hy)) t.goal [] _ _ _ ZInv.empty (fun _ h => h) (fun _ _ h => h.elim)
    refine ⟨g, h1, k1, Or.inl ⟨hreach, k2.eq (fun f => by simp) (fun f => ?_) (fun a b => ?_)⟩⟩
    · simp only [false_or]
      constructor
      · rintro ⟨y, hy, hn⟩
        exact Or.inr ⟨y, hy, (h3 y (hreach y hy) f).mpr hn⟩
      · rintro (hm | ⟨y, hy, hm⟩)
        · refine ⟨f, hm, fun h => ?_⟩
          cases h with
          | init _ _ h => exact h (by simp)
          | effect _ _ _ _ _ h => exact h (by simp)
        · exact ⟨y, hy, (h3 y (hreach y hy) f).mp hm⟩
    · simp only [false_or]
      refine and_congr Iff.rfl ⟨fun ⟨h5, h6, h7⟩ => ⟨h5, (h3 b (hreach b h5) a).mpr h6, h7⟩, fun ⟨h5, h6, h7⟩ => ⟨h5, (h3 b (hreach b h5) a).mp h6, h7⟩⟩

/-- facts that are needed to reach a reachable fact exist -/
theorem valid_of_avoid (hf : t.FactsValid) (hs : t.ValidState t.init) {x y : Fact} (hy : Reach0 t y) (h : ¬t.ReachAvoiding [x] true y) : t.ValidFact x := by
  by_contra hx
  apply h
  have hval : ∀ f : Fact, f.holds t.init → t.ValidFact f := by
    intro f hf
    have hlt := (List.getElem?_eq_some_iff.mp hf).1
    rw [hs.1] at hlt
    exact ⟨_, List.getElem?_eq_getElem hlt, hs.2 _ _ _ hf (List.getElem?_eq_getElem hlt)⟩
  clear h
  induction hy with
  | state f h => exact .init f h (by intro hm; rw [List.mem_singleton] at hm; subst hm; exact hx (hval _ h))
  | effect i cs f c hre _ _ ih => exact .effect i cs f c hre (by intro hm; rw [List.mem_singleton] at hm; subst hm; exact hx (hf.effect _ _ _ _ hre).1) (fun h => by cases h) ih

/-! ### Validity of graphs with atomic landmarks and natural orderings -/

theorem atomic_holds {l : Landmark} {f : Fact} {b : Bool} (h : l = atomicLandmark f b) : l.Holds = f.holds := by
  funext s
  rw [h]
  unfold Landmark.Holds atomicLandmark allHold
  simp

theorem ZInv.valid {G N : Fact → Prop} {O : Fact → Fact → Prop} {g : Graph} (h : ZInv G N O g) (hN : ∀ f, N f → t.ValidFact f ∧ IsLandmark t f.holds) (hG : ∀ f, G f → f ∈ t.goal)
    (hO : ∀ x y, O x y → Ordering.Valid t x.holds y.holds .natural) : g.Valid t ∧ (∀ n ∈ g, n.landmark.Simple) ∧ ∀ n ∈ g, n.landmark.isDerived = false := by
  refine ⟨?_, ?_, ?_⟩
  · constructor
    · intro n hn f hf
      obtain ⟨x, b, h1, h2, _⟩ := h.node n hn
      rw [h1] at hf
      simp only [atomicLandmark, List.mem_singleton] at hf
      rw [hf]
      exact (hN x h2).1
    · intro n hn
      obtain ⟨x, b, h1, h2, _⟩ := h.node n hn
      rw [atomic_holds h1]
      exact (hN x h2).2
    · intro n hn hgoal
      obtain ⟨x, b, h1, _, h3⟩ := h.node n hn
      rw [atomic_holds h1]
      rw [h1] at hgoal
      intro s _ hg
      exact hg x (hG x (h3.mp hgoal))
    · intro b hb A ty hA
      obtain ⟨x, b', h1, _, _⟩ := h.node b hb
      obtain ⟨B, hB⟩ := List.mem_iff_getElem?.mp hb
      obtain ⟨rfl, y, ⟨a, ha, hay⟩, ho⟩ := (h.pa B b x hB (by rw [h1]; rfl) A ty).mp hA
      refine ⟨a, ha, ?_⟩
      obtain ⟨y', c, h4, _, _⟩ := h.node a (List.mem_of_getElem? ha)
      rw [h4] at hay
      simp only [atomicLandmark, List.cons.injEq, and_true] at hay
      subst hay
      rw [atomic_holds h1, atomic_holds h4]
      exact hO _ _ ho
    · intro b hb A ty hA
      obtain ⟨x, b', h1, _, _⟩ := h.node b hb
      obtain ⟨B, hB⟩ := List.mem_iff_getElem?.mp hb
      obtain ⟨rfl, y, ⟨a, ha, hay⟩, ho⟩ := (h.ch B b x hB (by rw [h1]; rfl) A ty).mp hA
      refine ⟨a, ha, ?_⟩
      obtain ⟨y', c, h4, _, _⟩ := h.node a (List.mem_of_getElem? ha)
      rw [h4] at hay
      simp only [atomicLandmark, List.cons.injEq, and_true] at hay
      subst hay
      rw [atomic_holds h1, atomic_holds h4]
      exact hO _ _ ho
  · intro n hn
    obtain ⟨x, b, h1, _, _⟩ := h.node n hn
    exact Or.inr ⟨x, by rw [h1]; rfl⟩
  · intro n hn
    obtain ⟨x, b, h1, _, _⟩ := h.node n hn
    rw [h1]
    rfl

/-! ### Exhaustive search -/

theorem generateGoals_spec {O : Fact → Fact → Prop} {G : Fact → Prop} : ∀ (fs : List Fact) (g : Graph) (N : Fact → Prop), ZInv G N O g → fs.Nodup → (∀ f ∈ fs, ¬N f ∧ G f) →
    ∃ g', generateGoalLandmarks fs g = some g' ∧ ZInv G (fun x => N x ∨ x ∈ fs) O g'
  | [], g, N, h, _, _ => ⟨g, rfl, h.eq (fun _ => Iff.rfl) (fun _ => by simp) (fun _ _ => Iff.rfl)⟩
  | f :: fs, g, N, h, hnd, hf => by
    rw [List.nodup_cons] at hnd
    obtain ⟨g1, k1, k2, _⟩ := h.addLandmark (hf f (by simp)).1 true (by simpa using (hf f (by simp)).2)
    rw [generateGoalLandmarks, k1]
    simp only
    obtain ⟨g', l1, l2⟩ := generateGoals_spec fs g1 _ k2 hnd.2 (fun x hx => ⟨by
      rintro (hh | rfl)
      · exact (hf x (by simp [hx])).1 hh
      · exact hnd.1 hx, (hf x (by simp [hx])).2⟩)
    exact ⟨g', l1, l2.eq (fun _ => Iff.rfl) (fun x => by simp only [List.mem_cons, or_assoc]) (fun _ _ => Iff.rfl)⟩

theorem relaxedTaskSolvable_spec (hf : t.FactsValid) (hs : t.ValidState t.init) {unary : Bool} {x : Fact} (hx : t.ValidFact x) :
    ∃ b, relaxedTaskSolvable t unary [x] = some b ∧ (b = true ↔ ∀ y ∈ t.goal, t.ReachAvoiding [x] unary y) := by
  unfold relaxedTaskSolvable
  obtain ⟨reached, h1, h2, _⟩ := reachability_spec (unary := unary) hf hs (X := [x]) (by simpa using hx)
  rw [h1]
  simp only
  obtain ⟨b, k1, k2⟩ := conditionIsReachable_spec (reached := reached) t.goal hf.goal
  exact ⟨b, k1, by simp only [k2, h2]⟩

theorem generateAtomic_spec (hf : t.FactsValid) (hs : t.ValidState t.init) {unary : Bool} {O : Fact → Fact → Prop} {G : Fact → Prop} : ∀ (fs : List Fact) (g : Graph) (N : Fact → Prop), ZInv G N O g →
    (∀ f ∈ fs, t.ValidFact f) → (∀ f, G f → N f) →
    ∃ g', generateAtomicLandmarks t unary fs g = some g' ∧ ZInv G (fun x => N x ∨ (x ∈ fs ∧ ¬∀ y ∈ t.goal, t.ReachAvoiding [x] unary y)) O g'
  | [], g, N, h, _, _ => ⟨g, rfl, h.eq (fun _ => Iff.rfl) (fun _ => by simp) (fun _ _ => Iff.rfl)⟩
  | f :: fs, g, N, h, hv, hG => by
    have hv' : ∀ f ∈ fs, t.ValidFact f := fun x hx => hv x (by simp [hx])
    rw [generateAtomicLandmarks]
    cases hc : g.findAtomic f with
    | some i =>
      simp only [Option.isSome_some, if_true]
      obtain ⟨g', h1, h2⟩ := generateAtomic_spec hf hs (unary := unary) fs g N h hv' hG
      refine ⟨g', h1, h2.eq (fun _ => Iff.rfl) (fun x => ?_) (fun _ _ => Iff.rfl)⟩
      have hNf := h.at_N (h.findAtomic_some.mp hc)
      constructor
      · rintro (hh | ⟨hm, hh⟩)
        · exact Or.inl hh
        · rcases List.mem_cons.mp hm with rfl | hm
          · exact Or.inl hNf
          · exact Or.inr ⟨hm, hh⟩
      · rintro (hh | ⟨hm, hh⟩)
        · exact Or.inl hh
        · exact Or.inr ⟨by simp [hm], hh⟩
    | none =>
      simp only [Option.isSome_none, Bool.false_eq_true, if_false]
      have hNf := h.findAtomic_none.mp hc
      obtain ⟨b, k1, k2⟩ := relaxedTaskSolvable_spec hf hs (unary := unary) (hv f (by simp))
      rw [k1]
      cases b with
      | true =>
        simp only
        obtain ⟨g', h1, h2⟩ := generateAtomic_spec hf hs (unary := unary) fs g N h hv' hG
        refine ⟨g', h1, h2.eq (fun _ => Iff.rfl) (fun x => ?_) (fun _ _ => Iff.rfl)⟩
        constructor
        · rintro (hh | ⟨hm, hh⟩)
          · exact Or.inl hh
          · rcases List.mem_cons.mp hm with rfl | hm
            · exact absurd (k2.mp rfl) hh
            · exact Or.inr ⟨hm, hh⟩
        · rintro (hh | ⟨hm, hh⟩)
          · exact Or.inl hh
          · exact Or.inr ⟨by simp [hm], hh⟩
      | false =>
        simp only
        obtain ⟨g1, l1, l2, _⟩ := h.addLandmark hNf false (by simpa using fun h' => hNf (hG f h'))
        rw [l1]
        simp only
        obtain ⟨g', h1, h2⟩ := generateAtomic_spec hf hs (unary := unary) fs g1 _ l2 hv' (fun x hx => Or.inl (hG x hx))
        refine ⟨g', h1, h2.eq (fun _ => Iff.rfl) (fun x => ?_) (fun _ _ => Iff.rfl)⟩
        constructor
        · rintro (hh | ⟨hm, hh⟩)
          · exact Or.inl (Or.inl hh)
          · rcases List.mem_cons.mp hm with rfl | hm
            · exact Or.inl (Or.inr rfl)
            · exact Or.inr ⟨hm, hh⟩
        · rintro ((hh | rfl) | ⟨hm, hh⟩)
          · exact Or.inl hh
          · exact Or.inr ⟨by simp, fun hall => by simpa using k2.mpr hall⟩
          · exact Or.inr ⟨by simp [hm], hh⟩

/-- the graph before the achievers are computed -/
theorem exhaust_graph (hf : t.FactsValid) (hs : t.ValidState t.init) (hnd : t.goal.Nodup) (unary : Bool) :
    ∃ g0 g, generateGoalLandmarks t.goal [] = some g0 ∧ generateAtomicLandmarks t unary (allFacts t) g0 = some g ∧
      ZInv (· ∈ t.goal) (fun x => t.ValidFact x ∧ ∃ y ∈ t.goal, ¬t.ReachAvoiding [x] unary y) (fun _ _ => False) g := by
  have h0 : ZInv (· ∈ t.goal) (fun _ => False) (fun _ _ => False) [] := ZInv.empty.congr (fun _ h => h.elim) (fun _ => Iff.rfl) (fun _ _ => Iff.rfl)
  obtain ⟨g0, h1, h2⟩ := generateGoals_spec t.goal [] _ h0 hnd (fun f hf => ⟨id, hf⟩)
  obtain ⟨g, k1, k2⟩ := generateAtomic_spec hf hs (unary := unary) (allFacts t) g0 _ h2 (fun f hf => mem_allFacts.mp hf) (fun f hf => Or.inr hf)
  refine ⟨g0, g, h1, k1, k2.eq (fun _ => Iff.rfl) (fun x => ?_) (fun _ _ => Iff.rfl)⟩
  simp only [false_or, mem_allFacts, not_forall]
  constructor
  · rintro ⟨h3, y, hy, h4⟩
    exact Or.inr ⟨h3, y, hy, h4⟩
  · rintro (hm | ⟨h3, y, hy, h4⟩)
    · refine ⟨hf.goal x hm, x, hm, fun h => ?_⟩
      cases h with
      | init _ _ h => exact h (by simp)
      | effect _ _ _ _ _ h => exact h (by simp)
    · exact ⟨h3, y, hy, h4⟩

end Verif.Landmarks
