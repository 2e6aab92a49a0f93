import Verif.Lemmas.LandmarkReach
import Verif.Lemmas.LandmarkRuns

/-
The achievers that are computed for the landmarks of a graph.
-/
namespace Verif.Landmarks
variable {t : Task}

theorem conditionIsReachable_spec {reached : List Fact} : ∀ (fs : List Fact), (∀ f ∈ fs, t.ValidFact f) →
    ∃ b, conditionIsReachable t reached fs = some b ∧ (b = true ↔ ∀ f ∈ fs, f ∈ reached)
  | [], _ => ⟨true, rfl, by simp⟩
  | f :: fs, h => by
    rw [conditionIsReachable, if_pos (hasFact_iff.mpr (h f (by simp)))]
    by_cases hc : reached.contains f = true
    · rw [if_pos hc]
      obtain ⟨b, h1, h2⟩ := conditionIsReachable_spec (reached := reached) fs (fun q hq => h q (by simp [hq]))
      exact ⟨b, h1, by rw [h2, List.forall_mem_cons]; exact ⟨fun h => ⟨List.contains_iff_mem.mp hc, h⟩, fun h => h.2⟩⟩
    · rw [if_neg hc]
      refine ⟨false, rfl, ?_⟩
      rw [List.forall_mem_cons]
      exact ⟨fun h => (by cases h), fun h => absurd (List.contains_iff_mem.mpr h.1) hc⟩

theorem someEffectReaches_spec {reached atoms : List Fact} : ∀ (es : List Effect), (∀ e ∈ es, ∀ f ∈ e.conds, t.ValidFact f) →
    ∃ b, someEffectReaches t reached atoms es = some b ∧ (b = true ↔ ∃ e ∈ es, e.fact ∈ atoms ∧ ∀ f ∈ e.conds, f ∈ reached)
  | [], _ => ⟨false, rfl, by simp⟩
  | e :: es, h => by
    obtain ⟨b, h1, h2⟩ := someEffectReaches_spec (reached := reached) (atoms := atoms) es (fun q hq => h q (by simp [hq]))
    rw [someEffectReaches]
    by_cases hc : atoms.contains e.fact = true
    · rw [if_pos hc]
      obtain ⟨b', k1, k2⟩ := conditionIsReachable_spec (reached := reached) e.conds (h e (by simp))
      rw [k1]
      cases b' with
      | true => exact ⟨true, rfl, by simp only [true_iff]; exact ⟨e, by simp, List.contains_iff_mem.mp hc, k2.mp rfl⟩⟩
      | false =>
        refine ⟨b, h1, h2.trans ⟨fun ⟨x, hx, h⟩ => ⟨x, by simp [hx], h⟩, ?_⟩⟩
        rintro ⟨x, hx, h3, h4⟩
        rcases List.mem_cons.mp hx with rfl | hx
        · exact absurd (k2.mpr h4) (by simp)
        · exact ⟨x, hx, h3, h4⟩
    · rw [if_neg hc]
      refine ⟨b, h1, h2.trans ⟨fun ⟨x, hx, h⟩ => ⟨x, by simp [hx], h⟩, ?_⟩⟩
      rintro ⟨x, hx, h3, h4⟩
      rcases List.mem_cons.mp hx with rfl | hx
      · exact absurd (List.contains_iff_mem.mpr h3) hc
      · exact ⟨x, hx, h3, h4⟩

/-- the conditions of all operators and axioms exist -/
theorem opsAndAxioms_valid (hf : t.FactsValid) {id : Int} {o : Operator} (h : (id, o) ∈ opsAndAxioms t) {e : Effect} (he : e ∈ o.effects) :
    t.ValidFact e.fact ∧ ∀ q ∈ o.pre ++ e.conds, t.ValidFact q := by
  rcases mem_opsAndAxioms.mp h with ⟨i, hi, _⟩ | ⟨i, hi, _⟩
  · exact hf.effect _ _ _ _ (.op i o e hi he)
  · exact hf.effect _ _ _ _ (.ax o e (List.mem_of_getElem? hi) he)

theorem mem_operatorsIncludingEffect {f : Fact} {id : Int} : id ∈ operatorsIncludingEffect t f ↔ ∃ o, (id, o) ∈ opsAndAxioms t ∧ ∃ e ∈ o.effects, e.fact = f := by
  unfold operatorsIncludingEffect
  simp only [List.mem_flatMap, List.mem_map, List.mem_filter, beq_iff_eq]
  constructor
  · rintro ⟨x, hx, e, ⟨he, h1⟩, rfl⟩
    exact ⟨x.2, hx, e, he, h1⟩
  · rintro ⟨o, ho, e, he, h1⟩
    exact ⟨(id, o), ho, e, ⟨he, h1⟩, rfl⟩

theorem possibleAchievers_spec : ∀ (fs : List Fact) (r : List Int × Bool), (∀ f ∈ fs, t.ValidFact f) →
    ∃ r', computePossibleAchievers t fs r = some r' ∧ (∀ id, id ∈ r'.1 ↔ id ∈ r.1 ∨ ∃ f ∈ fs, id ∈ operatorsIncludingEffect t f) ∧
      (r'.2 = true ↔ r.2 = true ∨ ∃ f ∈ fs, t.derived f.var)
  | [], r, _ => ⟨r, rfl, by simp, by simp⟩
  | f :: fs, r, h => by
    obtain ⟨d, hd, hlt⟩ := h f (by simp)
    rw [computePossibleAchievers, if_pos (hasFact_iff.mpr ⟨d, hd, hlt⟩), hd]
    obtain ⟨r', h1, h2, h3⟩ := possibleAchievers_spec fs (insertAll r.1 (operatorsIncludingEffect t f), r.2 || d.layer.isSome) (fun q hq => h q (by simp [hq]))
    refine ⟨r', h1, fun id => ?_, ?_⟩
    · rw [h2, mem_insertAll]
      simp only [List.mem_cons, exists_eq_or_imp, or_assoc]
    · rw [h3]
      simp only [List.mem_cons, exists_eq_or_imp, Bool.or_eq_true, or_assoc]
      have : d.layer.isSome = true ↔ t.derived f.var := by
        unfold Task.derived
        rw [Option.isSome_iff_exists]
        constructor
        · rintro ⟨ℓ, hl⟩
          exact ⟨d, ℓ, hd, hl⟩
        · rintro ⟨d', ℓ, hd', hl⟩
          rw [hd] at hd'
          cases hd'
          exact ⟨ℓ, hl⟩
      rw [this]

theorem possiblyReaches_spec (hf : t.FactsValid) {reached atoms : List Fact} {id : Int} {o : Operator} (ho : (id, o) ∈ opsAndAxioms t) (he : ∃ e, e ∈ o.effects) :
    ∃ b, possiblyReachesLandmark t o reached atoms = some b ∧ (b = true ↔ (∀ q ∈ o.pre, q ∈ reached) ∧ ∃ e ∈ o.effects, e.fact ∈ atoms ∧ ∀ f ∈ e.conds, f ∈ reached) := by
  unfold possiblyReachesLandmark
  obtain ⟨e0, he0⟩ := he
  obtain ⟨b, h1, h2⟩ := conditionIsReachable_spec (t := t) (reached := reached) o.pre (fun q hq => (opsAndAxioms_valid hf ho he0).2 q (by simp [hq]))
  rw [h1]
  cases b with
  | false => exact ⟨false, rfl, ⟨fun h => (by cases h), fun h => absurd (h2.mpr h.1) (by simp)⟩⟩
  | true =>
    obtain ⟨b', k1, k2⟩ := someEffectReaches_spec (t := t) (reached := reached) (atoms := atoms) o.effects (fun e he q hq => (opsAndAxioms_valid hf ho he).2 q (by simp [hq]))
    exact ⟨b', k1, k2.trans ⟨fun h => ⟨h2.mp rfl, h⟩, fun h => h.2⟩⟩

theorem firstAchievers_spec (hf : t.FactsValid) {reached atoms : List Fact} : ∀ (ids : List Int), (∀ id ∈ ids, ∃ o, (id, o) ∈ opsAndAxioms t ∧ ∃ e, e ∈ o.effects) →
    ∃ l, computeFirstAchievers t reached atoms ids = some l ∧
      ∀ id, id ∈ l ↔ id ∈ ids ∧ ∃ o, (id, o) ∈ opsAndAxioms t ∧ (∀ q ∈ o.pre, q ∈ reached) ∧ ∃ e ∈ o.effects, e.fact ∈ atoms ∧ ∀ f ∈ e.conds, f ∈ reached
  | [], _ => ⟨[], rfl, by simp⟩
  | id :: ids, h => by
    obtain ⟨o, ho, he⟩ := h id (by simp)
    obtain ⟨l, h1, h2⟩ := firstAchievers_spec hf (reached := reached) (atoms := atoms) ids (fun x hx => h x (by simp [hx]))
    rw [computeFirstAchievers, getOperatorOrAxiom_iff.mpr ho]
    obtain ⟨b, k1, k2⟩ := possiblyReaches_spec (reached := reached) (atoms := atoms) hf ho he
    simp only [k1, h1]
    cases b with
    | true =>
      refine ⟨id :: l, rfl, fun x => ?_⟩
      rw [List.mem_cons, List.mem_cons, h2]
      constructor
      · rintro (rfl | ⟨h3, h4⟩)
        · exact ⟨Or.inl rfl, o, ho, k2.mp rfl⟩
        · exact ⟨Or.inr h3, h4⟩
      · rintro ⟨rfl | h3, h4⟩
        · exact Or.inl rfl
        · exact Or.inr ⟨h3, h4⟩
    | false =>
      refine ⟨l, rfl, fun x => ?_⟩
      rw [List.mem_cons, h2]
      constructor
      · rintro ⟨h3, h4⟩
        exact ⟨Or.inr h3, h4⟩
      · rintro ⟨rfl | h3, h4⟩
        · obtain ⟨o', ho', h4⟩ := h4
          rw [← getOperatorOrAxiom_iff] at ho ho'
          rw [ho] at ho'
          cases ho'
          exact absurd (k2.mpr h4) (by simp)
        · exact ⟨h3, h4⟩

/-- the achievers of a landmark -/
structure AchieversOf (t : Task) (n n' : Node) : Prop where
  parents : n'.parents = n.parents
  children : n'.children = n.children
  atoms : n'.landmark.atoms = n.landmark.atoms
  type : n'.landmark.type = n.landmark.type
  goal : n'.landmark.isTrueInGoal = n.landmark.isTrueInGoal
  derived : n'.landmark.isDerived = true ↔ n.landmark.isDerived = true ∨ ∃ f ∈ n.landmark.atoms, t.derived f.var
  possible : ∀ id, id ∈ n'.landmark.possibleAchievers ↔ ∃ o, (id, o) ∈ opsAndAxioms t ∧ ∃ e ∈ o.effects, e.fact ∈ n.landmark.atoms
  first : ∀ id, id ∈ n'.landmark.firstAchievers ↔ ∃ o, (id, o) ∈ opsAndAxioms t ∧ (∀ q ∈ o.pre, t.ReachAvoiding n.landmark.atoms false q) ∧
    ∃ e ∈ o.effects, e.fact ∈ n.landmark.atoms ∧ ∀ q ∈ e.conds, t.ReachAvoiding n.landmark.atoms false q

theorem calcAchieversNode_spec (hf : t.FactsValid) (hs : t.ValidState t.init) {n : Node} (hn : ∀ f ∈ n.landmark.atoms, t.ValidFact f) :
    ∃ n', calcAchieversNode t n = some n' ∧ AchieversOf t n n' := by
  unfold calcAchieversNode
  obtain ⟨⟨p, d⟩, h1, h2, h3⟩ := possibleAchievers_spec n.landmark.atoms ([], n.landmark.isDerived) hn
  obtain ⟨reached, k1, k2, _⟩ := reachability_spec (unary := false) hf hs hn
  rw [h1, k1]
  simp only at h2 h3 ⊢
  have h4 : ∀ id, id ∈ p ↔ ∃ o, (id, o) ∈ opsAndAxioms t ∧ ∃ e ∈ o.effects, e.fact ∈ n.landmark.atoms := by
    intro id
    rw [h2]
    simp only [List.not_mem_nil, false_or, mem_operatorsIncludingEffect]
    constructor
    · rintro ⟨f, hf, o, ho, e, he, rfl⟩
      exact ⟨o, ho, e, he, hf⟩
    · rintro ⟨o, ho, e, he, hf⟩
      exact ⟨_, hf, o, ho, e, he, rfl⟩
  obtain ⟨l, l1, l2⟩ := firstAchievers_spec hf (reached := reached) (atoms := n.landmark.atoms) p (fun id hid => by
    obtain ⟨o, ho, e, he, _⟩ := (h4 id).mp hid
    exact ⟨o, ho, e, he⟩)
  rw [l1]
  refine ⟨_, rfl, rfl, rfl, rfl, rfl, rfl, h3, h4, fun id => ?_⟩
  simp only
  rw [l2]
  constructor
  · rintro ⟨_, o, ho, h5, e, he, h6, h7⟩
    exact ⟨o, ho, fun q hq => (k2 q).mp (h5 q hq), e, he, h6, fun q hq => (k2 q).mp (h7 q hq)⟩
  · rintro ⟨o, ho, h5, e, he, h6, h7⟩
    exact ⟨(h4 id).mpr ⟨o, ho, e, he, h6⟩, o, ho, fun q hq => (k2 q).mpr (h5 q hq), e, he, h6, fun q hq => (k2 q).mpr (h7 q hq)⟩

theorem calcAchievers_spec (hf : t.FactsValid) (hs : t.ValidState t.init) : ∀ (g : Graph), (∀ n ∈ g, ∀ f ∈ n.landmark.atoms, t.ValidFact f) →
    ∃ g', calcAchievers t g = some g' ∧ List.Forall₂ (AchieversOf t) g g'
  | [], _ => ⟨[], rfl, .nil⟩
  | n :: g, h => by
    obtain ⟨n', h1, h2⟩ := calcAchieversNode_spec hf hs (h n (by simp))
    obtain ⟨g', k1, k2⟩ := calcAchievers_spec hf hs g (fun m hm => h m (by simp [hm]))
    rw [calcAchievers, h1, k1]
    exact ⟨n' :: g', rfl, .cons h2 k2⟩

/-! ### The achievers are complete -/

theorem factsValid (hwf : t.WF) (hax : t.axioms = []) : t.FactsValid where
  effect := by
    intro i cs f c h
    cases h with
    | op i o e hi he =>
      have ho := List.mem_of_getElem? hi
      refine ⟨hwf.effFact o ho e he, fun q hq => ?_⟩
      rcases List.mem_append.mp hq with hq | hq
      · exact hwf.pre o ho q hq
      · exact hwf.effCond o ho e he q hq
    | ax a e ha _ => rw [hax] at ha; cases ha
  goal := hwf.goalFacts

theorem underived (hwf : t.WF) (hax : t.axioms = []) (v : Nat) : ¬t.derived v := by
  rintro ⟨d, ℓ, hd, hl⟩
  have := hwf.ax.someAxioms hax v
  unfold Task.layerOf at this
  rw [hd] at this
  simp [hl] at this

theorem opsAndAxioms_noAxioms (hax : t.axioms = []) {id : Int} {o : Operator} (h : (id, o) ∈ opsAndAxioms t) : 0 ≤ id ∧ id < t.ops.length := by
  rcases mem_opsAndAxioms.mp h with ⟨i, hi, h2⟩ | ⟨i, hi, _⟩
  · have := (List.getElem?_eq_some_iff.mp hi).1
    simp only at h2
    omega
  · rw [hax] at hi
    simp at hi

/-- an atomic landmark or a disjunctive one -/
def Landmark.Simple (l : Landmark) : Prop := l.type = .disjunctive ∨ ∃ f, l.atoms = [f]

theorem simple_holds {l : Landmark} (h : l.Simple) (s : State) : l.Holds s ↔ ∃ f ∈ l.atoms, f.holds s := by
  unfold Landmark.Holds
  rcases h with h | ⟨f, h⟩
  · rw [h]
  · cases l.type with
    | disjunctive => rfl
    | atomic => simp [h, allHold]
    | conjunctive => simp [h, allHold]

theorem AchieversOf.simple {n n' : Node} (h : AchieversOf t n n') (hn : n.landmark.Simple) : n'.landmark.Simple := by
  unfold Landmark.Simple at hn ⊢
  rwa [h.type, h.atoms]

theorem AchieversOf.holds {n n' : Node} (h : AchieversOf t n n') : n'.landmark.Holds = n.landmark.Holds := by
  unfold Landmark.Holds
  rw [h.type, h.atoms]

theorem possible_complete (hwf : t.WF) (hax : t.axioms = []) {n n' : Node} (h : AchieversOf t n n') : PossibleAchievers t n'.landmark.Holds (fun i => (i : Int) ∈ n'.landmark.possibleAchievers) := by
  intro r hr k i s' hk hadd
  obtain ⟨u, hu, _⟩ := hr
  obtain ⟨p, h1, h2, hst⟩ := run_step hu hk
  have hpv : t.ValidState p := (run_valid hwf hwf.init (run_take hu h1).1).1
  rw [h.holds] at hadd
  obtain ⟨⟨x, hx, hL⟩, hno⟩ := hadd
  rw [h2] at hx
  cases hx
  have hno' : ¬n.landmark.Holds p := fun hh => hno k rfl ⟨p, h1, hh⟩
  have hatom : ∃ f ∈ n.landmark.atoms, f.holds s' ∧ ¬f.holds p := by
    unfold Landmark.Holds at hL hno'
    split at hL
    · rename_i ht
      rw [ht] at hno'
      obtain ⟨f, hf, hfs⟩ := hL
      exact ⟨f, hf, hfs, fun hh => hno' ⟨f, hf, hh⟩⟩
    · rename_i hty ht
      have hno2 : ¬allHold n.landmark.atoms p := by
        cases hc : n.landmark.type with
        | disjunctive => exact absurd hc ht
        | atomic => rwa [hc] at hno'
        | conjunctive => rwa [hc] at hno'
      unfold allHold at hno2
      simp only [not_forall] at hno2
      obtain ⟨f, hf, hfp⟩ := hno2
      exact ⟨f, hf, hL f hf, hfp⟩
  obtain ⟨f, hf, h3, h4⟩ := hatom
  rcases step_fact hwf hax hpv hst h3 with hh | ⟨o, ho, _, e, he, rfl, _⟩
  · exact absurd hh h4
  · exact (h.possible i).mpr ⟨o, mem_opsAndAxioms.mpr (Or.inl ⟨i, ho, rfl⟩), e, he, hf⟩

theorem first_complete (hwf : t.WF) (hax : t.axioms = []) (hun : t.UnconditionalEffectsHold) {n n' : Node} (h : AchieversOf t n n') (hn : n.landmark.Simple) :
    FirstAchievers t n'.landmark.Holds (fun i => (i : Int) ∈ n'.landmark.firstAchievers) := by
  intro r hr k i s' hk hfirst
  obtain ⟨u, hu, _⟩ := hr
  obtain ⟨p, h1, h2, hst⟩ := run_step hu hk
  have hpv : t.ValidState p := (run_valid hwf hwf.init (run_take hu h1).1).1
  rw [h.holds] at hfirst
  have hX : ∀ j ≤ k, ∀ x ∈ n.landmark.atoms, ¬HoldsAt x.holds (runStates t.init r) j := by
    rintro j hj x hx ⟨q, hq, hxq⟩
    exact hfirst.2 j (by omega) ⟨q, hq, (simple_holds hn q).mpr ⟨x, hx, hxq⟩⟩
  obtain ⟨⟨x, hx, hL⟩, _⟩ := hfirst
  rw [h2] at hx
  cases hx
  obtain ⟨f, hf, hfs⟩ := (simple_holds hn s').mp hL
  have hfp : ¬f.holds p := fun hh => hX k (Nat.le_refl _) f hf ⟨p, h1, hh⟩
  rcases step_fact hwf hax hpv hst hfs with hh | ⟨o, ho, happ, e, he, rfl, hc⟩
  · exact absurd hh hfp
  · have hreach : ∀ q : Fact, q.holds p → t.ReachAvoiding n.landmark.atoms false q := fun q hq => holdsAt_reach hwf hax (Or.inr hun) hu hX ⟨p, h1, hq⟩
    exact (h.first i).mpr ⟨o, mem_opsAndAxioms.mpr (Or.inl ⟨i, ho, rfl⟩), fun q hq => hreach q (happ q hq), e, he, hf, fun q hq => hreach q (hc q hq)⟩

theorem forall₂_mem_right {α β : Type} {R : α → β → Prop} {l : List α} {l' : List β} (h : List.Forall₂ R l l') {b : β} (hb : b ∈ l') : ∃ a ∈ l, R a b := by
  induction h with
  | nil => cases hb
  | cons h1 _ ih =>
    rcases List.mem_cons.mp hb with rfl | hb
    · exact ⟨_, by simp, h1⟩
    · obtain ⟨a, ha, hr⟩ := ih hb
      exact ⟨a, by simp [ha], hr⟩

theorem forall₂_getElem {α β : Type} {R : α → β → Prop} {l : List α} {l' : List β} (h : List.Forall₂ R l l') {i : Nat} {a : α} (ha : l[i]? = some a) : ∃ b, l'[i]? = some b ∧ R a b := by
  induction h generalizing i with
  | nil => simp at ha
  | cons h1 _ ih =>
    cases i with
    | zero =>
      simp only [List.getElem?_cons_zero, Option.some.injEq] at ha
      subst ha
      exact ⟨_, rfl, h1⟩
    | succ i => exact ih (by simpa using ha)

/-- The achievers of a valid graph -/
theorem calcAchievers_valid (hwf : t.WF) (hax : t.axioms = []) (hun : t.UnconditionalEffectsHold) {g : Graph} (hg : g.Valid t) (hsimple : ∀ n ∈ g, n.landmark.Simple)
    (hder : ∀ n ∈ g, n.landmark.isDerived = false) : ∃ g', calcAchievers t g = some g' ∧ List.Forall₂ (AchieversOf t) g g' ∧ g'.Valid t ∧ g'.AchieversComplete t ∧ g'.WithoutAxioms t.ops.length := by
  obtain ⟨g', h1, h2⟩ := calcAchievers_spec (factsValid hwf hax) hwf.init g hg.atoms
  refine ⟨g', h1, h2, ?_, ?_, ?_⟩
  · constructor
    · intro n' hn' f hf
      obtain ⟨n, hn, h⟩ := forall₂_mem_right h2 hn'
      exact hg.atoms n hn f (by rwa [h.atoms] at hf)
    · intro n' hn'
      obtain ⟨n, hn, h⟩ := forall₂_mem_right h2 hn'
      rw [h.holds]
      exact hg.landmark n hn
    · intro n' hn' hgl
      obtain ⟨n, hn, h⟩ := forall₂_mem_right h2 hn'
      rw [h.holds]
      exact hg.goal n hn (by rwa [h.goal] at hgl)
    · intro n' hn' A ty hA
      obtain ⟨n, hn, h⟩ := forall₂_mem_right h2 hn'
      rw [h.parents] at hA
      obtain ⟨a, ha, hv⟩ := hg.parents n hn A ty hA
      obtain ⟨a', ha', hh⟩ := forall₂_getElem h2 ha
      exact ⟨a', ha', by rw [h.holds, hh.holds]; exact hv⟩
    · intro n' hn' A ty hA
      obtain ⟨n, hn, h⟩ := forall₂_mem_right h2 hn'
      rw [h.children] at hA
      obtain ⟨a, ha, hv⟩ := hg.children n hn A ty hA
      obtain ⟨a', ha', hh⟩ := forall₂_getElem h2 ha
      exact ⟨a', ha', by rw [h.holds, hh.holds]; exact hv⟩
  · constructor
    · intro n' hn' _
      obtain ⟨n, hn, h⟩ := forall₂_mem_right h2 hn'
      exact first_complete hwf hax hun h (hsimple n hn)
    · intro n' hn' _
      obtain ⟨n, hn, h⟩ := forall₂_mem_right h2 hn'
      exact possible_complete hwf hax h
  · constructor
    · intro n' hn'
      obtain ⟨n, hn, h⟩ := forall₂_mem_right h2 hn'
      by_contra hc
      rcases h.derived.mp (by simpa using hc) with hc | ⟨f, _, hc⟩
      · rw [hder n hn] at hc
        cases hc
      · exact underived hwf hax _ hc
    · intro n' hn' a ha
      obtain ⟨n, hn, h⟩ := forall₂_mem_right h2 hn'
      obtain ⟨o, ho, _⟩ := (h.first a).mp ha
      exact opsAndAxioms_noAxioms hax ho
    · intro n' hn' a ha
      obtain ⟨n, hn, h⟩ := forall₂_mem_right h2 hn'
      obtain ⟨o, ho, _⟩ := (h.possible a).mp ha
      exact opsAndAxioms_noAxioms hax ho

end Verif.Landmarks
