import Verif.Lemmas.InstantiateAction
import Verif.Spec.AxiomRules

/-
The grounded task and the task with schemas have the same states and plans.
-/
namespace Verif.Instantiate
open Verif.Datalog Verif.Lifted Verif.BuildModel
open Verif.Strips (Literal)
variable {P V O T F : Type} [DecidableEq P] [DecidableEq V] [DecidableEq O] [DecidableEq T] [DecidableEq F]
variable {L : LTask P V O T F} {out : List (GAtom (DPred P T F) O)} {ar : P → Nat} {fnAr : F → Nat}

/-- the grounded axiom is an instance -/
structure RuleOf (L : LTask P V O T F) (out : List (GAtom (DPred P T F) O)) (r : Strips.Rule (GAtom P O)) (x : LAxiom P V O T) (σ : V → O) : Prop where
  head : r.head = x.head σ
  falsity : .falsity ∉ x.cond
  body : ∀ y : Literal (GAtom P O), y ∈ r.body ↔ ∃ a, .lit y.negated a ∈ x.cond ∧ a.inst σ = y.atom ∧ y.atom ∈ fluentFacts L out
  static : ∀ n a, .lit n a ∈ x.cond → a.inst σ ∉ fluentFacts L out → (a.inst σ ∈ L.init ↔ n = false)

/-- the condition of the instance is never true -/
def Never (L : LTask P V O T F) (out : List (GAtom (DPred P T F) O)) (cs : List (Part P V O)) (σ : V → O) : Prop := .falsity ∈ cs ∨ ∃ n a, .lit n a ∈ cs ∧ a.inst σ ∉ fluentFacts L out ∧ (a.inst σ ∈ L.init ↔ n = true)

theorem instAxiom_spec (hL : L.Ok ar fnAr) {x : LAxiom P V O T} (hx : x ∈ L.axioms) (σ : V → O) :
    (∃ r, instAxiom L (fluentFacts L out) x (update [] (x.params.map (·.1)) (x.params.map (fun p => σ p.1))) = some (some r) ∧ RuleOf L out r x σ) ∨
    (instAxiom L (fluentFacts L out) x (update [] (x.params.map (·.1)) (x.params.map (fun p => σ p.1))) = some none ∧ Never L out x.cond σ) := by
  have hmap : x.params.map (fun p => σ p.1) = (x.params.map (·.1)).map σ := by rw [List.map_map]; rfl
  rw [hmap]
  generalize hgen : update [] (x.params.map (·.1)) ((x.params.map (·.1)).map σ) = m
  have hm : ∀ v ∈ x.params.map (·.1), m.lookup v = some (σ v) := fun v hv => hgen ▸ update_lookup_mem hv
  have hargs : Mas.mapAll (fun p => m.lookup p.1) (x.params.take x.external) = some ((x.params.take x.external).map (fun p => σ p.1)) := by
    rw [Mas.mapAll_iff, List.forall₂_map_right_iff, List.forall₂_same]
    exact fun p hp => hm p.1 (List.mem_map.mpr ⟨p, List.mem_of_mem_take hp, rfl⟩)
  unfold instAxiom
  rw [hargs]
  rcases instCond_spec (init := L.init) (fluent := fluentFacts L out) (σ := σ) (fun v hv => hm v (hL.axiomVars x hx v hv)) with ⟨l, h1, h2, h3, h4⟩ | ⟨h1, h2⟩
  · rw [h1]
    exact .inl ⟨_, rfl, rfl, h2, h3, h4⟩
  · rw [h1]
    exact .inr ⟨rfl, h2⟩

/-- what is known about the grounded actions and axioms -/
structure Grounding (keep : Bool) (L : LTask P V O T F) (out : List (GAtom (DPred P T F) O)) (G : Grounded P O) : Prop where
  fluent : G.fluent = fluentFacts L out
  acts : ∀ a ∈ G.actions, ∃ i A σ, L.actions[i]? = some A ∧ L.Typed A.params σ ∧ (∃ n, L.CostValue σ n A.cost) ∧ ⟨.action i, A.params.map (fun p => σ p.1)⟩ ∈ out ∧ Instance L out A σ a
  actsComplete : ∀ i A σ, L.actions[i]? = some A → (∃ n, L.CostValue σ n A.cost) → ⟨.action i, A.params.map (fun p => σ p.1)⟩ ∈ out →
    (∃ a ∈ G.actions, Instance L out A σ a) ∨ (∀ s, Inv L out s → ¬ ∀ c ∈ A.pre, c.holds σ s) ∨ (keep = false ∧ ∀ s, Inv L out s → ∀ p, L.result A σ s p ↔ s p)
  axs : ∀ r ∈ G.axioms, ∃ x σ, x ∈ L.axioms ∧ L.Typed x.params σ ∧ RuleOf L out r x σ ∧ up r.head ∈ out
  axsComplete : ∀ j x σ, L.axioms[j]? = some x → ⟨.axiom j, x.params.map (fun p => σ p.1)⟩ ∈ out → (∃ r ∈ G.axioms, RuleOf L out r x σ) ∨ Never L out x.cond σ
  goal : ∀ g, G.goal = some g → (∀ σ, Means L.init (fluentFacts L out) g σ L.goal) ∧ ∀ x ∈ g, x.atom ∈ fluentFacts L out
  noGoal : G.goal = none → ∀ s, Inv L out s → ¬ ∀ c ∈ L.goal, ∀ σ : V → O, c.holds σ s
  reachable : G.relaxedReachable = true ↔ ∃ args, ⟨.goal, args⟩ ∈ out
  params : G.params = reachableParams L out

theorem instantiate_ok [Nonempty O] (hL : L.Ok ar fnAr) (hM : Model L out) (keep : Bool) : ∃ G, instantiate keep L out = some G ∧ Grounding keep L out G := by
  obtain ⟨as, has⟩ := Mas.mapAll_defined (f := modelActions keep L (fluentFacts L out)) (l := out) (by
    intro a ha
    cases a with
    | mk q args =>
      cases q with
      | action i =>
        obtain ⟨A, σ, hA, rfl, ht, hc⟩ := hM.typedAct i args ha
        simp only [modelActions, hA]
        rcases instAction_spec hL hM keep hA ha hc with ⟨a, h, _⟩ | ⟨h, _⟩
        · exact ⟨_, h⟩
        · exact ⟨_, h⟩
      | _ => exact ⟨none, rfl⟩)
  obtain ⟨xs, hxs⟩ := Mas.mapAll_defined (f := modelAxioms L (fluentFacts L out)) (l := out) (by
    intro a ha
    cases a with
    | mk q args =>
      cases q with
      | «axiom» i =>
        obtain ⟨x, σ, hx, rfl, ht⟩ := hM.typedAx i args ha
        simp only [modelAxioms, hx]
        rcases instAxiom_spec (out := out) hL (List.mem_of_getElem? hx) σ with ⟨a, h, _⟩ | ⟨h, _⟩
        · exact ⟨_, h⟩
        · exact ⟨_, h⟩
      | _ => exact ⟨none, rfl⟩)
  have hgoalσ : ∀ σ : V → O, _ := fun σ => instCond_means (m := []) (init := L.init) (fluent := fluentFacts L out) (σ := σ) (cs := L.goal) (fun v hv => by rw [hL.goalVars] at hv; simp at hv)
  obtain ⟨g, hg⟩ : ∃ g, instGoal L (fluentFacts L out) = some g := by
    obtain ⟨o⟩ := ‹Nonempty O›
    unfold instGoal
    rcases hgoalσ (fun _ => o) with ⟨l, h, _⟩ | ⟨h, _⟩ <;> rw [h] <;> exact ⟨_, rfl⟩
  refine ⟨⟨out.any isGoal, fluentFacts L out, as.filterMap id, g, xs.filterMap id, reachableParams L out⟩, by unfold instantiate; rw [has, hxs, hg], rfl, ?_, ?_, ?_, ?_, ?_, ?_, ?_, rfl⟩
  · intro a ha
    simp only [List.mem_filterMap, id, exists_eq_right] at ha
    obtain ⟨b, hb, h⟩ := Mas.mapAll_mem has ha
    cases b with
    | mk q args =>
      cases q <;> simp [modelActions] at h
      rename_i i
      obtain ⟨A, σ, hA, rfl, ht, hc⟩ := hM.typedAct i args hb
      rw [hA] at h
      simp only [] at h
      rcases instAction_spec hL hM keep hA hb hc with ⟨a', h', hi⟩ | ⟨h', _⟩
      · rw [h'] at h
        obtain rfl := Option.some.inj (Option.some.inj h)
        exact ⟨i, A, σ, hA, ht, hc, hb, hi⟩
      · rw [h'] at h
        simp at h
  · intro i A σ hA hc hout
    rcases instAction_spec hL hM keep hA hout hc with ⟨a, h, hi⟩ | ⟨h, h'⟩
    · refine .inl ⟨a, ?_, hi⟩
      obtain ⟨b, hb, hb'⟩ := Mas.mapAll_mem' has hout
      simp only [modelActions, hA] at hb'
      rw [h] at hb'
      obtain rfl := Option.some.inj hb'
      exact List.mem_filterMap.mpr ⟨_, hb, rfl⟩
    · exact .inr h'
  · intro r hr
    simp only [List.mem_filterMap, id, exists_eq_right] at hr
    obtain ⟨b, hb, h⟩ := Mas.mapAll_mem hxs hr
    cases b with
    | mk q args =>
      cases q <;> simp [modelAxioms] at h
      rename_i i
      obtain ⟨x, σ, hx, rfl, ht⟩ := hM.typedAx i args hb
      have hx' := List.mem_of_getElem? hx
      rw [hx] at h
      simp only [] at h
      rcases instAxiom_spec (out := out) hL hx' σ with ⟨a', h', hi⟩ | ⟨h', _⟩
      · rw [h'] at h
        obtain rfl := Option.some.inj (Option.some.inj h)
        exact ⟨x, σ, hx', ht, hi, hi.head ▸ hM.head i x σ hx hb⟩
      · rw [h'] at h
        simp at h
  · intro j x σ hx hout
    rcases instAxiom_spec (out := out) hL (List.mem_of_getElem? hx) σ with ⟨r, h, hi⟩ | ⟨h, h'⟩
    · refine .inl ⟨r, ?_, hi⟩
      obtain ⟨b, hb, hb'⟩ := Mas.mapAll_mem' hxs hout
      simp only [modelAxioms, hx] at hb'
      rw [h] at hb'
      obtain rfl := Option.some.inj hb'
      exact List.mem_filterMap.mpr ⟨_, hb, rfl⟩
    · exact .inr h'
  · intro l hl
    simp only at hl
    subst hl
    have : ∀ σ : V → O, Means L.init (fluentFacts L out) l σ L.goal ∧ ∀ x ∈ l, x.atom ∈ fluentFacts L out := by
      intro σ
      unfold instGoal at hg
      rcases hgoalσ σ with ⟨l', h, h2, _, h3, _⟩ | ⟨h, _⟩
      · rw [h] at hg
        obtain rfl := Option.some.inj (Option.some.inj hg)
        exact ⟨h2, h3⟩
      · rw [h] at hg
        simp at hg
    obtain ⟨o⟩ := ‹Nonempty O›
    exact ⟨fun σ => (this σ).1, (this fun _ => o).2⟩
  · intro hn s hs hall
    simp only at hn
    subst hn
    obtain ⟨o⟩ := ‹Nonempty O›
    unfold instGoal at hg
    rcases hgoalσ (fun _ => o) with ⟨l', h, h2, _, h3, _⟩ | ⟨h, h2⟩
    · rw [h] at hg
      simp at hg
    · exact h2 s (hs.rel hM) fun c hc => hall c hc _
  · simp only [List.any_eq_true]
    constructor
    · rintro ⟨a, ha, h⟩
      cases a with
      | mk q args =>
        cases q <;> simp [isGoal] at h
        exact ⟨args, ha⟩
    · rintro ⟨args, h⟩
      exact ⟨_, h, rfl⟩

variable {keep : Bool} {G : Grounded P O} {goal : List (Literal (GAtom P O))}

theorem task_derived {p : GAtom P O} : (task L G goal).Derived p ↔ ∃ r ∈ G.axioms, r.head = p := by
  unfold Strips.StripsTask.Derived task
  simp

theorem derived_of (hG : Grounding keep L out G) {p : GAtom P O} (h : (task L G goal).Derived p) : L.Derived p ∧ up p ∈ out := by
  obtain ⟨r, hr, rfl⟩ := task_derived.mp h
  obtain ⟨x, σ, hx, _, h1, h2⟩ := hG.axs r hr
  exact ⟨⟨x, hx, by rw [h1.head]; rfl⟩, h2⟩

theorem derives_head {s : GAtom P O → Prop} {p : GAtom P O} (h : (task L G goal).Derives s p) : (task L G goal).Derived p := by
  cases h with
  | rule r hr _ _ _ => exact task_derived.mpr ⟨r, hr, rfl⟩

/-- the derived atom is fluent -/
theorem derived_fluent {p : GAtom P O} (h : L.Derived p) (ho : up p ∈ out) : p ∈ fluentFacts L out := by
  obtain ⟨x, hx, h'⟩ := h
  exact mem_fluentFacts.mpr ⟨ho, h' ▸ axiom_fluent hx⟩

/-- derivations from schemas are derivations from grounded axioms -/
theorem derives_down (hL : L.Ok ar fnAr) (hM : Model L out) (hG : Grounding keep L out G) {s : GAtom P O → Prop} (hs : Inv L out s) {p : GAtom P O} (h : L.Derives s p) : (task L G goal).Derives s p := by
  induction h with
  | rule x hx σ ht hf hneg hbase hpos ih =>
    obtain ⟨j, hj⟩ := List.getElem?_of_mem hx
    have hrel := hs.rel hM
    have hfound : ∀ a, .lit false a ∈ x.cond → up (a.inst σ) ∈ out := by
      intro a ha
      by_cases hd : L.Derived (a.inst σ)
      · exact (derived_of hG (derives_head (ih a ha hd))).2
      · exact hs.found _ (hbase a ha hd)
    have hax := hM.ax j x σ hj ht hf hfound
    rcases hG.axsComplete j x σ hj hax with ⟨r, hr, h1⟩ | h1
    · rw [← h1.head]
      refine .rule r hr (fun l hl hn => ?_) (fun l hl hn hd => ?_) fun l hl hn hd => ?_
      · obtain ⟨a, ha, h2, _⟩ := (h1.body l).mp hl
        rw [hn] at ha
        exact h2 ▸ hneg a ha
      · obtain ⟨a, ha, h2, _⟩ := (h1.body l).mp hl
        rw [hn] at ha
        by_cases hd' : L.Derived (a.inst σ)
        · exact absurd (h2 ▸ derives_head (ih a ha hd')) hd
        · exact h2 ▸ hbase a ha hd'
      · obtain ⟨a, ha, h2, _⟩ := (h1.body l).mp hl
        rw [hn] at ha
        exact h2 ▸ ih a ha (h2.symm ▸ (derived_of hG hd).1)
    · exfalso
      rcases h1 with h1 | ⟨n, a, ha, hnf, hi⟩
      · exact hf h1
      · cases n with
        | true => exact hneg a ha ((hrel _ hnf).mpr (hi.mpr rfl))
        | false =>
          have hni : a.inst σ ∉ L.init := fun h => by simpa using hi.mp h
          by_cases hd : L.Derived (a.inst σ)
          · exact hnf (derived_fluent hd (hfound a ha))
          · exact hni ((hrel _ hnf).mp (hbase a ha hd))

/-- derivations from grounded axioms are derivations from schemas -/
theorem derives_up (hL : L.Ok ar fnAr) (hG : Grounding keep L out G) {s : GAtom P O → Prop} (hrel : Static L.init (fluentFacts L out) s) (hd : ∀ q, L.Derived q → s q → ¬ (task L G goal).Derived q → L.Derives s q) {p : GAtom P O} (h : (task L G goal).Derives s p) : L.Derives s p := by
  induction h with
  | rule r hr hneg hbase hpos ih =>
    obtain ⟨x, σ, hx, ht, h1, _⟩ := hG.axs r hr
    rw [h1.head]
    refine .rule x hx σ ht h1.falsity (fun a ha => ?_) (fun a ha hnd => ?_) fun a ha hdr => ?_
    · by_cases hf : a.inst σ ∈ fluentFacts L out
      · exact hneg ⟨true, a.inst σ⟩ ((h1.body _).mpr ⟨a, ha, rfl, hf⟩) rfl
      · rw [hrel _ hf, h1.static _ a ha hf]
        simp
    · by_cases hf : a.inst σ ∈ fluentFacts L out
      · exact hbase ⟨false, a.inst σ⟩ ((h1.body _).mpr ⟨a, ha, rfl, hf⟩) rfl fun h => hnd (derived_of hG h).1
      · rw [hrel _ hf, h1.static _ a ha hf]
    · by_cases hf : a.inst σ ∈ fluentFacts L out
      · have hb : (⟨false, a.inst σ⟩ : Literal (GAtom P O)) ∈ r.body := (h1.body _).mpr ⟨a, ha, rfl, hf⟩
        by_cases hg : (task L G goal).Derived (a.inst σ)
        · exact ih _ hb rfl hg
        · exact hd _ hdr (hbase _ hb rfl hg) hg
      · exact absurd hdr (hL.derivedInit _ ((h1.static _ a ha hf).mpr rfl))

/-- what is known about the atoms before derived atoms are added -/
structure Base (L : LTask P V O T F) (out : List (GAtom (DPred P T F) O)) (t : Strips.StripsTask (GAtom P O)) (b : GAtom P O → Prop) : Prop extends Inv L out b where
  derived : ∀ p, L.Derived p → b p → t.Derived p

theorem not_fluent {p : GAtom P O} (h : p.pred ∉ fluentPreds L) : ¬ L.Derived p := fun ⟨_, hx, h'⟩ => h (h' ▸ axiom_fluent hx)

/-- both tasks have the same completions -/
theorem completes_iff (hL : L.Ok ar fnAr) (hM : Model L out) (hG : Grounding keep L out G) {b s : GAtom P O → Prop} (hb : Base L out (task L G goal) b) : L.Completes b s ↔ (task L G goal).Completes b s := by
  constructor
  · intro h
    have hup : ∀ p, L.Derives s p → up p ∈ out := by
      intro p hp
      induction hp with
      | rule x hx σ ht hf hneg hbase hpos ih =>
        obtain ⟨j, hj⟩ := List.getElem?_of_mem hx
        refine hM.head j x σ hj (hM.ax j x σ hj ht hf fun a ha => ?_)
        by_cases hd : L.Derived (a.inst σ)
        · exact ih a ha hd
        · exact hb.found _ ((h.base _ hd).mp (hbase a ha hd))
    have hs : Inv L out s := by
      refine ⟨fun p hp => ?_, fun p hp => ?_⟩
      · by_cases hd : L.Derived p
        · exact hup p ((h.derived p hd).mp hp)
        · exact hb.found p ((h.base p hd).mp hp)
      · rw [h.base p (not_fluent hp), hb.static p hp]
    refine ⟨fun p hp => ?_, fun p hp => ?_⟩
    · by_cases hd : L.Derived p
      · exact ⟨fun h' => absurd (derives_head (derives_down hL hM hG hs ((h.derived p hd).mp h'))) hp, fun h' => absurd (hb.derived p hd h') hp⟩
      · exact h.base p hd
    · have hd := (derived_of hG hp).1
      exact (h.derived p hd).trans ⟨derives_down hL hM hG hs, derives_up hL hG (hs.rel hM) fun q hq hsq _ => (h.derived q hq).mp hsq⟩
  · intro h
    have hs : Inv L out s := by
      refine ⟨fun p hp => ?_, fun p hp => ?_⟩
      · by_cases hd : (task L G goal).Derived p
        · exact (derived_of hG hd).2
        · exact hb.found p ((h.base p hd).mp hp)
      · rw [h.base p fun h' => not_fluent hp (derived_of hG h').1, hb.static p hp]
    refine ⟨fun p hp => h.base p fun h' => hp (derived_of hG h').1, fun p hp => ⟨fun h' => ?_, fun h' => ?_⟩⟩
    · have hg : (task L G goal).Derived p := by
        by_contra hg
        exact hg (hb.derived p hp ((h.base p hg).mp h'))
      refine derives_up hL hG (hs.rel hM) (fun q hq hsq hnq => ?_) ((h.derived p hg).mp h')
      exact absurd (hb.derived q hq ((h.base q hnq).mp hsq)) hnq
    · have := derives_down (goal := goal) hL hM hG hs h'
      exact (h.derived p (derives_head this)).mpr this

/-- completions have the properties of states -/
theorem completes_inv (hL : L.Ok ar fnAr) (hM : Model L out) (hG : Grounding keep L out G) {b s : GAtom P O → Prop} (hb : Base L out (task L G goal) b) (h : (task L G goal).Completes b s) : Base L out (task L G goal) s where
  found p hp := by
    by_cases hd : (task L G goal).Derived p
    · exact (derived_of hG hd).2
    · exact hb.found p ((h.base p hd).mp hp)
  static p hp := by rw [h.base p fun h' => not_fluent hp (derived_of hG h').1, hb.static p hp]
  derived p hp h' := by
    by_contra hg
    exact hg (hb.derived p hp ((h.base p hg).mp h'))

theorem base_init (hL : L.Ok ar fnAr) (hM : Model L out) : Base L out (task L G goal) (fun p => p ∈ L.init) where
  found := hM.init
  static p _ := Iff.rfl
  derived p hp h := absurd hp (hL.derivedInit p h)

theorem base_result (hL : L.Ok ar fnAr) (hM : Model L out) {i : Nat} {A : LAction P V O T F} (hA : L.actions[i]? = some A) {σ : V → O} (hout : ⟨.action i, A.params.map (fun p => σ p.1)⟩ ∈ out) {s : GAtom P O → Prop} (hs : Base L out (task L G goal) s) :
    Base L out (task L G goal) (L.result A σ s) where
  found p hp := by
    rcases hp with hp | hp
    · exact changes_found hM hA hout hs.toInv hp
    · exact hs.found p hp.1
  static p hp := by
    rw [← hs.static p hp]
    have hno : ∀ n, ¬ L.Changes n A σ s p := by
      rintro n ⟨e, he, τ, _, _, rfl, _⟩
      exact hp (effect_fluent (List.mem_of_getElem? hA) he)
    constructor
    · rintro (h | h)
      · exact absurd h (hno _)
      · exact h.1
    · exact fun h => .inr ⟨h, hno _⟩
  derived p hp h := by
    rcases h with ⟨e, he, τ, _, _, rfl, _⟩ | h
    · obtain ⟨x, hx, h'⟩ := hp
      exact absurd h' (hL.derivedEffect A (List.mem_of_getElem? hA) e he x hx)
    · exact hs.derived p hp h.1

/-- a step of the grounded task is a step of the task -/
theorem step_up (hL : L.Ok ar fnAr) (hM : Model L out) (hG : Grounding keep L out G) {s s' : GAtom P O → Prop} (hs : Base L out (task L G goal) s) {a : Strips.Action (GAtom P O)} (h : (task L G goal).Step s a s') :
    ∃ A σ, L.Step s A σ s' ∧ a.name = L.instName A σ ∧ L.CostIs A σ a.cost ∧ Base L out (task L G goal) s' := by
  obtain ⟨ha, hpre, hc⟩ := h
  obtain ⟨i, A, σ, hA, ht, hcost, hout, hi⟩ := hG.acts a ha
  have hres : a.result s = L.result A σ s := funext fun p => propext (hi.result s hs.toInv p)
  have hb := base_result hL hM hA hout hs
  rw [hres] at hc
  exact ⟨A, σ, ⟨List.mem_of_getElem? hA, ht, hcost, (hi.pre s (hs.rel hM)).mp hpre, (completes_iff hL hM hG hb).mpr hc⟩, hi.name, hi.cost, completes_inv hL hM hG hb hc⟩

theorem run_up (hL : L.Ok ar fnAr) (hM : Model L out) (hG : Grounding keep L out G) {s u : GAtom P O → Prop} {as : List (Strips.Action (GAtom P O))} (h : (task L G goal).Run s as u) (hs : Base L out (task L G goal) s) :
    L.Run s (as.map (fun a => (a.name, a.cost))) u ∧ Base L out (task L G goal) u := by
  induction h with
  | nil s => exact ⟨.nil s, hs⟩
  | cons s a s' as u hstep _ ih =>
    obtain ⟨A, σ, h1, h2, h3, h4⟩ := step_up hL hM hG hs hstep
    obtain ⟨h5, h6⟩ := ih h4
    rw [List.map_cons, h2]
    exact ⟨.cons s A σ _ s' _ u h1 h3 h5, h6⟩

omit [DecidableEq P] [DecidableEq V] [DecidableEq O] [DecidableEq T] [DecidableEq F] in
/-- completions of stratifiable axioms are unique -/
theorem completes_unique (hst : L.Stratifiable) {b s s' : GAtom P O → Prop} (h : L.Completes b s) (h' : L.Completes b s') : s = s' := by
  obtain ⟨layer, hl⟩ := hst
  have key : ∀ s s', L.Completes b s → L.Completes b s' → ∀ n, (∀ q, L.Derived q → layer q < n → (s q ↔ s' q)) → ∀ p, L.Derives s p → layer p ≤ n → L.Derives s' p := by
    intro s s' h h' n hn p hp
    induction hp with
    | rule x hx σ ht hf hneg hbase hpos ih =>
      intro hle
      refine .rule x hx σ ht hf (fun a ha => ?_) (fun a ha hd => (h'.base _ hd).mpr ((h.base _ hd).mp (hbase a ha hd))) fun a ha hd => ih a ha hd (le_trans (hl x hx σ ht false a ha hd).1 hle)
      by_cases hd : L.Derived (a.inst σ)
      · rw [← hn _ hd (lt_of_lt_of_le ((hl x hx σ ht true a ha hd).2 rfl) hle)]
        exact hneg a ha
      · rw [h'.base _ hd, ← h.base _ hd]
        exact hneg a ha
  have all : ∀ n q, L.Derived q → layer q < n → (s q ↔ s' q) := by
    intro n
    induction n with
    | zero => exact fun q _ h => absurd h (by omega)
    | succ n ih =>
      intro q hq hlt
      rw [h.derived q hq, h'.derived q hq]
      exact ⟨fun hd => key s s' h h' n ih q hd (by omega), fun hd => key s' s h' h n (fun q hq hlt => (ih q hq hlt).symm) q hd (by omega)⟩
  funext p
  by_cases hd : L.Derived p
  · exact propext (all (layer p + 1) p hd (by omega))
  · exact propext ((h.base p hd).trans (h'.base p hd).symm)

omit [DecidableEq P] [DecidableEq V] [DecidableEq O] [DecidableEq T] [DecidableEq F] in
theorem costIs_unique (hL : L.Ok ar fnAr) {A : LAction P V O T F} {σ : V → O} {n m : Nat} (hn : L.CostIs A σ n) (hm : L.CostIs A σ m) : n = m := by
  unfold LTask.CostIs at hn hm
  cases hmet : L.metric with
  | false => rw [hmet] at hn hm; simp at hn hm; omega
  | true =>
    rw [hmet] at hn hm
    simp only [if_true] at hn hm
    cases hc : A.cost with
    | none => rw [hc] at hn hm; simp only [LTask.CostValue] at hn hm; omega
    | const k => rw [hc] at hn hm; simp only [LTask.CostValue] at hn hm; omega
    | fn f args => rw [hc] at hn hm; exact hL.functional _ _ _ hn hm

/-- a step of the task is a step of the grounded task, or changes nothing -/
theorem step_down (hL : L.Ok ar fnAr) (hM : Model L out) (hG : Grounding keep L out G) {s s' : GAtom P O → Prop} (hs : Base L out (task L G goal) s) {A : LAction P V O T F} {σ : V → O} {n : Nat} (h : L.Step s A σ s') (hn : L.CostIs A σ n) :
    Base L out (task L G goal) s' ∧ ((∃ a, (task L G goal).Step s a s' ∧ a.name = L.instName A σ ∧ a.cost = n) ∨ (keep = false ∧ L.Completes s s')) := by
  obtain ⟨hA, ht, hcost, hpre, hc⟩ := h
  obtain ⟨i, hi⟩ := List.getElem?_of_mem hA
  have hout : ⟨.action i, A.params.map (fun p => σ p.1)⟩ ∈ out := by
    refine hM.act i A σ hi ht (fun hf => hpre _ hf) (fun a ha => hs.found _ ?_) hcost
    exact hpre _ ha
  have hb := base_result (goal := goal) (G := G) hL hM hi hout hs
  have hc' := (completes_iff hL hM hG hb).mp hc
  refine ⟨completes_inv hL hM hG hb hc', ?_⟩
  rcases hG.actsComplete i A σ hi hcost hout with ⟨a, ha, h1⟩ | h1 | ⟨h1, h2⟩
  · left
    have hres : a.result s = L.result A σ s := funext fun p => propext (h1.result s hs.toInv p)
    exact ⟨a, ⟨ha, (h1.pre s (hs.rel hM)).mpr hpre, hres ▸ hc'⟩, h1.name, costIs_unique hL h1.cost hn⟩
  · exact absurd hpre (h1 s hs.toInv)
  · right
    have hres : L.result A σ s = s := funext fun p => propext (h2 s hs.toInv p)
    rw [hres] at hc
    exact ⟨h1, hc⟩

theorem run_down (hL : L.Ok ar fnAr) (hM : Model L out) (hG : Grounding keep L out G) (hst : L.Stratifiable) {s u : GAtom P O → Prop} {p : List (List Char × Nat)} (h : L.Run s p u) (hs : Base L out (task L G goal) s) (hc : ∃ b, L.Completes b s) :
    Base L out (task L G goal) u ∧ ∃ as, (task L G goal).Run s as u ∧ (as.map (fun a => (a.name, a.cost))).Sublist p ∧ (keep = true → as.map (fun a => (a.name, a.cost)) = p) := by
  induction h with
  | nil s => exact ⟨hs, [], .nil s, List.Sublist.refl _, fun _ => rfl⟩
  | cons s A σ n s' p u hstep hn _ ih =>
    obtain ⟨hs', hcase⟩ := step_down hL hM hG hs hstep hn
    obtain ⟨hu, as, h1, h2, h3⟩ := ih hs' ⟨_, hstep.2.2.2.2⟩
    refine ⟨hu, ?_⟩
    rcases hcase with ⟨a, ha, h4, h5⟩ | ⟨h4, h5⟩
    · refine ⟨a :: as, .cons s a s' as u ha h1, ?_, fun hk => ?_⟩
      · rw [List.map_cons, h4, h5]
        exact h2.cons_cons _
      · rw [List.map_cons, h4, h5, h3 hk]
    · obtain ⟨b, hb⟩ := hc
      have hself : L.Completes s s := ⟨fun _ _ => Iff.rfl, hb.derived⟩
      obtain rfl := completes_unique hst hself h5
      exact ⟨as, h1, h2.cons _, fun hk => by rw [h4] at hk; simp at hk⟩

/-- reachable states have the properties -/
theorem run_base (hL : L.Ok ar fnAr) (hM : Model L out) (hG : Grounding keep L out G) {s u : GAtom P O → Prop} {p : List (List Char × Nat)} (h : L.Run s p u) (hs : Base L out (task L G goal) s) : Base L out (task L G goal) u := by
  induction h with
  | nil s => exact hs
  | cons s A σ n s' p u hstep hn _ ih => exact ih (step_down hL hM hG hs hstep hn).1

theorem initial_base (hL : L.Ok ar fnAr) (hM : Model L out) (hG : Grounding keep L out G) {s : GAtom P O → Prop} (h : L.Initial s) : Base L out (task L G goal) s :=
  completes_inv hL hM hG (base_init hL hM) ((completes_iff hL hM hG (base_init hL hM)).mp h)

theorem initial_iff (hL : L.Ok ar fnAr) (hM : Model L out) (hG : Grounding keep L out G) {s : GAtom P O → Prop} : L.Initial s ↔ (task L G goal).Initial s := completes_iff hL hM hG (base_init hL hM)

end Verif.Instantiate
