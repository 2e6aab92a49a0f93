import Verif.Lemmas.AxiomOut
import Verif.Props.FactGroups

/-
C74: The translator removes axioms that are not needed, simplifies the others and computes axiom layers, and this does not change the plans.
-/
namespace Verif.AxiomRules
open Verif.Strips
variable {α : Type} [LinearOrder α] {t : StripsTask α} {max : Bool} {ax : List (Strips.Rule α)} {ls : List (α × Nat)}

/-- **C74**: The treatment of axioms ends, with axioms and layers if there is a stratification of the axioms for needed atoms, with the error for axioms that are not stratifiable otherwise. -/
theorem C74_defined (max : Bool) (t : StripsTask α) :
    ((∃ layer, t.Stratification t.Needed layer) ∧ ∃ ax ls, handleAxioms max t = .ok ax ls) ∨ ((¬ ∃ layer, t.Stratification t.Needed layer) ∧ handleAxioms max t = .notStratifiable) := by
  obtain ⟨groups, hc, ⟨h1, h2⟩ | ⟨h1, h2⟩⟩ := handleAxioms_cases max t
  · exact .inr ⟨fun ⟨layer, hl⟩ => negativeLoop_true hc h1 layer hl, h2⟩
  · refine .inl ⟨?_, _, _, h2⟩
    have o := handleAxioms_out h2
    classical
    refine ⟨fun p => if h : ∃ n : Nat, (p, n) ∈ axiomLayers max t.axioms groups then h.choose else 0, ?_⟩
    intro r hr hn l hl hh
    have hln : t.Needed l.atom := .body r hr hn l hl hh
    have e1 := (o.layers _).mpr hn
    have e2 := (o.layers _).mpr hln
    simp only [dif_pos e1, dif_pos e2]
    exact o.layered _ _ _ _ e1.choose_spec e2.choose_spec l.negated (mem_dependencies.mpr ⟨r, hr, rfl, l, hl, rfl, rfl, hh⟩)

/-- **C74**: In particular there is no error for stratifiable axioms. -/
theorem C74_stratifiable (h : t.Stratifiable) : ∃ ax ls, handleAxioms max t = .ok ax ls := by
  obtain ⟨layer, hl⟩ := h
  rcases C74_defined max t with ⟨_, h⟩ | ⟨h, _⟩
  · exact h
  · exact absurd ⟨layer, fun r hr _ => hl r hr trivial⟩ h

/-- **C74**: The derived atoms of the result are those that are needed, and each has one layer. -/
theorem C74_layers (h : handleAxioms max t = .ok ax ls) : (ls.map (·.1)).Nodup ∧ ∀ p, p ∈ ls.map (·.1) ↔ t.Needed p := by
  have o := handleAxioms_out h
  refine ⟨o.once, fun p => ?_⟩
  rw [← o.layers, List.mem_map]
  constructor
  · rintro ⟨⟨q, n⟩, hn, rfl⟩
    exact ⟨n, hn⟩
  · rintro ⟨n, hn⟩
    exact ⟨(p, n), hn, rfl⟩

/-- **C74**: The layers are a stratification of the axioms of the input for needed atoms. -/
theorem C74_stratification (h : handleAxioms max t = .ok ax ls) {r : Strips.Rule α} (hr : r ∈ t.axioms) {l : Literal α} (hl : l ∈ r.body) {n m : Nat} (hm : (r.head, m) ∈ ls) (hn : (l.atom, n) ∈ ls) :
    n ≤ m ∧ (l.negated = true → n < m) := by
  have o := handleAxioms_out h
  exact o.layered _ _ _ _ hm hn l.negated (mem_dependencies.mpr ⟨r, hr, rfl, l, hl, rfl, rfl, needed_head ((o.layers _).mp ⟨n, hn⟩)⟩)

/-- **C74**: The result is as the translation to finite-domain variables (C73) needs it. -/
theorem C74_stratified (hd : t.DerivedOnly) (h : handleAxioms max t = .ok ax ls) : ({ t with axioms := ax, layers := ls } : StripsTask α).Stratified := out_stratified (handleAxioms_out h) hd

/-- **C74**: The layers of the strategy "min" are the lowest that are possible. -/
theorem C74_min (h : handleAxioms false t = .ok ax ls) {layer : α → Nat} (hl : t.Stratification t.Needed layer) {p : α} {n : Nat} (hp : (p, n) ∈ ls) : n ≤ layer p := by
  obtain ⟨groups, hc, h1 | ⟨h1, h2⟩⟩ := handleAxioms_cases false t
  · rw [h1.2] at h
    cases h
  · rw [h2] at h
    injection h with e1 e2
    subst e1 e2
    obtain ⟨c, hcm, hpc⟩ := mem_flat.mp hp
    exact minLayers_le hl hc.nodup (fun c hc' p hp => cluster_needed hc hc' hp) (fun c hc' p hp q hq => mutual_layer hl (cluster_needed hc hc' hp) ((hc.same c hc' p hp q).mp hq)) _ hcm p hpc

/-- **C74**: With the strategy "max", atoms have the same layer only if they depend on each other. -/
theorem C74_max (h : handleAxioms true t = .ok ax ls) {p q : α} {n m : Nat} (hp : (p, n) ∈ ls) (hq : (q, m) ∈ ls) : n = m ↔ t.Mutual p q := by
  obtain ⟨groups, hc, h1 | ⟨h1, h2⟩⟩ := handleAxioms_cases true t
  · rw [h1.2] at h
    cases h
  · rw [h2] at h
    injection h with e1 e2
    subst e1 e2
    obtain ⟨c, hcm, hpc⟩ := mem_flat.mp hp
    obtain ⟨d, hdm, hqd⟩ := mem_flat.mp hq
    simp only [if_true] at hcm hdm
    have hcg : c ∈ groups := by
      have := List.mem_map_of_mem (f := Prod.fst) hcm
      rwa [maxLayers_fst] at this
    constructor
    · intro he
      have := maxLayers_inj hcm hdm he
      rw [Prod.mk.injEq] at this
      exact (hc.same c hcg p hpc q).mp (this.1 ▸ hqd)
    · intro hm
      have hqc := (hc.same c hcg p hpc q).mpr hm
      have e1 := layerIn_eq (by rw [maxLayers_fst]; exact hc.nodup) hcm hqc
      have e2 := layerIn_eq (by rw [maxLayers_fst]; exact hc.nodup) hdm hqd
      rw [← e1, ← e2]

/-- **C74**: Axioms of the result are axioms of the input for needed atoms, except that their bodies are sorted and have no duplicates.  No body has the head of its axiom, and none is part of the body of another axiom for the same atom. -/
theorem C74_axioms (h : handleAxioms max t = .ok ax ls) :
    (∀ r ∈ ax, t.Needed r.head ∧ (⟨false, r.head⟩ : Literal α) ∉ r.body ∧ r.body.Nodup ∧ r.body.Pairwise (fun l l' => l.atom ≤ l'.atom) ∧ ∃ r0 ∈ t.axioms, r0.head = r.head ∧ ∀ l, l ∈ r.body ↔ l ∈ r0.body) ∧
    ax.Pairwise (fun r r' => r.head = r'.head → ¬ r.body ⊆ r'.body ∧ ¬ r'.body ⊆ r.body) := by
  obtain ⟨groups, hc, h1 | ⟨h1, h2⟩⟩ := handleAxioms_cases max t
  · rw [h1.2] at h
    cases h
  · rw [h2] at h
    injection h with e1 e2
    subst e1 e2
    refine ⟨fun r hr => ?_, ?_⟩
    · obtain ⟨h3, h4, r0, h5, rfl⟩ := kept_axioms hc hr
      refine ⟨h3, h4, ?_, ?_, r0, h5, rfl, fun l => mem_cleanBody⟩
      · unfold cleanBody
        exact (List.perm_insertionSort _ _).nodup_iff.mpr (List.nodup_dedup _)
      · unfold cleanBody
        haveI : Std.Total (fun a b : Literal α => a.atom ≤ b.atom) := ⟨fun a b => le_total a.atom b.atom⟩
        haveI : IsTrans (Literal α) (fun a b : Literal α => a.atom ≤ b.atom) := ⟨fun a b c h h' => le_trans h h'⟩
        exact List.pairwise_insertionSort _ _
    · exact kept_minimal hc

/-- **C74**: An axiom of the input for a needed atom is left out only if its body has its head, or the body of another axiom for this atom that is kept is a part of it. -/
theorem C74_complete (h : handleAxioms max t = .ok ax ls) {r0 : Strips.Rule α} (hr : r0 ∈ t.axioms) (hn : t.Needed r0.head) :
    (⟨false, r0.head⟩ : Literal α) ∈ r0.body ∨ ∃ r ∈ ax, r.head = r0.head ∧ r.body ⊆ r0.body := (handleAxioms_out h).covers r0 hr hn

/-- **C74**: Plans are kept. -/
theorem C74_plans_kept (h : handleAxioms max t = .ok ax ls) {p : List (List Char × Nat)} (hp : t.fromHeads.HasPlan p) : ({ t with axioms := ax, layers := ls } : StripsTask α).HasPlan p := plan_out (handleAxioms_out h) hp

/-- **C74**: If the axioms are stratifiable, the result has the same plans as the input. -/
theorem C74_plans (hst : t.Stratifiable) (hd : t.DerivedOnly) : ∃ ax ls, handleAxioms max t = .ok ax ls ∧ ∀ p, ({ t with axioms := ax, layers := ls } : StripsTask α).HasPlan p ↔ t.fromHeads.HasPlan p := by
  obtain ⟨ax, ls, h⟩ := C74_stratifiable (max := max) hst
  have o := handleAxioms_out h
  exact ⟨ax, ls, h, fun p => ⟨plan_in o hst hd, plan_out o⟩⟩

/-- **C74**: If the axioms are stratifiable, reachable states of the result are those of the input, up to derived atoms that are not needed. -/
theorem C74_states (hst : t.Stratifiable) (hd : t.DerivedOnly) (h : handleAxioms max t = .ok ax ls) :
    (∀ s, t.fromHeads.Reachable s → ∃ s', ({ t with axioms := ax, layers := ls } : StripsTask α).Reachable s' ∧ ∀ p, (t.Head p → t.Needed p) → (s p ↔ s' p)) ∧
    ∀ s', ({ t with axioms := ax, layers := ls } : StripsTask α).Reachable s' → ∃ s, t.fromHeads.Reachable s ∧ ∀ p, (t.Head p → t.Needed p) → (s p ↔ s' p) := by
  have o := handleAxioms_out h
  refine ⟨fun s hs => ?_, fun s' hs => reachable_in o hst hd hs⟩
  obtain ⟨s0, as, h1, h2⟩ := hs
  obtain ⟨s0', h3, h4⟩ := initial_out o h1
  obtain ⟨s', h5, h6⟩ := run_out o h2 s0' h4
  exact ⟨s', ⟨s0', as, h3, h5⟩, h6⟩

/-- **C74**: What happens to a grounded task (C72, C73, C74): axioms are treated, groups of atoms are chosen and finite-domain variables are introduced.  The plans are those of the grounded task, up to actions that can be left out. -/
theorem C74_pipeline {t : StripsTask FactGroups.Atom} {objects : List (List Char)} {invariants : List (List FactGroups.Atom)} {atoms : List FactGroups.Atom} (hst : t.Stratifiable) (hd : t.DerivedOnly) (ha : atoms.Nodup)
    (hm : ∀ p, t.Mentions p → p ∈ atoms) (hI : FactGroups.InvariantsOf t.fromHeads objects invariants) (max : Bool) (o : StripsToSas.Options) :
    ∃ ax ls groups mutexGroups names T, handleAxioms max t = .ok ax ls ∧
      FactGroups.computeGroups o.partialEncoding objects invariants atoms (FactGroups.negativeInGoal t.goal) = some (groups, mutexGroups, names) ∧
      StripsToSas.translateTask o groups mutexGroups names { t with axioms := ax, layers := ls } = some T ∧ (∀ p, T.HasPlan p → t.fromHeads.HasPlan p) ∧
      ∀ p, t.fromHeads.HasPlan p → ∃ p', p'.Sublist p ∧ T.HasPlan p' ∧ (o.keepNoOps = true → t.goal ≠ [] → p' = p) := by
  obtain ⟨ax, ls, h, hplans⟩ := C74_plans (max := max) hst hd
  have out := handleAxioms_out h
  have hI' : FactGroups.InvariantsOf ({ t with axioms := ax, layers := ls } : StripsTask FactGroups.Atom) objects invariants := by
    refine ⟨hI.names, hI.once, hI.predicates, ?_, ?_⟩
    · intro inv hinv s' hs' p q hp hq hsp hsq
      obtain ⟨s, hs, hag⟩ := reachable_in out hst hd hs'
      have hnh : ∀ p, FactGroups.Instance objects inv p → (t.Head p → t.Needed p) := fun p hp hh => absurd (fromHeads_derived.mpr hh) (hI.derived inv hinv p hp)
      exact hI.mutex inv hinv s hs p q hp hq ((hag p (hnh p hp)).mpr hsp) ((hag q (hnh q hq)).mpr hsq)
    · intro inv hinv p hp hdp
      exact hI.derived inv hinv p hp (fromHeads_derived.mpr (needed_head ((out.layers p).mp hdp)))
  have hhead : ∀ p, t.Head p → p ∈ atoms := fun p ⟨r, hr, hh⟩ => hm p (.inr (.inr ⟨r, hr, .inl hh⟩))
  obtain ⟨groups, mutexGroups, names, T, h1, h2, h3, h4⟩ := FactGroups.C72_plans (t := { t with axioms := ax, layers := ls }) (C74_stratified hd h) ha (by
    rintro p ((hp | hp | ⟨r, hr, hp⟩) | hp)
    · exact hm p (.inl hp)
    · exact hm p (.inr (.inl hp))
    · obtain ⟨_, r0, hr0, e1, e2⟩ := out.mem r hr
      refine hm p (.inr (.inr ⟨r0, hr0, ?_⟩))
      rcases hp with rfl | ⟨l, hl, rfl⟩
      · exact .inl e1.symm
      · exact .inr ⟨l, (e2 l).mp hl, rfl⟩
    · exact hhead p (needed_head ((out.layers p).mp hp))) hI' o
  refine ⟨ax, ls, groups, mutexGroups, names, T, h, h1, h2, fun p hp => (hplans p).mp (h3 p hp), fun p hp => ?_⟩
  obtain ⟨p', h5, h6, h7⟩ := h4 p ((hplans p).mpr hp)
  exact ⟨p', h5, h6, h7⟩

/-- a task with basic atoms 0, 1, 2 and derived atoms 10 to 14.  Atom 10 follows from 0 and 1, or 11; atoms 11 and 12 depend on each other; 13 follows if 11 does not.  Atom 14 is not needed. -/
def exAxioms : StripsTask Nat where
  init := [0]
  goal := [⟨false, 13⟩]
  actions := [⟨"set".toList, [⟨false, 0⟩, ⟨true, 10⟩], [([], ⟨false, 1⟩), ([⟨false, 12⟩], ⟨true, 0⟩)], 1⟩]
  axioms := [⟨[⟨false, 1⟩, ⟨false, 0⟩, ⟨false, 1⟩], 10⟩, ⟨[⟨false, 11⟩], 10⟩, ⟨[⟨false, 2⟩, ⟨false, 11⟩], 10⟩, ⟨[⟨false, 12⟩], 11⟩, ⟨[⟨false, 11⟩, ⟨false, 2⟩], 12⟩, ⟨[⟨false, 11⟩, ⟨false, 12⟩, ⟨false, 1⟩], 11⟩,
    ⟨[⟨true, 11⟩, ⟨false, 1⟩], 13⟩, ⟨[⟨false, 13⟩], 13⟩, ⟨[⟨true, 13⟩], 14⟩]
  layers := []
  metric := true

theorem exAxioms_derivedOnly : exAxioms.DerivedOnly := by
  have hh : ∀ p, exAxioms.Head p → 10 ≤ p := by
    rintro p ⟨r, hr, rfl⟩
    revert r
    simp [exAxioms]
  refine ⟨fun a ha e he h => ?_, fun p hp h => ?_⟩
  · have := hh _ h
    simp only [exAxioms, List.mem_singleton] at ha
    subst ha
    simp only [List.mem_cons, List.not_mem_nil, or_false] at he
    rcases he with rfl | rfl <;> simp at this
  · have := hh _ h
    simp only [exAxioms, List.mem_singleton] at hp
    omega

theorem exAxioms_stratifiable : exAxioms.Stratifiable := by
  refine ⟨fun p => if p = 14 then 2 else if p = 13 then 1 else 0, fun r hr _ l hl _ => ?_⟩
  revert l
  revert r
  simp [exAxioms]

deriving instance DecidableEq for Strips.Rule
deriving instance DecidableEq for Result

/-- layers of "min"; one axiom for 10 and one for 11 are dominated, and the axiom of 13 that needs itself is removed -/
example : handleAxioms false exAxioms = .ok
    [⟨[⟨false, 1⟩, ⟨true, 11⟩], 13⟩, ⟨[⟨false, 0⟩, ⟨false, 1⟩], 10⟩, ⟨[⟨false, 11⟩], 10⟩, ⟨[⟨false, 12⟩], 11⟩, ⟨[⟨false, 2⟩, ⟨false, 11⟩], 12⟩]
    [(13, 1), (10, 0), (11, 0), (12, 0)] := by decide +kernel

/-- layers of "max" -/
example : handleAxioms true exAxioms = .ok
    [⟨[⟨false, 1⟩, ⟨true, 11⟩], 13⟩, ⟨[⟨false, 0⟩, ⟨false, 1⟩], 10⟩, ⟨[⟨false, 11⟩], 10⟩, ⟨[⟨false, 12⟩], 11⟩, ⟨[⟨false, 2⟩, ⟨false, 11⟩], 12⟩]
    [(13, 2), (10, 1), (11, 0), (12, 0)] := by decide +kernel

/-- the hypotheses of C74_plans are satisfied -/
example : ∃ ax ls, handleAxioms false exAxioms = .ok ax ls ∧ ∀ p, ({ exAxioms with axioms := ax, layers := ls } : StripsTask Nat).HasPlan p ↔ exAxioms.fromHeads.HasPlan p := C74_plans exAxioms_stratifiable exAxioms_derivedOnly

/-- an atom that depends on its own negation -/
example : handleAxioms false { exAxioms with goal := [⟨false, 12⟩], axioms := [⟨[⟨false, 11⟩], 12⟩, ⟨[⟨true, 12⟩, ⟨false, 0⟩], 11⟩] } = .notStratifiable := by decide +kernel

/-- a task with an atom that is not needed and depends on its own negation -/
def exUnneeded : StripsTask Nat where
  init := [0]
  goal := [⟨false, 0⟩]
  actions := []
  axioms := [⟨[⟨true, 20⟩], 20⟩]
  layers := []
  metric := true

/-- **C74** (limit): axioms for atoms that are not needed are not checked.  This task is not stratifiable, and no state satisfies its axioms; the translator accepts it, and its result has a plan. -/
theorem C74_unneeded_unchecked : ¬ exUnneeded.Stratifiable ∧ handleAxioms false exUnneeded = .ok [] [] ∧ (¬ ∃ s, exUnneeded.fromHeads.Initial s) ∧ ({ exUnneeded with axioms := [], layers := [] } : StripsTask Nat).HasPlan [] := by
  refine ⟨?_, by decide +kernel, ?_, ?_⟩
  · rintro ⟨layer, h⟩
    have := (h ⟨[⟨true, 20⟩], 20⟩ (by simp [exUnneeded]) trivial ⟨true, 20⟩ (by simp) ⟨⟨[⟨true, 20⟩], 20⟩, by simp [exUnneeded], rfl⟩).2 rfl
    simp at this
  · rintro ⟨s, hs⟩
    have hd := hs.derived 20 (fromHeads_derived.mpr ⟨⟨[⟨true, 20⟩], 20⟩, by simp [exUnneeded], rfl⟩)
    by_cases h : s 20
    · have hder := hd.mp h
      generalize hp : (20 : Nat) = p at hder
      cases hder with
      | rule r hr hneg _ _ =>
        have hr : r ∈ exUnneeded.axioms := hr
        simp only [exUnneeded, List.mem_singleton] at hr
        subst hr
        exact hneg ⟨true, 20⟩ (by simp) rfl h
    · refine h (hd.mpr (.rule ⟨[⟨true, 20⟩], 20⟩ (by simp [exUnneeded, StripsTask.fromHeads]) ?_ ?_ ?_))
      · intro l hl _
        simp only [List.mem_singleton] at hl
        subst hl
        exact h
      · intro l hl hn
        simp only [List.mem_singleton] at hl
        subst hl
        simp at hn
      · intro l hl hn
        simp only [List.mem_singleton] at hl
        subst hl
        simp at hn
  · refine ⟨fun p => p = 0, [], fun p => p = 0, ⟨?_, ?_⟩, .nil _, ?_, rfl⟩
    · intro p _
      simp [exUnneeded]
    · rintro p ⟨n, hn⟩
      simp at hn
    · intro l hl
      simp only [exUnneeded, List.mem_singleton] at hl
      subst hl
      simp [Literal.holds]

end Verif.AxiomRules
