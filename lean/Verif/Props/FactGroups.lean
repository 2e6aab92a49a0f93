import Verif.Lemmas.FactInstances
import Verif.Props.StripsToSas

/-
C72: the groups of atoms from which finite-domain variables are made.
-/
namespace Verif.FactGroups
open Verif.Strips
open Verif.SasFile
open scoped List

variable {part : Bool} {objects : List (List Char)} {invariants : List (List Atom)} {atoms negative : List Atom} {groups mutexGroups : List (List Atom)} {names : List (List (List Char))}

theorem compute_spec (part : Bool) (objects : List (List Char)) (invariants : List (List Atom)) (atoms negative : List Atom) :
    ∃ out, computeGroups part objects invariants atoms negative =
        some (sortGroups (out ++ (atoms.filter (fun x => decide (x ∉ out.flatten))).map (fun x => [x])), collectMutexGroups (sortGroups (instantiateGroups objects atoms invariants)) atoms,
          translationKey (sortGroups (out ++ (atoms.filter (fun x => decide (x ∉ out.flatten))).map (fun x => [x])))) ∧
      Greedy part (removeNegative (sortGroups (instantiateGroups objects atoms invariants)) negative) [] [] out := by
  obtain ⟨out, h1, h2⟩ := chooseGroups_spec part (sortGroups (instantiateGroups objects atoms invariants)) atoms negative
  refine ⟨out, ?_, h2⟩
  unfold computeGroups
  rw [h1]

/-- the groups of instances of invariants, sorted -/
theorem mem_instances (hc : CountsOnce invariants) {g : List Atom} (h : g ∈ sortGroups (instantiateGroups objects atoms invariants)) : ∃ inv ∈ invariants, ∀ p, p ∈ g ↔ p ∈ atoms ∧ Instance objects inv p := by
  obtain ⟨g0, hg0, rfl⟩ := mem_sortGroups.mp h
  obtain ⟨inv, hinv, rfl⟩ := List.mem_map.mp hg0
  refine ⟨inv, hinv, fun p => ?_⟩
  rw [List.mem_insertionSort, mem_expandGroup (hc inv hinv)]

theorem instances_mem (hc : CountsOnce invariants) {inv : List Atom} (h : inv ∈ invariants) : ∃ g ∈ sortGroups (instantiateGroups objects atoms invariants), ∀ p, p ∈ g ↔ p ∈ atoms ∧ Instance objects inv p := by
  refine ⟨(expandGroup objects atoms inv).insertionSort (· ≤ ·), mem_sortGroups.mpr ⟨_, List.mem_map.mpr ⟨inv, h, rfl⟩, rfl⟩, fun p => ?_⟩
  rw [List.mem_insertionSort, mem_expandGroup (hc inv h)]

/-- **C72**: The computation does not fail. -/
theorem C72_returns (part : Bool) (objects : List (List Char)) (invariants : List (List Atom)) (atoms negative : List Atom) : ∃ r, computeGroups part objects invariants atoms negative = some r := by
  obtain ⟨out, h, _⟩ := compute_spec part objects invariants atoms negative
  exact ⟨_, h⟩

/-- **C72**: Every group is a single reachable atom, or consists of at least two reachable instances of one invariant, none of which has to be false in the goal. -/
theorem C72_groups (hc : CountsOnce invariants) (h : computeGroups part objects invariants atoms negative = some (groups, mutexGroups, names)) {g : List Atom} (hg : g ∈ groups) :
    (∃ p ∈ atoms, g = [p]) ∨ (2 ≤ g.length ∧ g.Nodup ∧ ∃ inv ∈ invariants, ∀ p ∈ g, p ∈ atoms ∧ Instance objects inv p ∧ p ∉ negative) := by
  obtain ⟨out, h1, h2⟩ := compute_spec part objects invariants atoms negative
  rw [h1, Option.some.injEq, Prod.mk.injEq] at h
  obtain ⟨rfl, _⟩ := h
  obtain ⟨g0, hg0, rfl⟩ := mem_sortGroups.mp hg
  rcases List.mem_append.mp hg0 with hg0 | hg0
  · right
    obtain ⟨h3, h4, i, g1, h5, h6, _, _⟩ := h2.mem g0 hg0
    obtain ⟨g2, h7, h8⟩ := removeNegative_get h5
    obtain ⟨inv, hinv, h9⟩ := mem_instances hc (List.mem_of_getElem? h7)
    refine ⟨by rw [List.length_insertionSort]; exact h4, (List.perm_insertionSort _ _).nodup_iff.mpr h3, inv, hinv, fun p hp => ?_⟩
    rw [List.mem_insertionSort] at hp
    obtain ⟨h10, h11⟩ := (h8 p).mp (h6 p hp)
    obtain ⟨h12, h13⟩ := (h9 p).mp h10
    exact ⟨h12, h13, h11⟩
  · left
    obtain ⟨p, hp, rfl⟩ := List.mem_map.mp hg0
    exact ⟨p, (List.mem_filter.mp hp).1, by simp⟩

/-- **C72**: The groups have all reachable atoms and no others. -/
theorem C72_cover (hc : CountsOnce invariants) (h : computeGroups part objects invariants atoms negative = some (groups, mutexGroups, names)) (p : Atom) : (∃ g ∈ groups, p ∈ g) ↔ p ∈ atoms := by
  constructor
  · rintro ⟨g, hg, hp⟩
    rcases C72_groups hc h hg with ⟨q, hq, rfl⟩ | ⟨_, _, inv, _, h1⟩
    · rw [List.mem_singleton.mp hp]; exact hq
    · exact (h1 p hp).1
  · intro hp
    obtain ⟨out, h1, h2⟩ := compute_spec part objects invariants atoms negative
    rw [h1, Option.some.injEq, Prod.mk.injEq] at h
    obtain ⟨rfl, _⟩ := h
    by_cases hout : p ∈ out.flatten
    · obtain ⟨g, hg, hpg⟩ := List.mem_flatten.mp hout
      exact ⟨_, mem_sortGroups.mpr ⟨g, by simp [hg], rfl⟩, by rw [List.mem_insertionSort]; exact hpg⟩
    · exact ⟨_, mem_sortGroups.mpr ⟨[p], List.mem_append_right _ (List.mem_map.mpr ⟨p, List.mem_filter.mpr ⟨hp, by simpa using hout⟩, rfl⟩), rfl⟩, by simp⟩

/-- **C72**: In the standard encoding every atom is in exactly one group. -/
theorem C72_partition (hc : CountsOnce invariants) (ha : atoms.Nodup) (h : computeGroups true objects invariants atoms negative = some (groups, mutexGroups, names)) {p : Atom} (hp : p ∈ atoms) :
    ∃ (v : Nat) (g : List Atom), groups[v]? = some g ∧ p ∈ g ∧ ∀ (w : Nat) (g' : List Atom), groups[w]? = some g' → p ∈ g' → w = v := by
  obtain ⟨g, hg, hpg⟩ := (C72_cover hc h p).mpr hp
  obtain ⟨v, hv⟩ := List.mem_iff_getElem?.mp hg
  refine ⟨v, g, hv, hpg, fun w g' hw hpg' => ?_⟩
  obtain ⟨out, h1, h2⟩ := compute_spec true objects invariants atoms negative
  rw [h1, Option.some.injEq, Prod.mk.injEq] at h
  obtain ⟨rfl, _⟩ := h
  refine unique_of_flatten_nodup _ ?_ v w g g' p hv hw hpg hpg'
  rw [(sortGroups_flatten _).nodup_iff, List.flatten_append, List.nodup_append]
  have hs : ∀ l : List Atom, (l.map (fun x => [x])).flatten = l := by
    intro l
    induction l with
    | nil => rfl
    | cons x l ih => simp [ih]
  rw [hs]
  refine ⟨h2.flatten_nodup, ha.filter _, fun x hx y hy hxy => ?_⟩
  subst hxy
  simpa [hx] using (List.mem_filter.mp hy).2

/-- **C72**: Atoms that have to be false in the goal are alone in their groups. -/
theorem C72_negative (hc : CountsOnce invariants) (h : computeGroups part objects invariants atoms negative = some (groups, mutexGroups, names)) {p : Atom} (hp : p ∈ negative) {g : List Atom} (hg : g ∈ groups) (hpg : p ∈ g) :
    g = [p] := by
  rcases C72_groups hc h hg with ⟨q, hq, rfl⟩ | ⟨_, _, inv, _, h1⟩
  · rw [List.mem_singleton.mp hpg]
  · exact absurd hp (h1 p hpg).2.2

/-- **C72**: In the full encoding, every invariant with two reachable instances that need not be false in the goal gives a group with all of these instances. -/
theorem C72_full (hc : CountsOnce invariants) (h : computeGroups false objects invariants atoms negative = some (groups, mutexGroups, names)) {inv : List Atom} (hi : inv ∈ invariants)
    (h2 : ∃ p q, p ≠ q ∧ (p ∈ atoms ∧ Instance objects inv p ∧ p ∉ negative) ∧ q ∈ atoms ∧ Instance objects inv q ∧ q ∉ negative) :
    ∃ g ∈ groups, ∀ p, p ∈ g ↔ p ∈ atoms ∧ Instance objects inv p ∧ p ∉ negative := by
  obtain ⟨p, q, hne, ⟨hp1, hp2, hp3⟩, hq1, hq2, hq3⟩ := h2
  obtain ⟨out, h1, hG⟩ := compute_spec false objects invariants atoms negative
  rw [h1, Option.some.injEq, Prod.mk.injEq] at h
  obtain ⟨rfl, _⟩ := h
  obtain ⟨g0, hg0, hmem⟩ := instances_mem (objects := objects) (atoms := atoms) hc hi
  obtain ⟨i, hi⟩ := List.mem_iff_getElem?.mp hg0
  obtain ⟨g1, hg1, hmem1⟩ := removeNegative_get' negative hi
  obtain ⟨c, hc1, hc2⟩ := hG.full i g1 (by simp) hg1 ⟨p, (hmem1 p).mpr ⟨(hmem p).mpr ⟨hp1, hp2⟩, hp3⟩, q, (hmem1 q).mpr ⟨(hmem q).mpr ⟨hq1, hq2⟩, hq3⟩, hne⟩
  refine ⟨_, mem_sortGroups.mpr ⟨c, by simp [hc1], rfl⟩, fun x => ?_⟩
  rw [List.mem_insertionSort, hc2, hmem1, hmem, and_assoc]

/-- **C72**: The groups are chosen greedily among the reachable instances of the invariants (without those that have to be false in the goal): always a group with the most atoms that are not covered yet, as long as there is one with two;
the atoms that are not covered in the end are alone in their groups. -/
theorem C72_greedy (h : computeGroups part objects invariants atoms negative = some (groups, mutexGroups, names)) :
    ∃ out inputs, Greedy part inputs [] [] out ∧ (groups ~ (out ++ (atoms.filter (fun p => decide (∀ g ∈ out, p ∉ g))).map (fun p => [p])).map (fun g => g.insertionSort (· ≤ ·))) ∧
      (CountsOnce invariants → inputs.length = invariants.length ∧ (∀ g ∈ inputs, ∃ inv ∈ invariants, ∀ p, p ∈ g ↔ p ∈ atoms ∧ Instance objects inv p ∧ p ∉ negative) ∧
        ∀ inv ∈ invariants, ∃ g ∈ inputs, ∀ p, p ∈ g ↔ p ∈ atoms ∧ Instance objects inv p ∧ p ∉ negative) := by
  obtain ⟨out, h1, hG⟩ := compute_spec part objects invariants atoms negative
  rw [h1, Option.some.injEq, Prod.mk.injEq] at h
  obtain ⟨rfl, _⟩ := h
  refine ⟨out, _, hG, ?_, fun hc => ⟨?_, fun g hg => ?_, fun inv hinv => ?_⟩⟩
  · have he : (fun x : Atom => decide (x ∉ out.flatten)) = fun p => decide (∀ g ∈ out, p ∉ g) := by
      funext p
      simp
    rw [he]
    exact sortGroups_perm _
  · have : (removeNegative (sortGroups (instantiateGroups objects atoms invariants)) negative).length = (sortGroups (instantiateGroups objects atoms invariants)).length := by
      unfold removeNegative
      split <;> simp
    rw [this, (sortGroups_perm _).length_eq]
    simp [instantiateGroups]
  · obtain ⟨i, hi⟩ := List.mem_iff_getElem?.mp hg
    obtain ⟨g0, hg0, hm⟩ := removeNegative_get hi
    obtain ⟨inv, hinv, hm'⟩ := mem_instances hc (List.mem_of_getElem? hg0)
    exact ⟨inv, hinv, fun p => by rw [hm, hm', and_assoc]⟩
  · obtain ⟨g0, hg0, hm⟩ := instances_mem (objects := objects) (atoms := atoms) hc hinv
    obtain ⟨i, hi⟩ := List.mem_iff_getElem?.mp hg0
    obtain ⟨g, hg, hm'⟩ := removeNegative_get' negative hi
    exact ⟨g, List.mem_of_getElem? hg, fun p => by rw [hm', hm, and_assoc]⟩

/-- **C72**: The mutex groups are the reachable instances of the invariants, and single atoms that are no instances. -/
theorem C72_mutexes (hc : CountsOnce invariants) (h : computeGroups part objects invariants atoms negative = some (groups, mutexGroups, names)) :
    (∀ inv ∈ invariants, ∃ g ∈ mutexGroups, ∀ p, p ∈ g ↔ p ∈ atoms ∧ Instance objects inv p) ∧
    (∀ g ∈ mutexGroups, (∃ inv ∈ invariants, ∀ p, p ∈ g ↔ p ∈ atoms ∧ Instance objects inv p) ∨ ∃ p ∈ atoms, g = [p] ∧ ∀ inv ∈ invariants, ¬ Instance objects inv p) ∧
    ∀ p, (∃ g ∈ mutexGroups, p ∈ g) ↔ p ∈ atoms := by
  obtain ⟨out, h1, _⟩ := compute_spec part objects invariants atoms negative
  rw [h1, Option.some.injEq, Prod.mk.injEq, Prod.mk.injEq] at h
  obtain ⟨_, rfl, _⟩ := h
  have hfwd : ∀ g ∈ collectMutexGroups (sortGroups (instantiateGroups objects atoms invariants)) atoms,
      (∃ inv ∈ invariants, ∀ p, p ∈ g ↔ p ∈ atoms ∧ Instance objects inv p) ∨ ∃ p ∈ atoms, g = [p] ∧ ∀ inv ∈ invariants, ¬ Instance objects inv p := by
    intro g hg
    rcases mem_collect.mp hg with hg | ⟨p, hp, hno, rfl⟩
    · exact .inl (mem_instances hc hg)
    · refine .inr ⟨p, hp, rfl, fun inv hinv hI => ?_⟩
      obtain ⟨g, hg, hm⟩ := instances_mem (objects := objects) (atoms := atoms) hc hinv
      exact hno g hg ((hm p).mpr ⟨hp, hI⟩)
  refine ⟨fun inv hinv => ?_, hfwd, fun p => ⟨?_, fun hp => ?_⟩⟩
  · obtain ⟨g, hg, hm⟩ := instances_mem (objects := objects) (atoms := atoms) hc hinv
    exact ⟨g, mem_collect.mpr (.inl hg), hm⟩
  · rintro ⟨g, hg, hp⟩
    rcases hfwd g hg with ⟨inv, _, hm⟩ | ⟨q, hq, rfl, _⟩
    · exact ((hm p).mp hp).1
    · rw [List.mem_singleton.mp hp]; exact hq
  · by_cases hex : ∃ g ∈ sortGroups (instantiateGroups objects atoms invariants), p ∈ g
    · obtain ⟨g, hg, hpg⟩ := hex
      exact ⟨g, mem_collect.mpr (.inl hg), hpg⟩
    · exact ⟨[p], mem_collect.mpr (.inr ⟨p, hp, fun g hg hpg => hex ⟨g, hg, hpg⟩, rfl⟩), by simp⟩

/-- **C72**: The names of the values: the atoms of the group in order, and one more name, which is the negation of a single atom. -/
theorem C72_names (h : computeGroups part objects invariants atoms negative = some (groups, mutexGroups, names)) :
    Named groups names ∧ ∀ (v : Nat) (g : List Atom), groups[v]? = some g → ∃ ns, names[v]? = some ns ∧ (∀ (i : Nat) (p : Atom), g[i]? = some p → ns[i]? = some (literalString "Atom".toList p)) ∧
      ns[g.length]? = some (match g with | [p] => literalString "NegatedAtom".toList p | _ => "<none of those>".toList) := by
  obtain ⟨out, h1, _⟩ := compute_spec part objects invariants atoms negative
  rw [h1, Option.some.injEq, Prod.mk.injEq, Prod.mk.injEq] at h
  obtain ⟨h2, _, rfl⟩ := h
  rw [h2]
  have hlen : ∀ g : List Atom, (groupKey g).length = g.length + 1 := by
    intro g
    unfold groupKey
    split <;> simp
  constructor
  · unfold Named translationKey
    rw [List.map_map]
    exact List.map_congr_left fun g _ => hlen g
  · intro v g hg
    refine ⟨groupKey g, by simp [translationKey, hg], fun i p hp => ?_, ?_⟩
    · have hi : i < g.length := (List.getElem?_eq_some_iff.mp hp).1
      unfold groupKey
      rw [List.getElem?_append_left (by simpa using hi), List.getElem?_map, hp]
      rfl
    · unfold groupKey
      rw [List.getElem?_append_right (by simp)]
      rcases g with _ | ⟨p, _ | ⟨q, g⟩⟩ <;> simp

/-- **C72**: The groups and their names do not depend on the order of the sets of atoms. -/
theorem C72_deterministic {atoms' negative' : List Atom} (ha : atoms ~ atoms') (hn : negative ~ negative') :
    (computeGroups part objects invariants atoms negative).map (fun r => (r.1, r.2.2)) = (computeGroups part objects invariants atoms' negative').map (fun r => (r.1, r.2.2)) ∧
    ∀ r r', computeGroups part objects invariants atoms negative = some r → computeGroups part objects invariants atoms' negative' = some r' → r.2.1 ~ r'.2.1 := by
  have hmem : ∀ p, p ∈ atoms ↔ p ∈ atoms' := fun p => ha.mem_iff
  have hI : instantiateGroups objects atoms invariants = instantiateGroups objects atoms' invariants := by
    unfold instantiateGroups
    refine List.map_congr_left fun g _ => ?_
    unfold expandGroup
    congr 1
    funext f
    unfold expandFact
    simp only [hmem]
  obtain ⟨out, h1, _⟩ := chosen_spec part (sortGroups (instantiateGroups objects atoms invariants)) atoms negative
  obtain ⟨out', h1', _⟩ := chosen_spec part (sortGroups (instantiateGroups objects atoms invariants)) atoms' negative'
  have he : out = out' := by
    have h3 := chosen_fst part (sortGroups (instantiateGroups objects atoms invariants)) atoms atoms' hn
    rw [h1, h1'] at h3
    simpa using h3
  subst he
  have hsort : sortGroups (out ++ (atoms.filter (fun x => decide (x ∉ out.flatten))).map (fun x => [x])) = sortGroups (out ++ (atoms'.filter (fun x => decide (x ∉ out.flatten))).map (fun x => [x])) :=
    sortGroups_congr (((ha.filter _).map _).append_left _)
  have hc1 : computeGroups part objects invariants atoms negative = some (sortGroups (out ++ (atoms.filter (fun x => decide (x ∉ out.flatten))).map (fun x => [x])), collectMutexGroups (sortGroups (instantiateGroups objects atoms invariants)) atoms,
      translationKey (sortGroups (out ++ (atoms.filter (fun x => decide (x ∉ out.flatten))).map (fun x => [x])))) := by
    unfold computeGroups chooseGroups
    rw [h1]
  have hc2 : computeGroups part objects invariants atoms' negative' = some (sortGroups (out ++ (atoms'.filter (fun x => decide (x ∉ out.flatten))).map (fun x => [x])), collectMutexGroups (sortGroups (instantiateGroups objects atoms invariants)) atoms',
      translationKey (sortGroups (out ++ (atoms'.filter (fun x => decide (x ∉ out.flatten))).map (fun x => [x])))) := by
    unfold computeGroups chooseGroups
    rw [← hI, h1']
  rw [hc1, hc2]
  refine ⟨by simp only [Option.map_some, hsort], fun r r' hr hr' => ?_⟩
  rw [Option.some.injEq] at hr hr'
  subst hr
  subst hr'
  exact collect_perm _ ha

/-- **C72**: For the grounded task, the groups are as needed by the translation to finite-domain variables (C73). -/
theorem C72_task {t : StripsTask Atom} (ha : atoms.Nodup) (hm : ∀ p, t.Mentions p ∨ t.Derived p → p ∈ atoms) (hI : InvariantsOf t objects invariants)
    (h : computeGroups part objects invariants atoms (negativeInGoal t.goal) = some (groups, mutexGroups, names)) :
    t.Groups groups mutexGroups ∧ (part = true → Partition groups mutexGroups) ∧ Named groups names := by
  have hc := hI.once
  have hsingle : ∀ p, t.MutexGroup [p] := by
    intro p s _ a ha b hb _ _
    rw [List.mem_singleton.mp ha, List.mem_singleton.mp hb]
  obtain ⟨hm1, hm2, hm3⟩ := C72_mutexes hc h
  refine ⟨⟨fun g hg => ?_, fun g hg => ?_, fun p hp => ?_, fun p hp => ?_, fun l hl hneg g hg hlg => ?_⟩, fun hp p hex => ?_, (C72_names h).1⟩
  · rcases List.mem_append.mp hg with hg | hg
    · rcases C72_groups hc h hg with ⟨p, _, rfl⟩ | ⟨_, hn, _⟩
      · simp
      · exact hn
    · obtain ⟨out, h1, _⟩ := compute_spec part objects invariants atoms (negativeInGoal t.goal)
      rw [h1, Option.some.injEq, Prod.mk.injEq, Prod.mk.injEq] at h
      obtain ⟨_, rfl, _⟩ := h
      rcases mem_collect.mp hg with hg | ⟨p, _, _, rfl⟩
      · obtain ⟨g0, hg0, rfl⟩ := mem_sortGroups.mp hg
        obtain ⟨inv, hinv, rfl⟩ := List.mem_map.mp hg0
        exact (List.perm_insertionSort _ _).nodup_iff.mpr (expandGroup_nodup hI.names _ (hI.predicates inv hinv))
      · simp
  · rcases List.mem_append.mp hg with hg | hg
    · rcases C72_groups hc h hg with ⟨p, _, rfl⟩ | ⟨_, _, inv, hinv, hall⟩
      · exact hsingle p
      · exact fun s hs p hp q hq => hI.mutex inv hinv s hs p q (hall p hp).2.1 (hall q hq).2.1
    · rcases hm2 g hg with ⟨inv, hinv, hall⟩ | ⟨p, _, rfl, _⟩
      · exact fun s hs p hp q hq => hI.mutex inv hinv s hs p q ((hall p).mp hp).2 ((hall q).mp hq).2
      · exact hsingle p
  · exact ⟨(C72_cover hc h p).mpr (hm p (.inl hp)), (hm3 p).mpr (hm p (.inl hp))⟩
  · have hpa := hm p (.inr hp)
    have hone : ∀ g ∈ groups, p ∈ g → g = [p] := by
      intro g hg hpg
      rcases C72_groups hc h hg with ⟨q, _, rfl⟩ | ⟨_, _, inv, hinv, hall⟩
      · rw [List.mem_singleton.mp hpg]
      · exact absurd hp (hI.derived inv hinv p (hall p hpg).2.1)
    obtain ⟨out, h1, hG⟩ := compute_spec part objects invariants atoms (negativeInGoal t.goal)
    have h' := h
    rw [h1, Option.some.injEq, Prod.mk.injEq] at h'
    obtain ⟨hgr, _⟩ := h'
    obtain ⟨g, hg, hpg⟩ := (C72_cover hc h p).mpr hpa
    have := hone g hg hpg
    subst this
    obtain ⟨v, hv⟩ := List.mem_iff_getElem?.mp hg
    refine ⟨v, hv, fun w g' hw hpg' => ?_⟩
    have hg' := hone g' (List.mem_of_getElem? hw) hpg'
    subst hg'
    have hcount : groups.count [p] ≤ 1 := by
      rw [← hgr, (sortGroups_perm _).count_eq, List.map_append, List.count_append]
      have hz : (out.map (fun g => g.insertionSort (· ≤ ·))).count [p] = 0 := by
        rw [List.count_eq_zero]
        intro hmem
        obtain ⟨c, hc', he⟩ := List.mem_map.mp hmem
        have hl := (hG.mem c hc').2.1
        have := congrArg List.length he
        rw [List.length_insertionSort] at this
        simp at this
        omega
      rw [hz, Nat.zero_add, List.map_map]
      refine List.nodup_iff_count_le_one.mp ((ha.filter _).map_on ?_) _
      intro x _ y _ hxy
      simpa using hxy
    exact index_unique groups [p] hcount v w hv hw
  · exact C72_negative hc h (by simp only [negativeInGoal, List.mem_dedup, List.mem_map, List.mem_filter]; exact ⟨l, ⟨hl, hneg⟩, rfl⟩) hg hlg
  · subst hp
    refine C72_partition hc ha h ?_
    obtain ⟨g, hg, hpg⟩ := hex
    rcases List.mem_append.mp hg with hg | hg
    · exact (C72_cover hc h p).mp ⟨g, hg, hpg⟩
    · exact (hm3 p).mp ⟨g, hg, hpg⟩

/-- **C72**: From the grounded task and its invariants to finite-domain variables: groups are computed, and the translation with these groups keeps the plans, up to actions that can be left out. -/
theorem C72_plans {t : StripsTask Atom} (hs : t.Stratified) (ha : atoms.Nodup) (hm : ∀ p, t.Mentions p ∨ t.Derived p → p ∈ atoms) (hI : InvariantsOf t objects invariants) (o : StripsToSas.Options) :
    ∃ groups mutexGroups names T, computeGroups o.partialEncoding objects invariants atoms (negativeInGoal t.goal) = some (groups, mutexGroups, names) ∧
      StripsToSas.translateTask o groups mutexGroups names t = some T ∧ (∀ p, T.HasPlan p → t.HasPlan p) ∧
      ∀ p, t.HasPlan p → ∃ p', p'.Sublist p ∧ T.HasPlan p' ∧ (o.keepNoOps = true → t.goal ≠ [] → p' = p) := by
  obtain ⟨⟨groups, mutexGroups, names⟩, h⟩ := C72_returns o.partialEncoding objects invariants atoms (negativeInGoal t.goal)
  obtain ⟨h1, h2, h3⟩ := C72_task ha hm hI h
  obtain ⟨T, h4, h5, h6⟩ := StripsToSas.C73_plans (o := o) (names := names) hs h1 h2 h3
  exact ⟨groups, mutexGroups, names, T, h, h4, h5, h6⟩

theorem join_newline {sep : List Char} (hsep : '\n' ∉ sep) : ∀ {l : List (List Char)}, (∀ s ∈ l, '\n' ∉ s) → '\n' ∉ join sep l
  | [], _ => by simp [join]
  | [s], h => by simpa [join] using h s (by simp)
  | s :: s' :: l, h => by
    have ih := join_newline hsep (l := s' :: l) (fun x hx => h x (by simp [hx]))
    simp only [join, List.mem_append, not_or]
    exact ⟨⟨h s (by simp), hsep⟩, ih⟩

/-- **C72**: The names of values can be written to lines of the output if the names of predicates and objects have no line breaks. -/
theorem C72_nameOk (hc : CountsOnce invariants) (h : computeGroups part objects invariants atoms negative = some (groups, mutexGroups, names)) (hp : ∀ p ∈ atoms, '\n' ∉ p.predicate ∧ ∀ a ∈ p.args, '\n' ∉ a) :
    ∀ vs ∈ names, ∀ n ∈ vs, NameOk n := by
  have hlit : ∀ (cls : List Char) (p : Atom), cls = "Atom".toList ∨ cls = "NegatedAtom".toList → p ∈ atoms → NameOk (literalString cls p) := by
    intro cls p hcls hpa
    obtain ⟨h1, h2⟩ := hp p hpa
    have h3 := join_newline (sep := ", ".toList) (by decide) h2
    refine ⟨?_, 'A', ?_, by decide⟩
    · unfold literalString
      simp only [List.mem_append, not_or]
      refine ⟨⟨⟨⟨⟨?_, by decide⟩, h1⟩, by decide⟩, h3⟩, by decide⟩
      rcases hcls with rfl | rfl <;> decide
    · unfold literalString
      simp only [List.mem_append]
      left; left; left; left; left
      rcases hcls with rfl | rfl <;> decide
  have hcov := C72_cover hc h
  obtain ⟨out, h1, _⟩ := compute_spec part objects invariants atoms negative
  rw [h1, Option.some.injEq, Prod.mk.injEq, Prod.mk.injEq] at h
  obtain ⟨h2, _, rfl⟩ := h
  rw [h2]
  intro vs hvs n hn
  obtain ⟨g, hg, rfl⟩ := List.mem_map.mp hvs
  unfold groupKey at hn
  rcases List.mem_append.mp hn with hn | hn
  · obtain ⟨p, hpg, rfl⟩ := List.mem_map.mp hn
    exact hlit _ p (.inl rfl) ((hcov p).mp ⟨g, hg, hpg⟩)
  · split at hn
    · rename_i p _
      rw [List.mem_singleton.mp hn]
      exact hlit _ p (.inr rfl) ((hcov p).mp ⟨[p], hg, by simp⟩)
    · rw [List.mem_singleton.mp hn]
      exact ⟨by decide, '<', by decide, by decide⟩

/-! ## A concrete task -/

/-- the position `p` is an instance of `at(?X)` -/
def exAt (o : String) : Atom := ⟨"at".toList, [o.toList]⟩
def exKey : Atom := ⟨"key".toList, []⟩
def exDone : Atom := ⟨"done".toList, []⟩

/-- a robot goes from a to b, and the axiom says that this is the goal -/
def ex : StripsTask Atom where
  init := [exAt "a", exKey]
  goal := [⟨false, exDone⟩, ⟨true, exKey⟩]
  actions := [⟨"go a b".toList, [⟨false, exAt "a"⟩], [([], ⟨true, exAt "a"⟩), ([], ⟨false, exAt "b"⟩)], 1⟩, ⟨"drop".toList, [], [([], ⟨true, exKey⟩)], 1⟩]
  axioms := [⟨[⟨false, exAt "b"⟩], exDone⟩]
  layers := [(exDone, 0)]
  metric := false

def exObjects : List (List Char) := ["b".toList, "a".toList, "c".toList]
def exInvariants : List (List Atom) := [[⟨"at".toList, ["?X".toList]⟩]]
def exAtoms : List Atom := [exKey, exAt "b", exDone, exAt "a"]

theorem ex_derived (p : Atom) : ex.Derived p ↔ p = exDone := by simp [StripsTask.Derived, ex]

theorem ex_ne (o : String) : exAt o ≠ exDone := by
  intro h
  exact absurd (show "at".toList = "done".toList from congrArg Atom.predicate h) (by decide)

theorem ex_stratified : ex.Stratified where
  once := by simp [ex]
  heads := by
    intro r hr
    rw [ex_derived]
    simp only [ex, List.mem_singleton] at hr
    rw [hr]
  layered := by
    intro r hr l hl n m h1 h2
    simp only [ex, List.mem_singleton] at hr
    subst hr
    simp only [List.mem_singleton] at hl
    subst hl
    simp only [ex, List.mem_singleton, Prod.mk.injEq] at h1
    exact absurd h1.1 (ex_ne "b")
  effects := by
    intro a ha e he
    rw [ex_derived]
    simp only [ex, List.mem_cons, List.not_mem_nil, or_false] at ha
    rcases ha with rfl | rfl <;> simp only [List.mem_cons, List.not_mem_nil, or_false] at he
    · rcases he with rfl | rfl
      · exact ex_ne "a"
      · exact ex_ne "b"
    · rw [he]
      decide
  init := by
    intro p hp
    rw [ex_derived]
    simp only [ex, List.mem_cons, List.not_mem_nil, or_false] at hp
    rcases hp with rfl | rfl
    · exact ex_ne "a"
    · decide

/-- the robot is never at two places -/
theorem ex_mutex {s : Atom → Prop} (h : ex.Reachable s) : ∀ o o' : List Char, s ⟨"at".toList, [o]⟩ → s ⟨"at".toList, [o']⟩ → o = o' := by
  have hnd : ∀ o : List Char, ¬ ex.Derived ⟨"at".toList, [o]⟩ := by
    intro o h
    rw [ex_derived] at h
    exact absurd (show "at".toList = "done".toList from congrArg Atom.predicate h) (by decide)
  obtain ⟨s0, as, h0, hr⟩ := h
  have h1 : ∀ o o' : List Char, s0 ⟨"at".toList, [o]⟩ → s0 ⟨"at".toList, [o']⟩ → o = o' := by
    have : ∀ o : List Char, s0 ⟨"at".toList, [o]⟩ → o = "a".toList := by
      intro o ho
      have h2 := (h0.base _ (hnd o)).mp ho
      simp only [ex, List.mem_cons, List.not_mem_nil, or_false] at h2
      rcases h2 with h2 | h2
      · have := congrArg Atom.args h2
        simpa [exAt] using this
      · have := congrArg Atom.args h2
        simp [exKey] at this
    intro o o' ho ho'
    rw [this o ho, this o' ho']
  have key : ∀ s as u, ex.Run s as u → (∀ o o' : List Char, s ⟨"at".toList, [o]⟩ → s ⟨"at".toList, [o']⟩ → o = o') → ∀ o o' : List Char, u ⟨"at".toList, [o]⟩ → u ⟨"at".toList, [o']⟩ → o = o' := by
    intro s as u hr
    induction hr with
    | nil s => exact id
    | cons s a s' as u hst _ ih =>
      intro hs
      apply ih
      obtain ⟨ha, hpre, hres⟩ := hst
      simp only [ex, List.mem_cons, List.not_mem_nil, or_false] at ha
      rcases ha with rfl | rfl
      · have hat : s (exAt "a") := by simpa [Literal.holds] using hpre ⟨false, exAt "a"⟩ (by simp)
        have : ∀ o : List Char, s' ⟨"at".toList, [o]⟩ → o = "b".toList := by
          intro o ho
          rcases (hres.base _ (hnd o)).mp ho with ⟨e, he, hl, _⟩ | ⟨h2, h3⟩
          · simp only [List.mem_cons, List.not_mem_nil, or_false] at he
            rcases he with rfl | rfl
            · simp at hl
            · simp only [Literal.mk.injEq, true_and] at hl
              have := congrArg Atom.args hl
              simpa [exAt] using this.symm
          · have hoa := hs o "a".toList h2 hat
            subst hoa
            exact absurd ⟨([], ⟨true, exAt "a"⟩), by simp, rfl, by simp⟩ h3
        intro o o' ho ho'
        rw [this o ho, this o' ho']
      · have keep : ∀ o : List Char, s' ⟨"at".toList, [o]⟩ → s ⟨"at".toList, [o]⟩ := by
          intro o ho
          rcases (hres.base _ (hnd o)).mp ho with ⟨e, he, hl, _⟩ | ⟨h2, _⟩
          · simp only [List.mem_singleton] at he
            rw [he] at hl
            simp at hl
          · exact h2
        exact fun o o' ho ho' => hs o o' (keep o ho) (keep o' ho')
  exact key _ _ _ hr h1

theorem ex_instance {p : Atom} (h : Instance exObjects [⟨"at".toList, ["?X".toList]⟩] p) : ∃ o, p = ⟨"at".toList, [o]⟩ := by
  obtain ⟨f, hf, h⟩ := h
  rw [List.mem_singleton.mp hf] at h
  rcases h with ⟨h, _⟩ | ⟨_, o, _, rfl⟩
  · exact absurd (by simp [counted]) h
  · exact ⟨o, by simp [substitute, counted]⟩

theorem ex_invariants : InvariantsOf ex exObjects exInvariants where
  names := by decide
  once := by
    intro g hg f hf
    rw [List.mem_singleton.mp hg] at hf
    rw [List.mem_singleton.mp hf]
    decide
  predicates := by
    intro inv hinv
    rw [List.mem_singleton.mp hinv]
    simp
  mutex := by
    intro inv hinv s hs p q hp hq h1 h2
    rw [List.mem_singleton.mp hinv] at hp hq
    obtain ⟨o, rfl⟩ := ex_instance hp
    obtain ⟨o', rfl⟩ := ex_instance hq
    rw [ex_mutex hs o o' h1 h2]
  derived := by
    intro inv hinv p hp hd
    rw [List.mem_singleton.mp hinv] at hp
    obtain ⟨o, rfl⟩ := ex_instance hp
    rw [ex_derived] at hd
    exact absurd (show "at".toList = "done".toList from congrArg Atom.predicate hd) (by decide)

theorem ex_mentions (p : Atom) (h : ex.Mentions p ∨ ex.Derived p) : p ∈ exAtoms := by
  rcases h with (⟨l, hl, rfl⟩ | ⟨a, ha, h⟩ | ⟨r, hr, h⟩) | h
  · simp only [ex, List.mem_cons, List.not_mem_nil, or_false] at hl
    rcases hl with rfl | rfl <;> simp [exAtoms]
  · simp only [ex, List.mem_cons, List.not_mem_nil, or_false] at ha
    rcases ha with rfl | rfl
    · rcases h with ⟨l, hl, rfl⟩ | ⟨e, he, h⟩
      · simp only [List.mem_singleton] at hl
        subst hl
        simp [exAtoms]
      · simp only [List.mem_cons, List.not_mem_nil, or_false] at he
        rcases he with rfl | rfl <;> rcases h with rfl | ⟨l, hl, _⟩ <;> first | cases hl | simp [exAtoms]
    · rcases h with ⟨l, hl, _⟩ | ⟨e, he, h⟩
      · cases hl
      · simp only [List.mem_singleton] at he
        subst he
        rcases h with rfl | ⟨l, hl, _⟩
        · simp [exAtoms]
        · cases hl
  · simp only [ex, List.mem_singleton] at hr
    subst hr
    rcases h with rfl | ⟨l, hl, rfl⟩
    · simp [exAtoms]
    · rw [List.mem_singleton.mp hl]
      simp [exAtoms]
  · rw [ex_derived] at h
    subst h
    simp [exAtoms]

/-- the groups: both places of the robot, the derived atom, and the atom that is false in the goal -/
example : computeGroups true exObjects exInvariants exAtoms (negativeInGoal ex.goal) =
    some ([[exAt "a", exAt "b"], [exDone], [exKey]], [[exAt "a", exAt "b"], [exKey], [exDone]],
      [["Atom at(a)".toList, "Atom at(b)".toList, "<none of those>".toList], ["Atom done()".toList, "NegatedAtom done()".toList], ["Atom key()".toList, "NegatedAtom key()".toList]]) := by
  decide +kernel

/-- the hypotheses of C72_plans are met -/
example : ∃ groups mutexGroups names T, computeGroups true exObjects exInvariants exAtoms (negativeInGoal ex.goal) = some (groups, mutexGroups, names) ∧
    StripsToSas.translateTask ⟨true, false, false⟩ groups mutexGroups names ex = some T ∧ ∀ p, T.HasPlan p → ex.HasPlan p := by
  obtain ⟨g, m, n, T, h1, h2, h3, _⟩ := C72_plans ex_stratified (by decide) ex_mentions ex_invariants ⟨true, false, false⟩
  exact ⟨g, m, n, T, h1, h2, h3⟩

/-- overlapping groups: the larger one is chosen first, and the other one loses the atom that is covered -/
example : (chosen true [[1, 2, 3], [3, 4, 5, 6], [1, 2]] [1, 2, 3, 4, 5, 6, 7] []) = some ([[3, 4, 5, 6], [1, 2]], [7]) := by decide +kernel
example : (chosen false [[1, 2, 3], [3, 4, 5, 6], [1, 2]] [1, 2, 3, 4, 5, 6, 7] [4]) = some ([[3, 5, 6], [1, 2, 3], [1, 2]], [4, 7]) := by decide +kernel

end Verif.FactGroups
