import Verif.Lemmas.FactGroupsOut

/-
Lemmas about the instances of invariants.
-/
namespace Verif.FactGroups

theorem set_eq_map {o : List Char} : ∀ {args : List (List Char)} {pos : Nat}, args.findIdx? (· == counted) = some pos → args.count counted ≤ 1 → args.set pos o = args.map (substitute o)
  | [], pos, h, _ => by simp at h
  | a :: args, pos, h, hc => by
    rw [List.findIdx?_cons] at h
    split at h
    · rename_i ha
      simp only [Option.some.injEq] at h
      subst h
      have ha' : a = counted := by simpa using ha
      subst ha'
      rw [List.count_cons_self] at hc
      have h0 : counted ∉ args := by
        rw [← List.count_eq_zero]; omega
      simp only [List.set_cons_zero, List.map_cons, substitute, if_true, List.cons.injEq, true_and]
      symm
      refine (List.map_congr_left (g := id) fun x hx => ?_).trans (by simp)
      simp only [substitute, id]
      rw [if_neg]
      rintro rfl
      exact h0 hx
    · rename_i ha
      have ha' : a ≠ counted := by simpa using ha
      obtain ⟨k, hk, rfl⟩ := Option.map_eq_some_iff.mp h
      rw [List.count_cons_of_ne ha'] at hc
      simp only [List.set_cons_succ, List.map_cons, substitute, if_neg ha', List.cons.injEq, true_and]
      exact set_eq_map hk hc

theorem mem_expandFact {objects : List (List Char)} {reachable : List Atom} {fact p : Atom} (hc : fact.args.count counted ≤ 1) :
    p ∈ expandFact objects reachable fact ↔ p ∈ reachable ∧ ((counted ∉ fact.args ∧ p = fact) ∨ (counted ∈ fact.args ∧ ∃ o ∈ objects, p = Atom.mk fact.predicate (fact.args.map (substitute o)))) := by
  unfold expandFact
  cases hf : fact.args.findIdx? (· == counted) with
  | none =>
    have h0 : counted ∉ fact.args := by
      intro h
      have := List.findIdx?_eq_none_iff.mp hf counted h
      simp at this
    simp only
    split
    · rename_i h
      simp only [List.mem_singleton, h0, not_false_eq_true, true_and, false_and, or_false]
      exact ⟨fun h' => ⟨h' ▸ h, h'⟩, fun h' => h'.2⟩
    · rename_i h
      simp only [List.not_mem_nil, h0, not_false_eq_true, true_and, false_and, or_false, false_iff, not_and]
      rintro h1 rfl
      exact h h1
  | some pos =>
    have h0 : counted ∈ fact.args := by
      obtain ⟨h1, h2, _⟩ := List.findIdx?_eq_some_iff_getElem.mp hf
      have : fact.args[pos] = counted := by simpa using h2
      rw [← this]
      exact List.getElem_mem h1
    simp only [List.mem_filter, List.mem_map, decide_eq_true_eq, h0, not_true_eq_false, false_and, true_and, false_or]
    constructor
    · rintro ⟨⟨o, ho, rfl⟩, hr⟩
      exact ⟨hr, o, ho, by rw [set_eq_map hf hc]⟩
    · rintro ⟨hr, o, ho, rfl⟩
      exact ⟨⟨o, ho, by rw [set_eq_map hf hc]⟩, hr⟩

theorem mem_expandGroup {objects : List (List Char)} {reachable group : List Atom} {p : Atom} (hc : ∀ fact ∈ group, fact.args.count counted ≤ 1) :
    p ∈ expandGroup objects reachable group ↔ p ∈ reachable ∧ Instance objects group p := by
  unfold expandGroup Instance
  rw [List.mem_flatMap]
  constructor
  · rintro ⟨f, hf, hp⟩
    obtain ⟨h1, h2⟩ := (mem_expandFact (hc f hf)).mp hp
    exact ⟨h1, f, hf, h2⟩
  · rintro ⟨h1, f, hf, h2⟩
    exact ⟨f, hf, (mem_expandFact (hc f hf)).mpr ⟨h1, h2⟩⟩

theorem expandFact_predicate {objects : List (List Char)} {reachable : List Atom} {fact p : Atom} (h : p ∈ expandFact objects reachable fact) : p.predicate = fact.predicate := by
  unfold expandFact at h
  split at h
  · split at h
    · rw [List.mem_singleton.mp h]
    · cases h
  · rw [List.mem_filter, List.mem_map] at h
    obtain ⟨⟨o, _, rfl⟩, _⟩ := h
    rfl

theorem expandFact_nodup {objects : List (List Char)} (ho : objects.Nodup) (reachable : List Atom) (fact : Atom) : (expandFact objects reachable fact).Nodup := by
  unfold expandFact
  split
  · split <;> simp
  · rename_i pos hf
    refine List.Nodup.filter _ (List.Nodup.map_on ?_ ho)
    intro o _ o' _ he
    have h1 : pos < fact.args.length := (List.findIdx?_eq_some_iff_getElem.mp hf).1
    have h2 : fact.args.set pos o = fact.args.set pos o' := congrArg Atom.args he
    have h3 : (fact.args.set pos o)[pos]? = (fact.args.set pos o')[pos]? := by rw [h2]
    simpa [h1] using h3

theorem expandGroup_nodup {objects : List (List Char)} (ho : objects.Nodup) (reachable : List Atom) {group : List Atom} (hg : (group.map Atom.predicate).Nodup) : (expandGroup objects reachable group).Nodup := by
  unfold expandGroup
  rw [List.nodup_flatMap]
  refine ⟨fun f _ => expandFact_nodup ho reachable f, ?_⟩
  rw [List.Nodup, List.pairwise_map] at hg
  refine hg.imp ?_
  intro f f' hne p hp hp'
  exact hne ((expandFact_predicate hp).symm.trans (expandFact_predicate hp'))

end Verif.FactGroups
