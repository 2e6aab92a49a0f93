import Verif.Model.TypeHierarchy
import Mathlib.Logic.Relation
import Mathlib.Data.List.Perm.Subperm
import Mathlib.Data.List.Nodup

/-
C87: the supertypes of PDDL types.
-/
namespace Verif.Types

variable {α : Type} [DecidableEq α] {pairs : List (α × α)} {u : α}

/-- the relation that is given by pairs -/
def Edge (pairs : List (α × α)) (u v : α) : Prop := (u, v) ∈ pairs

theorem mem_successors {v : α} : v ∈ successors pairs u ↔ Edge pairs u v := by
  unfold successors Edge
  simp only [List.mem_map, List.mem_filter, decide_eq_true_eq]
  constructor
  · rintro ⟨⟨a, b⟩, ⟨h1, rfl⟩, rfl⟩
    exact h1
  · intro h
    exact ⟨(u, v), ⟨h, rfl⟩, rfl⟩

/-- visiting adds the new successors to both lists -/
theorem visit_spec : ∀ (vs r p : List α), r.Nodup → ∃ new : List α, visit vs r p = (new ++ r, new ++ p) ∧ (new ++ r).Nodup ∧ (∀ v ∈ new, v ∈ vs) ∧ ∀ v ∈ vs, v ∈ new ++ r
  | [], r, p, h => ⟨[], rfl, h, by simp, by simp⟩
  | v :: vs, r, p, h => by
    rw [visit]
    split
    · rename_i hv
      obtain ⟨new, h1, h2, h3, h4⟩ := visit_spec vs r p h
      refine ⟨new, h1, h2, fun x hx => List.mem_cons_of_mem _ (h3 x hx), fun x hx => ?_⟩
      rcases List.mem_cons.mp hx with rfl | hx
      · exact List.mem_append_right _ hv
      · exact h4 x hx
    · rename_i hv
      obtain ⟨new, h1, h2, h3, h4⟩ := visit_spec vs (v :: r) (v :: p) (List.nodup_cons.mpr ⟨hv, h⟩)
      refine ⟨new ++ [v], by simpa using h1, by simpa using h2, fun x hx => ?_, fun x hx => ?_⟩
      · rcases List.mem_append.mp hx with hx | hx
        · exact List.mem_cons_of_mem _ (h3 x hx)
        · rw [List.mem_singleton.mp hx]
          exact List.mem_cons_self
      · rcases List.mem_cons.mp hx with rfl | hx
        · simp
        · simpa using h4 x hx

/-- the state of the search from `u` -/
structure Inv (pairs : List (α × α)) (u : α) (reached pending : List α) : Prop where
  nodup : reached.Nodup
  sound : ∀ v ∈ reached, Relation.TransGen (Edge pairs) u v
  pend : ∀ v ∈ pending, v = u ∨ v ∈ reached
  closed : ∀ v, (v = u ∨ v ∈ reached) → v ∉ pending → ∀ w, Edge pairs v w → w ∈ reached

theorem Inv.targets {r p : List α} (h : Inv pairs u r p) : r.length ≤ pairs.length := by
  have : r ⊆ pairs.map (·.2) := by
    intro v hv
    obtain ⟨w, _, hw⟩ := Relation.TransGen.tail'_iff.mp (h.sound v hv)
    exact List.mem_map.mpr ⟨(w, v), hw, rfl⟩
  simpa using (List.Nodup.subperm h.nodup this).length_le

theorem Inv.step {c : α} {r p : List α} (h : Inv pairs u r (c :: p)) : ∃ new : List α, visit (successors pairs c) r p = (new ++ r, new ++ p) ∧ Inv pairs u (new ++ r) (new ++ p) := by
  obtain ⟨new, h1, h2, h3, h4⟩ := visit_spec (successors pairs c) r p h.nodup
  have hsound : ∀ v ∈ new ++ r, Relation.TransGen (Edge pairs) u v := by
    intro v hv
    rcases List.mem_append.mp hv with hv | hv
    · have he := mem_successors.mp (h3 v hv)
      rcases h.pend c List.mem_cons_self with rfl | hc
      · exact .single he
      · exact .tail (h.sound c hc) he
    · exact h.sound v hv
  refine ⟨new, h1, h2, hsound, fun v hv => ?_, fun v hv hp w hw => ?_⟩
  · rcases List.mem_append.mp hv with hv | hv
    · exact .inr (List.mem_append_left _ hv)
    · exact (h.pend v (List.mem_cons_of_mem _ hv)).imp_right (List.mem_append_right _)
  · rw [List.mem_append, not_or] at hp
    have hv' : v = u ∨ v ∈ r := by
      rcases hv with hv | hv
      · exact .inl hv
      · rcases List.mem_append.mp hv with hv | hv
        · exact absurd hv hp.1
        · exact .inr hv
    by_cases hc : v = c
    · subst hc
      exact h4 w (mem_successors.mpr hw)
    · exact List.mem_append_right _ (h.closed v hv' (by simp [hc, hp.2]) w hw)

theorem search_spec : ∀ {n : Nat} {r p : List α}, Inv pairs u r p → p.length + pairs.length ≤ n + r.length → ∃ res, search pairs n r p = some res ∧ res.Nodup ∧ ∀ v, v ∈ res ↔ Relation.TransGen (Edge pairs) u v
  | n, r, [], h, _ => by
    refine ⟨r, by cases n <;> rfl, h.nodup, fun v => ⟨h.sound v, fun hv => ?_⟩⟩
    induction hv with
    | single he => exact h.closed u (.inl rfl) (by simp) _ he
    | tail _ he ih => exact h.closed _ (.inr ih) (by simp) _ he
  | 0, r, c :: p, h, hn => by
    have := h.targets
    simp only [List.length_cons] at hn
    omega
  | n + 1, r, c :: p, h, hn => by
    obtain ⟨new, h1, h2⟩ := h.step
    obtain ⟨res, h3, h4⟩ := search_spec (n := n) h2 (by
      simp only [List.length_cons, List.length_append] at hn ⊢
      omega)
    exact ⟨res, by rw [search, h1]; exact h3, h4⟩

theorem fromSources_spec : ∀ {us : List α}, us.Nodup → ∃ res, fromSources pairs us = some res ∧ res.Nodup ∧ ∀ a b, (a, b) ∈ res ↔ a ∈ us ∧ Relation.TransGen (Edge pairs) a b
  | [], _ => ⟨[], rfl, List.nodup_nil, by simp⟩
  | u :: us, hn => by
    obtain ⟨hu, hn⟩ := List.nodup_cons.mp hn
    obtain ⟨reached, h1, h2, h3⟩ := search_spec (pairs := pairs) (u := u) (n := pairs.length + 1) (r := []) (p := [u]) ⟨List.nodup_nil, by simp, by simp, by simp⟩ (by simp only [List.length_cons, List.length_nil]; omega)
    obtain ⟨res, h4, h5, h6⟩ := fromSources_spec (us := us) hn
    refine ⟨reached.map (fun v => (u, v)) ++ res, by simp only [fromSources, h1, h4, Option.map_some], ?_, fun a b => ?_⟩
    · rw [List.nodup_append]
      refine ⟨h2.map (fun a b h => (Prod.mk.inj h).2), h5, ?_⟩
      rintro ⟨a, b⟩ hx ⟨a', b'⟩ hy he
      obtain ⟨v, _, hv⟩ := List.mem_map.mp hx
      have e1 := (Prod.mk.inj hv).1
      have e2 := (Prod.mk.inj he).1
      have := ((h6 a' b').mp hy).1
      rw [← e2, ← e1] at this
      exact hu this
    · rw [List.mem_append, h6, List.mem_cons]
      constructor
      · rintro (h | ⟨ha, hb⟩)
        · obtain ⟨v, hv, he⟩ := List.mem_map.mp h
          obtain ⟨rfl, rfl⟩ := Prod.mk.inj he
          exact ⟨.inl rfl, (h3 v).mp hv⟩
        · exact ⟨.inr ha, hb⟩
      · rintro ⟨rfl | ha, hb⟩
        · exact .inl (List.mem_map.mpr ⟨b, (h3 b).mpr hb, rfl⟩)
        · exact .inr ⟨ha, hb⟩

/-- C87: the transitive closure of any relation, also with cycles, is computed: the result consists of the pairs that are connected by a path of at least one edge, without repetitions, and is sorted -/
theorem C87_closure {le : α × α → α × α → Bool} (htrans : ∀ a b c, le a b = true → le b c = true → le a c = true) (htotal : ∀ a b, (le a b || le b a) = true) (pairs : List (α × α)) :
    ∃ res, transitiveClosure le pairs = some res ∧ res.Nodup ∧ res.Pairwise (fun a b => le a b = true) ∧ ∀ a b, (a, b) ∈ res ↔ Relation.TransGen (fun x y => (x, y) ∈ pairs) a b := by
  obtain ⟨res, h1, h2, h3⟩ := fromSources_spec (pairs := pairs) (us := (pairs.map (·.1)).dedup) (List.nodup_dedup _)
  refine ⟨res.mergeSort le, by simp only [transitiveClosure, h1, Option.map_some], (List.mergeSort_perm res le).nodup_iff.mpr h2, List.pairwise_mergeSort htrans htotal res, fun a b => ?_⟩
  rw [(List.mergeSort_perm res le).mem_iff, h3]
  refine ⟨fun h => h.2, fun h => ⟨?_, h⟩⟩
  obtain ⟨c, hc, _⟩ := Relation.TransGen.head'_iff.mp h
  rw [List.mem_dedup]
  exact List.mem_map.mpr ⟨(a, c), hc, rfl⟩

/-- C87: the names that are stored as the supertypes of a type are exactly the types that are reached from it by steps from a type to its base type, each of them once; the types may be given in any order, and there may be cycles. -/
theorem C87_supertypes {le : α × α → α × α → Bool} (htrans : ∀ a b c, le a b = true → le b c = true → le a c = true) (htotal : ∀ a b, (le a b || le b a) = true) (types : List (α × Option α)) (u : α) :
    ∃ sup, supertypes le types u = some sup ∧ sup.Nodup ∧ ∀ v, v ∈ sup ↔ Relation.TransGen (fun x y => (x, some y) ∈ types) u v := by
  obtain ⟨res, h1, h2, _, h3⟩ := C87_closure htrans htotal (childTypes types)
  refine ⟨_, by rw [supertypes, h1]; rfl, ?_, fun v => ?_⟩
  · refine List.Nodup.map_on ?_ (h2.filter _)
    rintro ⟨a, b⟩ hx ⟨a', b'⟩ hy he
    have e1 := (List.mem_filter.mp hx).2
    have e2 := (List.mem_filter.mp hy).2
    simp only [decide_eq_true_eq] at e1 e2 he
    rw [e1, e2, he]
  · have hrel : (fun x y => (x, y) ∈ childTypes types) = fun x y => (x, some y) ∈ types := by
      funext x y
      unfold childTypes
      simp only [List.mem_filterMap, Option.map_eq_some_iff, Prod.mk.injEq, eq_iff_iff]
      constructor
      · rintro ⟨⟨a, b⟩, h, c, hb, rfl, rfl⟩
        simp only at hb
        rw [← hb]
        exact h
      · intro h
        exact ⟨_, h, y, rfl, rfl, rfl⟩
    have h4 := h3 u v
    rw [hrel] at h4
    rw [← h4]
    simp only [List.mem_map, List.mem_filter, decide_eq_true_eq]
    constructor
    · rintro ⟨⟨a, b⟩, ⟨h, rfl⟩, rfl⟩
      exact h
    · intro h
      exact ⟨(u, v), ⟨h, rfl⟩, rfl⟩

/-- the order of pairs of numbers -/
def lexLe (a b : Nat × Nat) : Bool := a.1 < b.1 || (a.1 = b.1 && a.2 ≤ b.2)

/-- the conditions on the order can be met; a hierarchy with three levels, given from the bottom to the top, and a cycle (before the result is sorted) -/
example : (∀ a b c, lexLe a b = true → lexLe b c = true → lexLe a c = true) ∧ (∀ a b, (lexLe a b || lexLe b a) = true) ∧ childTypes [(3, some 2), (2, some 1), (1, none), (7, some 8), (8, some 7)] = [(3, 2), (2, 1), (7, 8), (8, 7)] ∧
    fromSources [(3, 2), (2, 1), (7, 8), (8, 7)] [3, 7] = some [(3, 1), (3, 2), (7, 7), (7, 8)] := by
  refine ⟨?_, ?_, by decide +kernel, by decide +kernel⟩
  · rintro ⟨a, a'⟩ ⟨b, b'⟩ ⟨c, c'⟩
    simp only [lexLe, Bool.or_eq_true, Bool.and_eq_true, decide_eq_true_eq]
    omega
  · rintro ⟨a, a'⟩ ⟨b, b'⟩
    simp only [lexLe, Bool.or_eq_true, Bool.and_eq_true, decide_eq_true_eq]
    omega

end Verif.Types
