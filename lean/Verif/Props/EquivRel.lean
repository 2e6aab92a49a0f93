import Verif.Lemmas.EquivRel

/-
C11: the equivalence relation is the common refinement of everything it was refined with.
-/
namespace Verif.EquivRel

theorem mapM_some {α β : Type} (f : α → Option β) : ∀ (l : List α), (∀ a ∈ l, ∃ b, f a = some b) →
    ∃ l', l.mapM f = some l' ∧ List.Forall₂ (fun a b => f a = some b) l l'
  | [], _ => ⟨[], rfl, .nil⟩
  | a :: l, h => by
    obtain ⟨b, hb⟩ := h a (by simp)
    obtain ⟨l', e, h'⟩ := mapM_some f l (fun x hx => h x (by simp [hx]))
    exact ⟨b :: l', by simp [List.mapM_cons, hb, e], .cons hb h'⟩

theorem fold_spec {E : List Int} : ∀ (xs : List (List Int)) (r : ER) (p : Int → Nat), Inv E r p → (∀ b ∈ r.order, ∃ e ∈ E, p e = b) →
    (∀ X ∈ xs, X.Nodup ∧ ∀ x ∈ X, x ∈ E) →
    ∃ r' p', xs.foldlM (fun r x => r.refine x) r = some r' ∧ Inv E r' p' ∧ (∀ b ∈ r'.order, ∃ e ∈ E, p' e = b) ∧
      ∀ e ∈ E, ∀ e' ∈ E, (p' e = p' e' ↔ (p e = p e' ∧ ∀ X ∈ xs, (e ∈ X ↔ e' ∈ X)))
  | [], r, p, h, hne, _ => ⟨r, p, rfl, h, hne, by simp⟩
  | X :: xs, r, p, h, hne, hX => by
    obtain ⟨r1, p1, e1, h1, hne1, q1⟩ := refine_spec h hne (hX X (by simp)).1 (hX X (by simp)).2
    obtain ⟨r2, p2, e2, h2, hne2, q2⟩ := fold_spec xs r1 p1 h1 hne1 (fun Y hY => hX Y (by simp [hY]))
    refine ⟨r2, p2, by simp [List.foldlM_cons, e1, e2], h2, hne2, ?_⟩
    intro e he e' he'
    rw [q2 e he e' he', q1 e he e' he', List.forall_mem_cons, and_assoc]

/-- C11.  For every set of elements and every sequence of refinements by subsets of it
(given as duplicate-free lists), the calls succeed, and iterating over the relation yields
nonempty, duplicate-free, pairwise disjoint blocks that together contain exactly the
elements; two elements are in the same block if and only if no refinement separated them. -/
theorem C11_equivalence_relation (E : List Int) (hE : E.Nodup) (hne : E ≠ []) (Xs : List (List Int))
    (hX : ∀ X ∈ Xs, X.Nodup ∧ ∀ x ∈ X, x ∈ E) :
    ∃ r bs, run E Xs = some r ∧ r.blocks = some bs ∧
      (∀ b ∈ bs, b ≠ [] ∧ b.Nodup) ∧ bs.Pairwise List.Disjoint ∧ (∀ e, e ∈ E ↔ ∃ b ∈ bs, e ∈ b) ∧
      ∀ e ∈ E, ∀ e' ∈ E, ((∃ b ∈ bs, e ∈ b ∧ e' ∈ b) ↔ ∀ X ∈ Xs, (e ∈ X ↔ e' ∈ X)) := by
  obtain ⟨r0, e0, h0, hn0⟩ := new_spec hE hne
  obtain ⟨r, p, e1, h, hn, hp⟩ := fold_spec Xs r0 _ h0 hn0 hX
  obtain ⟨bs, e2, hf⟩ := mapM_some (fun b => (r.heap b).map (·.elems)) r.order (by
    intro b hb
    obtain ⟨k, hk, _⟩ := h.blk b hb
    exact ⟨k.elems, by simp [hk]⟩)
  have key : ∀ b ∈ r.order, ∀ l, (r.heap b).map (·.elems) = some l → l.Nodup ∧ ∀ e, e ∈ l ↔ e ∈ E ∧ p e = b := by
    intro b hb l hl
    obtain ⟨k, hk, _, h3, h4⟩ := h.blk b hb
    rw [hk] at hl
    simp only [Option.map_some, Option.some.injEq] at hl
    subst hl
    exact ⟨h3, h4⟩
  have hto : ∀ l ∈ bs, ∃ b ∈ r.order, l.Nodup ∧ ∀ e, e ∈ l ↔ e ∈ E ∧ p e = b := by
    intro l hl
    obtain ⟨i, hi, rfl⟩ := List.mem_iff_getElem.mp hl
    have hi' : i < r.order.length := by rw [hf.length_eq]; exact hi
    exact ⟨r.order[i], List.getElem_mem _, key _ (List.getElem_mem _) _ (List.forall₂_iff_get.mp hf |>.2 i hi' hi)⟩
  have hfrom : ∀ b ∈ r.order, ∃ l ∈ bs, ∀ e, e ∈ l ↔ e ∈ E ∧ p e = b := by
    intro b hb
    obtain ⟨i, hi, rfl⟩ := List.mem_iff_getElem.mp hb
    have hi' : i < bs.length := by rw [← hf.length_eq]; exact hi
    exact ⟨bs[i], List.getElem_mem _, (key _ (List.getElem_mem _) _ (List.forall₂_iff_get.mp hf |>.2 i hi hi')).2⟩
  refine ⟨r, bs, ?_, e2, ?_, ?_, ?_, ?_⟩
  · unfold run; rw [e0]; exact e1
  · intro l hl
    obtain ⟨b, hb, h1, h2⟩ := hto l hl
    obtain ⟨e, he, hpe⟩ := hn b hb
    exact ⟨List.ne_nil_of_mem ((h2 e).2 ⟨he, hpe⟩), h1⟩
  · rw [List.pairwise_iff_getElem]
    intro i j hi hj hij
    have hi' : i < r.order.length := by rw [hf.length_eq]; exact hi
    have hj' : j < r.order.length := by rw [hf.length_eq]; exact hj
    have h1 := (key _ (List.getElem_mem _) _ (List.forall₂_iff_get.mp hf |>.2 i hi' hi)).2
    have h2 := (key _ (List.getElem_mem _) _ (List.forall₂_iff_get.mp hf |>.2 j hj' hj)).2
    intro e he he'
    have a := ((h1 e).1 he).2
    have b := ((h2 e).1 he').2
    rw [a] at b
    exact absurd ((List.Nodup.getElem_inj_iff h.nodup).mp b) (by omega)
  · intro e
    constructor
    · intro he
      obtain ⟨l, hl, hm⟩ := hfrom (p e) (h.pos e he).2
      exact ⟨l, hl, (hm e).2 ⟨he, rfl⟩⟩
    · rintro ⟨l, hl, hel⟩
      obtain ⟨b, hb, h1, h2⟩ := hto l hl
      exact ((h2 e).1 hel).1
  · intro e he e' he'
    have := hp e he e' he'
    simp only [true_and] at this
    rw [← this]
    constructor
    · rintro ⟨l, hl, h1, h2⟩
      obtain ⟨b, hb, _, hm⟩ := hto l hl
      rw [((hm e).1 h1).2, ((hm e').1 h2).2]
    · intro heq
      obtain ⟨l, hl, hm⟩ := hfrom (p e) (h.pos e he).2
      exact ⟨l, hl, (hm e).2 ⟨he, rfl⟩, (hm e').2 ⟨he', heq.symm⟩⟩

/-- the hypotheses are met by a non-trivial case, and the result is what one expects -/
example : (run [1, 2, 3, 4] [[2, 3], [3, 4]]).bind ER.blocks = some [[1], [2], [3], [4]] := by decide
example : ([1, 2, 3, 4] : List Int).Nodup ∧ ∀ X ∈ ([[2, 3], [3, 4]] : List (List Int)), X.Nodup ∧ ∀ x ∈ X, x ∈ ([1, 2, 3, 4] : List Int) := by decide

/-- The restriction to duplicate-free arguments is needed: refining with a list that repeats
an element separates elements which the argument does not distinguish. -/
theorem C11_duplicates_over_refine :
    (run [1, 2] [[1, 2, 1]]).bind ER.blocks = some [[2], [1]] := by decide

/-- The restriction to nonempty element sets is needed: otherwise there is one empty block. -/
theorem C11_no_elements : (run [] []).bind ER.blocks = some [[]] := by decide

end Verif.EquivRel
