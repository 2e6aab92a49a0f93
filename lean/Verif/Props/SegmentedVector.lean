import Verif.Lemmas.SegmentedVector

/-!
# C04: segmented vectors behave like ordinary vectors
-/
namespace Verif.SegmentedVector

variable {α : Type}

/-! ### Specification: operations on an ordinary list -/

inductive Op (β γ : Type) where
  | push (x : β)
  | pop
  | set (i : Nat) (x : γ)
  | resize (n : Nat) (x : β)

/-- One operation on a plain list; `none` if the operation is not allowed. -/
def Op.spec (l : List α) : Op α α → Option (List α)
  | .push x => some (l ++ [x])
  | .pop => if l = [] then none else some l.dropLast
  | .set i x => if i < l.length then some (l.set i x) else none
  | .resize n x => some (l.take n ++ List.replicate (n - l.length) x)

/-- The same for a list of arrays of length `k`: whole arrays are pushed, single elements
are assigned (`set i (j, x)` is `v[i][j] = x`). -/
def Op.specArr (k : Nat) (l : List (List α)) : Op (List α) (Nat × α) → Option (List (List α))
  | .push x => if x.length = k then some (l ++ [x]) else none
  | .pop => if l = [] then none else some l.dropLast
  | .set i (j, x) =>
    match l[i]? with
    | none => none
    | some row => if j < k then some (l.set i (row.set j x)) else none
  | .resize n x => if x.length = k then some (l.take n ++ List.replicate (n - l.length) x) else none

def SV.exec (v : SV α) : Op α α → Option (SV α)
  | .push x => v.push x
  | .pop => v.pop
  | .set i x => v.set i x
  | .resize n x => v.resize n x

def SAV.exec (v : SAV α) : Op (List α) (Nat × α) → Option (SAV α)
  | .push x => v.push x
  | .pop => v.pop
  | .set i (j, x) => v.set i j x
  | .resize n x => v.resize n x

theorem SV.exec_spec {v : SV α} {l l'} (h : v.Rep l) (op : Op α α) (ho : op.spec l = some l') :
    ∃ v', v.exec op = some v' ∧ v'.Rep l' := by
  cases op with
  | push x => cases ho; exact SV.push_spec h x
  | pop =>
    simp only [Op.spec] at ho
    split at ho
    · simp at ho
    · cases ho; exact SV.pop_spec h ‹_›
  | set i x =>
    simp only [Op.spec] at ho
    split at ho
    · cases ho; exact SV.set_spec h ‹_› x
    · simp at ho
  | resize n x => cases ho; exact SV.resize_spec h n x

theorem SAV.exec_spec {v : SAV α} {l l'} (h : v.Rep l) (op : Op (List α) (Nat × α))
    (ho : op.specArr v.perArray l = some l') :
    ∃ v', v.exec op = some v' ∧ v'.Rep l' ∧ v'.perArray = v.perArray := by
  cases op with
  | push x =>
    simp only [Op.specArr] at ho
    split at ho
    · cases ho; exact SAV.push_spec h ‹_›
    · simp at ho
  | pop =>
    simp only [Op.specArr] at ho
    split at ho
    · simp at ho
    · cases ho; exact SAV.pop_spec h ‹_›
  | set i p =>
    obtain ⟨j, x⟩ := p
    simp only [Op.specArr] at ho
    split at ho
    · simp at ho
    · split at ho
      · cases ho; exact SAV.set_spec h ‹_› ‹_› x
      · simp at ho
  | resize n x =>
    simp only [Op.specArr] at ho
    split at ho
    · cases ho; exact SAV.resize_spec h n ‹_›
    · simp at ho

/-- C04 (SegmentedVector).  For every element size and every sequence of operations that
is legal on an ordinary list, the segmented vector performs all of them without touching
memory outside its segments, reading dead cells or constructing over live ones, and
afterwards has the list's size and the list's elements at all indices. -/
theorem C04_segmented_vector (sizeofEntry : Nat) (ops : List (Op α α)) (l : List α)
    (hl : ops.foldlM Op.spec [] = some l) :
    ∃ v, ops.foldlM SV.exec (SV.empty α sizeofEntry) = some v ∧ v.size = l.length ∧
      ∀ i, v.get i = l[i]? := by
  have main : ∀ (ops : List (Op α α)) (v : SV α) (l0 l : List α), v.Rep l0 →
      ops.foldlM Op.spec l0 = some l → ∃ v', ops.foldlM SV.exec v = some v' ∧ v'.Rep l := by
    intro ops
    induction ops with
    | nil => intro v l0 l h e; cases e; exact ⟨v, rfl, h⟩
    | cons op ops ih =>
      intro v l0 l h e
      rw [List.foldlM_cons] at e
      cases he : op.spec l0 with
      | none => rw [he] at e; simp at e
      | some l1 =>
        rw [he] at e
        obtain ⟨v1, e1, h1⟩ := SV.exec_spec h op he
        obtain ⟨v2, e2, h2⟩ := ih v1 l1 l h1 e
        exact ⟨v2, by rw [List.foldlM_cons, e1]; exact e2, h2⟩
  obtain ⟨v, e, h⟩ := main ops _ [] l (SV.empty_rep sizeofEntry) hl
  exact ⟨v, e, h.size, SV.get_spec h⟩

/-- C04 (SegmentedArrayVector).  The same for the vector of fixed-length arrays, for every
element size and array length. -/
theorem C04_segmented_array_vector (sizeofElement k : Nat) (ops : List (Op (List α) (Nat × α)))
    (l : List (List α)) (hl : ops.foldlM (Op.specArr k) [] = some l) :
    ∃ v, ops.foldlM SAV.exec (SAV.empty α sizeofElement k) = some v ∧ v.size = l.length ∧
      ∀ i, v.get i = l[i]? := by
  have main : ∀ (ops : List (Op (List α) (Nat × α))) (v : SAV α) (l0 l : List (List α)), v.Rep l0 →
      v.perArray = k → ops.foldlM (Op.specArr k) l0 = some l →
      ∃ v', ops.foldlM SAV.exec v = some v' ∧ v'.Rep l := by
    intro ops
    induction ops with
    | nil => intro v l0 l h _ e; cases e; exact ⟨v, rfl, h⟩
    | cons op ops ih =>
      intro v l0 l h hk e
      rw [List.foldlM_cons] at e
      cases he : op.specArr k l0 with
      | none => rw [he] at e; simp at e
      | some l1 =>
        rw [he] at e
        obtain ⟨v1, e1, h1, p1⟩ := SAV.exec_spec h op (by rw [hk]; exact he)
        obtain ⟨v2, e2, h2⟩ := ih v1 l1 l h1 (by omega) e
        exact ⟨v2, by rw [List.foldlM_cons, e1]; exact e2, h2⟩
  obtain ⟨v, e, h⟩ := main ops _ [] l (SAV.empty_rep sizeofElement k) rfl hl
  exact ⟨v, e, h.size, SAV.get_spec h⟩

/-! ### Non-vacuity: legal sequences exist, also across a segment boundary -/

example : [Op.push 1, .push 2, .set 0 7, .pop, .resize 3 9].foldlM Op.spec ([] : List Nat) = some [7, 9, 9] := by
  decide
example : [Op.push [1, 2], .resize 3 [4, 5], .set 1 (1, 8)].foldlM (Op.specArr 2) ([] : List (List Nat)) =
    some [[1, 2], [4, 8], [4, 5]] := by decide
/-- entries of 4096 bytes: two per segment, so the third push allocates a second one -/
example : ((([Op.push 1, .push 2, .push 3].foldlM SV.exec (SV.empty Nat 4096)).map
    fun v => (v.segments.length, v.get 2)) = some (2, some 3)) := by decide

end Verif.SegmentedVector
