import Verif.Lemmas.AdaptiveQueue
import Mathlib.Data.List.Sort

/- The operations of the adaptive queue in a form convenient for algorithms that use it. -/
namespace Verif.AdaptiveQueue

variable {V : Type}

theorem Rep.new : Rep (Queue.new : Queue V) [] := ⟨List.Perm.refl _, rfl, by simp, by simp⟩

theorem Rep.push (H : StdHeap V) {q : Queue V} {bag : List (Entry V)} (h : Rep q bag) (k : Nat) (v : V) : ∃ q', q.push H k v = some q' ∧ Rep q' ((k, v) :: bag) := by
  obtain ⟨q', o, bag', h1, h2, h3⟩ := step_refines H h (.push k v) (by simp)
  simp only [step] at h1
  obtain ⟨q'', h4, h5⟩ := Option.map_eq_some_iff.mp h1
  simp only [Prod.mk.injEq] at h5
  cases h2
  exact ⟨q', by rw [h4, h5.1], h3⟩

theorem Rep.pop (H : StdHeap V) {q : Queue V} {bag : List (Entry V)} (h : Rep q bag) (hne : bag ≠ []) :
    ∃ q' k v bag', q.pop H = some (q', k, v) ∧ bag.Perm ((k, v) :: bag') ∧ (∀ e ∈ bag, k ≤ e.1) ∧ Rep q' bag' := by
  obtain ⟨q', o, bag', h1, h2, h3⟩ := step_refines H h .pop (fun _ => hne)
  simp only [step] at h1
  obtain ⟨⟨q'', k, v⟩, h4, h5⟩ := Option.map_eq_some_iff.mp h1
  simp only [Prod.mk.injEq] at h5
  cases h2 with
  | pop _ k' v' p1 p2 =>
    simp only [Out.entry.injEq] at h5
    obtain ⟨rfl, rfl, rfl⟩ := h5
    exact ⟨q'', k, v, bag', h4, p1, p2, h3⟩

theorem Rep.empty {q : Queue V} {bag : List (Entry V)} (h : Rep q bag) : q.empty = true ↔ bag = [] := by
  cases q with
  | bucket b =>
    simp only [Queue.empty, beq_iff_eq, h.2.1]
    rw [← List.length_eq_zero_iff]; omega
  | heap c =>
    simp only [Queue.empty, List.isEmpty_iff]
    constructor
    · rintro rfl; exact h.1.eq_nil
    · rintro rfl; exact h.1.symm.eq_nil

theorem Rep.clear {q : Queue V} {bag : List (Entry V)} (h : Rep q bag) : ∃ q', q.clear = some q' ∧ Rep q' [] := by
  have H : StdHeap V := ⟨fun c x => (x :: c).mergeSort (fun a b => decide (a.1 ≤ b.1)), fun c => c.tail.mergeSort (fun a b => decide (a.1 ≤ b.1)),
    fun c x _ => ⟨isHeap_of_sorted ((List.pairwise_mergeSort (le := fun a b : Entry V => decide (a.1 ≤ b.1)) (by intro a b c; simp; omega) (by intro a b; simp; omega) (x :: c)).imp (by simp)), List.mergeSort_perm _ _⟩,
    fun x c _ => ⟨isHeap_of_sorted ((List.pairwise_mergeSort (le := fun a b : Entry V => decide (a.1 ≤ b.1)) (by intro a b c; simp; omega) (by intro a b; simp; omega) c).imp (by simp)), List.mergeSort_perm _ _⟩⟩
  obtain ⟨q', o, bag', h1, h2, h3⟩ := step_refines H h .clear (by simp)
  simp only [step] at h1
  obtain ⟨q'', h4, h5⟩ := Option.map_eq_some_iff.mp h1
  simp only [Prod.mk.injEq] at h5
  cases h2
  exact ⟨q', by rw [h4, h5.1], h3⟩

/-- the order of heap entries -/
def keyLe (a b : Entry V) : Prop := a.1 ≤ b.1

instance : DecidableRel (keyLe (V := V)) := fun a b => inferInstanceAs (Decidable (a.1 ≤ b.1))
instance : Std.Total (keyLe (V := V)) := ⟨fun a b => Nat.le_total a.1 b.1⟩
instance : IsTrans (Entry V) keyLe := ⟨fun _ _ _ h1 h2 => Nat.le_trans h1 h2⟩

/-- an implementation of the heap functions that can be evaluated by the kernel -/
def insertHeap (V : Type) : StdHeap V where
  pushHeap c x := (x :: c).insertionSort keyLe
  popHeap c := c.tail.insertionSort keyLe
  push_ok c x _ := ⟨isHeap_of_sorted (List.pairwise_insertionSort keyLe (x :: c)), List.perm_insertionSort _ _⟩
  pop_ok x c _ := ⟨isHeap_of_sorted (List.pairwise_insertionSort keyLe c), List.perm_insertionSort _ _⟩

end Verif.AdaptiveQueue
