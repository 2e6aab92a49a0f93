import Verif.Lemmas.AdaptiveQueue
import Mathlib.Data.List.Sort

/-
C14: the adaptive priority queue behaves like a priority queue.
-/
namespace Verif.AdaptiveQueue

/-- C14.  For every standard-conforming implementation of the heap functions and every legal
history of operations on a new queue, all operations succeed and their results are those of
a bag of entries: pop returns and removes an entry with minimal key, nothing else is lost or
duplicated, and emptiness is reported correctly -- no matter when the queue switches from
buckets to a heap. -/
theorem C14_adaptive_queue {V : Type} (H : StdHeap V) (ops : List (Op V)) (hl : Legal 0 ops) :
    ∃ outs, run H Queue.new ops = some outs ∧ SpecRun [] ops outs := by
  suffices ∀ (ops : List (Op V)) (q : Queue V) (bag : List (Entry V)), Rep q bag → Legal bag.length ops →
      ∃ outs, run H q ops = some outs ∧ SpecRun bag ops outs from
    this ops Queue.new [] ⟨List.Perm.refl _, rfl, by simp [Queue.new], by simp⟩ hl
  intro ops
  induction ops with
  | nil => intro q bag _ _; exact ⟨[], rfl, .nil bag⟩
  | cons op ops ih =>
    intro q bag hr hl
    obtain ⟨q', o, bag', e, hs, hr'⟩ := step_refines H hr op (by
      rintro rfl rfl
      have := hl.1
      simp at this)
    have hl' : Legal bag'.length ops := by
      cases hs with
      | push k v => exact hl
      | pop _ k v hp _ =>
        have := hp.length_eq
        have h2 := hl.2
        simp only [List.length_cons] at this
        rw [this] at h2
        simpa using h2
      | empty b _ => exact hl
      | clear => exact hl
      | virt n => exact hl
    obtain ⟨os, e2, hr2⟩ := ih q' bag' hr' hl'
    exact ⟨o :: os, by simp [run, e, e2], .cons hs hr2⟩

/-- The contract of the heap functions can be met: keep the entries sorted. -/
def sortedHeap (V : Type) : StdHeap V where
  pushHeap c x := (x :: c).mergeSort (fun a b => decide (a.1 ≤ b.1))
  popHeap c := c.tail.mergeSort (fun a b => decide (a.1 ≤ b.1))
  push_ok c x _ := ⟨isHeap_of_sorted (by
      have := List.pairwise_mergeSort (le := fun a b : Entry V => decide (a.1 ≤ b.1)) (by intro a b c; simp; omega) (by intro a b; simp; omega) (x :: c)
      exact this.imp (by simp)), List.mergeSort_perm _ _⟩
  pop_ok x c _ := ⟨isHeap_of_sorted (by
      have := List.pairwise_mergeSort (le := fun a b : Entry V => decide (a.1 ≤ b.1)) (by intro a b c; simp; omega) (by intro a b; simp; omega) c
      exact this.imp (by simp)), List.mergeSort_perm _ _⟩

/-- a legal history in which the representation is switched while entries are stored -/
def exOps : List (Op String) :=
  [.push 3 "a", .push 1 "b", .pop, .push 200 "c", .push 0 "d", .pop, .pop, .empty, .pop, .empty]

example : Legal 0 exOps := by simp [exOps, Legal]
example : ∃ c, ((Queue.new (V := String)).push (sortedHeap _) 3 "a").bind (fun q => q.push (sortedHeap _) 200 "c") = some (.heap c) := by
  have h : (Queue.new (V := String)).push (sortedHeap _) 3 "a" = some (.bucket ⟨[[], [], [], ["a"]], 0, 1, 1⟩) := rfl
  rw [h]
  simp only [Option.bind_some, Queue.push, Queue.convertIfNecessary]
  rw [extractLoop_spec _ _ _ _ (by decide) (by decide)]
  exact ⟨_, rfl⟩

end Verif.AdaptiveQueue
