import Verif.Lemmas.SuccGen

/-
C10: the successor generator returns exactly the applicable operators.
-/
namespace Verif.SuccGen

/-- C10.  For every task whose preconditions mention existing facts, every state of the task
and every choice between vector and hash switches: generation succeeds, appends to the
given vector without changing its contents, appends no operator twice, and appends exactly
the operators all of whose preconditions hold in the state. -/
theorem C10_successor_generator (t : Task) (hpre : ∀ o ∈ t.ops, ∀ f ∈ o.pre, t.ValidFact f)
    (useHash : Nat → Nat → Bool) (s : State) (hs : t.ValidState s) (acc : List Nat) :
    ∃ l, generateApplicableOps t useHash s acc = some (acc ++ l) ∧ l.Nodup ∧
      ∀ i, i ∈ l ↔ ∃ o : Operator, t.ops[i]? = some o ∧ ∀ f ∈ o.pre, s[f.var]? = some f.val := by
  obtain ⟨g, infos, e, hg, hperm⟩ := create_spec hs hpre useHash
  obtain ⟨l, el, hl⟩ := hg.2 acc
  refine ⟨l, ?_, ?_, ?_⟩
  · unfold generateApplicableOps; rw [e]; exact el
  · rw [hl.nodup_iff]
    unfold sel
    have h1 : (infos.map (·.op)).Nodup := by
      rw [(hperm.map (·.op)).nodup_iff, List.map_map]
      have : t.ops.zipIdx.map ((fun x : OpInfo => x.op) ∘ fun p => { op := p.2, pre := buildSortedPrecondition p.1 }) =
          List.range' 0 t.ops.length := by
        rw [← List.zipIdx_map_snd 0 t.ops]
        rfl
      rw [this]
      exact List.nodup_range'
    exact h1.sublist ((List.filter_sublist).map _)
  · intro i
    rw [hl.mem_iff]
    unfold sel
    simp only [List.mem_map, List.mem_filter, List.drop_zero, decide_eq_true_eq]
    constructor
    · rintro ⟨o, ⟨ho, hh⟩, rfl⟩
      have := hperm.subset ho
      obtain ⟨p, hp, rfl⟩ := List.mem_map.mp this
      refine ⟨p.1, List.mk_mem_zipIdx_iff_getElem?.mp hp, ?_⟩
      intro f hf
      exact hh f ((List.mergeSort_perm p.1.pre _).symm.subset hf)
    · rintro ⟨o, ho, hh⟩
      refine ⟨{ op := i, pre := buildSortedPrecondition o }, ⟨hperm.symm.subset ?_, ?_⟩, rfl⟩
      · exact List.mem_map.mpr ⟨(o, i), List.mk_mem_zipIdx_iff_getElem?.mpr ho, rfl⟩
      · intro f hf
        exact hh f ((List.mergeSort_perm o.pre _).subset hf)

/-- Non-vacuity: unsorted preconditions, an operator without preconditions, two operators
with the same precondition, a switch with several values. -/
def exTask : Task :=
  { vars := [⟨3, none, 0⟩, ⟨2, none, 0⟩]
    ops := [⟨[⟨1, 1⟩, ⟨0, 2⟩], [], 1⟩, ⟨[], [], 1⟩, ⟨[⟨0, 1⟩], [], 1⟩, ⟨[⟨0, 2⟩], [], 1⟩, ⟨[⟨0, 2⟩], [], 1⟩, ⟨[⟨1, 0⟩], [], 1⟩]
    axioms := [], init := [0, 0], goal := [] }

example : (∀ o ∈ exTask.ops, ∀ f ∈ o.pre, exTask.ValidFact f) ∧ exTask.ValidState [2, 1] := by
  refine ⟨?_, rfl, ?_⟩
  · simp [exTask, Task.ValidFact]
  · intro v x d
    match v with
    | 0 => simp [exTask]; rintro rfl rfl; decide
    | 1 => simp [exTask]; rintro rfl rfl; decide
    | n + 2 => simp [exTask]

end Verif.SuccGen
