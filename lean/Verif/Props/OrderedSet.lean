import Verif.Model.OrderedSet
import Mathlib.Data.List.Perm.Basic
import Mathlib.Data.List.Nodup

/-
C15: ordered set.
-/
namespace Verif.OrderedSet

variable {T : Type} [DecidableEq T]

/-- Specification: a duplicate-free sequence. -/
inductive SpecStep : List T → Op T → Out T → List T → Prop where
  | insertNew (l x) : x ∉ l → SpecStep l (.insert x) .unit (l ++ [x])
  | insertOld (l x) : x ∈ l → SpecStep l (.insert x) .unit l
  | contains (l x b) : (b = true ↔ x ∈ l) → SpecStep l (.contains x) (.bool b) l
  | size (l) : SpecStep l .size (.nat l.length) l
  | empty (l b) : (b = true ↔ l = []) → SpecStep l .empty (.bool b) l
  | get (l i x) : l[i]? = some x → SpecStep l (.get i) (.item x) l
  | asVector (l) : SpecStep l .asVector (.items l) l
  | clear (l) : SpecStep l .clear .unit []
  | popAsVector (l) : SpecStep l .popAsVector (.items l) []
  | shuffle (l f l') : l'.Perm l → SpecStep l (.shuffle f) .unit l'

inductive SpecRun : List T → List (Op T) → List (Out T) → List T → Prop where
  | nil (l) : SpecRun l [] [] l
  | cons {l l' l'' op o ops os} : SpecStep l op o l' → SpecRun l' ops os l'' → SpecRun l (op :: ops) (o :: os) l''

/-- the representation: both containers hold the same, duplicate-free items -/
def Rep (s : OSet T) (l : List T) : Prop := s.ordered = l ∧ s.unordered.Perm l ∧ l.Nodup

theorem step_refines {s : OSet T} {l : List T} (h : Rep s l) (op : Op T) (hsh : ∀ f, op = .shuffle f → ∀ l, (f l).Perm l)
    {s' : OSet T} {o : Out T} (e : step s op = some (s', o)) : ∃ l', SpecStep l op o l' ∧ Rep s' l' := by
  obtain ⟨ho, hu, hn⟩ := h
  cases op with
  | insert x =>
    simp only [step, OSet.insert, hsInsert, Option.some.injEq, Prod.mk.injEq] at e
    by_cases hx : x ∈ s.unordered
    · simp only [hx, if_true, Bool.false_eq_true, if_false] at e
      obtain ⟨rfl, rfl⟩ := e
      exact ⟨l, .insertOld l x (hu.subset hx), ho, hu, hn⟩
    · simp only [hx, if_false, if_true] at e
      obtain ⟨rfl, rfl⟩ := e
      have hx' : x ∉ l := fun h => hx (hu.symm.subset h)
      refine ⟨l ++ [x], .insertNew l x hx', by simp [ho], ?_, ?_⟩
      · exact (hu.cons x).trans (List.perm_append_singleton x l).symm
      · rw [List.nodup_append]
        exact ⟨hn, by simp, by intro a ha b hb; simp at hb; subst hb; rintro rfl; exact hx' ha⟩
  | contains x =>
    simp only [step, Option.some.injEq, Prod.mk.injEq] at e
    obtain ⟨rfl, rfl⟩ := e
    refine ⟨l, .contains l x _ ?_, ho, hu, hn⟩
    simp only [OSet.contains, bne_iff_ne, ne_eq, List.count_eq_zero, not_not]
    exact hu.mem_iff
  | size =>
    simp only [step, Option.some.injEq, Prod.mk.injEq] at e
    obtain ⟨rfl, rfl⟩ := e
    rw [ho]
    exact ⟨l, .size l, ho, hu, hn⟩
  | empty =>
    simp only [step, Option.some.injEq, Prod.mk.injEq] at e
    obtain ⟨rfl, rfl⟩ := e
    exact ⟨l, .empty l _ (by rw [ho]; simp), ho, hu, hn⟩
  | get i =>
    simp only [step, Option.map_eq_some_iff, Prod.mk.injEq] at e
    obtain ⟨x, hx, rfl, rfl⟩ := e
    exact ⟨l, .get l i x (by rw [← ho]; exact hx), ho, hu, hn⟩
  | asVector =>
    simp only [step, Option.some.injEq, Prod.mk.injEq] at e
    obtain ⟨rfl, rfl⟩ := e
    rw [ho]
    exact ⟨l, .asVector l, ho, hu, hn⟩
  | clear =>
    simp only [step, Option.some.injEq, Prod.mk.injEq] at e
    obtain ⟨rfl, rfl⟩ := e
    exact ⟨[], .clear l, rfl, List.Perm.refl _, by simp⟩
  | popAsVector =>
    simp only [step, OSet.popAsVector, Option.some.injEq, Prod.mk.injEq] at e
    obtain ⟨rfl, rfl⟩ := e
    rw [ho]
    exact ⟨[], .popAsVector l, rfl, List.Perm.refl _, by simp⟩
  | shuffle f =>
    simp only [step, OSet.shuffle, Option.some.injEq, Prod.mk.injEq] at e
    obtain ⟨rfl, rfl⟩ := e
    have hp := hsh f rfl l
    refine ⟨f l, .shuffle l f _ hp, by simp [ho], hu.trans hp.symm, hp.nodup_iff.mpr hn⟩

/-- C15.  For every history of operations on a new ordered set (whose shuffles permute):
if no index access is out of range, the results are those of a duplicate-free sequence to
which each new item is appended; at every point the internal assertion holds. Out-of-range
accesses are the only way to fail. -/
theorem C15_ordered_set (ops : List (Op T)) (hsh : ∀ f, Op.shuffle f ∈ ops → ∀ l, (f l).Perm l) :
    (∀ s os, run (OSet.new (T := T)) ops = some (s, os) →
      ∃ l, SpecRun [] ops os l ∧ l.Nodup ∧ s.ordered = l ∧ (∀ x, s.contains x = true ↔ x ∈ l) ∧ s.asserted) ∧
    ((∀ i, Op.get i ∉ ops) → ∃ r, run (OSet.new (T := T)) ops = some r) := by
  constructor
  · suffices ∀ (ops : List (Op T)), (∀ f, Op.shuffle f ∈ ops → ∀ l, (f l).Perm l) → ∀ (s0 : OSet T) (l0 : List T), Rep s0 l0 →
        ∀ s os, run s0 ops = some (s, os) → ∃ l, SpecRun l0 ops os l ∧ Rep s l by
      intro s os e
      obtain ⟨l, h1, h2, h3, h4⟩ := this ops hsh OSet.new [] ⟨rfl, List.Perm.refl _, by simp⟩ s os e
      refine ⟨l, h1, h4, h2, ?_, ?_⟩
      · intro x
        simp only [OSet.contains, bne_iff_ne, ne_eq, List.count_eq_zero, not_not]
        exact h3.mem_iff
      · unfold OSet.asserted; rw [h2, h3.length_eq]
    intro ops
    induction ops with
    | nil =>
      intro _ s0 l0 h s os e
      simp only [run, Option.some.injEq, Prod.mk.injEq] at e
      obtain ⟨rfl, rfl⟩ := e
      exact ⟨l0, .nil l0, h⟩
    | cons op ops ih =>
      intro hsh s0 l0 h s os e
      simp only [run, Option.bind_eq_bind, Option.bind_eq_some_iff, Option.some.injEq, Prod.mk.injEq] at e
      obtain ⟨⟨s1, o⟩, e1, ⟨s2, os2⟩, e2, rfl, rfl⟩ := e
      obtain ⟨l1, h1, h2⟩ := step_refines h op (fun f hf => hsh f (by simp [hf])) e1
      obtain ⟨l2, h3, h4⟩ := ih (fun f hf => hsh f (by simp [hf])) s1 l1 h2 s2 os2 e2
      exact ⟨l2, .cons h1 h3, h4⟩
  · generalize (OSet.new (T := T)) = s0
    clear hsh
    induction ops generalizing s0 with
    | nil => intro _; exact ⟨_, rfl⟩
    | cons op ops ih =>
      intro hg
      have : ∃ r, step s0 op = some r := by
        cases op <;> first | exact ⟨_, rfl⟩ | (exact absurd (List.mem_cons_self) (hg _))
      obtain ⟨⟨s1, o⟩, e1⟩ := this
      obtain ⟨r, e2⟩ := ih s1 (fun i hi => hg i (by simp [hi]))
      exact ⟨(r.1, o :: r.2), by simp [run, e1, e2]⟩

/-- a non-trivial history -/
def exOps : List (Op Nat) := [.insert 5, .insert 3, .insert 5, .shuffle List.reverse, .contains 3, .asVector, .popAsVector, .insert 3, .size]

example : ∀ f, Op.shuffle f ∈ exOps → ∀ l, (f l).Perm l := by
  intro f hf
  simp [exOps] at hf
  subst hf
  exact List.reverse_perm

example : run (OSet.new (T := Nat)) exOps =
    some (⟨[3], [3]⟩, [.unit, .unit, .unit, .unit, .bool true, .items [3, 5], .items [3, 5], .unit, .nat 1]) := rfl

end Verif.OrderedSet
