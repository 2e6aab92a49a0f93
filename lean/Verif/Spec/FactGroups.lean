import Verif.Spec.Strips
import Mathlib.Data.Finset.Card
import Mathlib.Data.Finset.SDiff
import Mathlib.Data.List.Lex
import Mathlib.Data.Prod.Lex
import Mathlib.Data.Char

/-
Specification: instances of invariants, and the choice of groups of atoms: they are chosen one after another, and always one with the most atoms.
-/
namespace Verif.FactGroups
/-- conditions.py:275-284 -/
structure Atom where
  predicate : List Char
  args : List (List Char)

/-- conditions.py:296-298 -/
def Atom.key (p : Atom) : List Char ×ₗ List (List Char) := toLex (p.predicate, p.args)

theorem Atom.key_injective : Function.Injective Atom.key := by
  intro p q h
  cases p
  cases q
  have h' := Prod.mk.injEq .. ▸ congrArg ofLex h
  simp only [ofLex_toLex] at h'
  simp_all

/-- conditions.py:286-304: atoms are compared by their predicates and then by their arguments -/
instance : LinearOrder Atom := LinearOrder.lift' Atom.key Atom.key_injective

/-- fact_groups.py:14: the name of the counted variable -/
def counted : List Char := "?X".toList

/-- the argument is replaced by the object if it is the counted variable -/
def substitute (object arg : List Char) : List Char := if arg = counted then object else arg

/-- the atom is an instance of a fact of the invariant (whose parameters are already replaced by objects): the counted variable is replaced by an object -/
def Instance (objects : List (List Char)) (invariant : List Atom) (p : Atom) : Prop :=
  ∃ fact ∈ invariant, (counted ∉ fact.args ∧ p = fact) ∨ (counted ∈ fact.args ∧ ∃ o ∈ objects, p = Atom.mk fact.predicate (fact.args.map (substitute o)))

/-- the form of invariants: a counted variable occurs only once in a fact -/
def CountsOnce (invariants : List (List Atom)) : Prop := ∀ g ∈ invariants, ∀ fact ∈ g, fact.args.count counted ≤ 1

open Verif.Strips in
/-- What is known about the invariants of a task: their parts have different predicates with one counted variable, in each reachable state at most one instance is true, and derived atoms are no instances. -/
structure InvariantsOf (t : StripsTask Atom) (objects : List (List Char)) (invariants : List (List Atom)) : Prop where
  names : objects.Nodup
  once : CountsOnce invariants
  predicates : ∀ inv ∈ invariants, (inv.map Atom.predicate).Nodup
  mutex : ∀ inv ∈ invariants, ∀ s, t.Reachable s → ∀ p q, Instance objects inv p → Instance objects inv q → s p → s q → p = q
  derived : ∀ inv ∈ invariants, ∀ p, Instance objects inv p → ¬ t.Derived p

variable {α : Type} [DecidableEq α]

/-- the atoms of a group that can still be chosen; if variables may share atoms (`part = false`), these are all atoms of the group -/
def remaining (part : Bool) (group covered : List α) : Finset α := if part then group.toFinset \ covered.toFinset else group.toFinset

/-- From `groups`, the groups `out` are chosen in this order, after the groups with the numbers `taken` were chosen and the atoms `covered` were covered by them.  It ends when no other group has two atoms. -/
inductive Greedy (part : Bool) (groups : List (List α)) : List Nat → List α → List (List α) → Prop where
  | stop (taken : List Nat) (covered : List α) (h : ∀ (i : Nat) (g : List α), i ∉ taken → groups[i]? = some g → (remaining part g covered).card ≤ 1) : Greedy part groups taken covered []
  | take (taken : List Nat) (covered : List α) (i : Nat) (g c : List α) (out : List (List α)) (hi : i ∉ taken) (hg : groups[i]? = some g) (hc : c.Nodup) (he : c.toFinset = remaining part g covered) (h2 : 2 ≤ c.length)
      (hmax : ∀ (j : Nat) (g' : List α), j ∉ taken → groups[j]? = some g' → (remaining part g' covered).card ≤ c.length) (h : Greedy part groups (i :: taken) (c ++ covered) out) : Greedy part groups taken covered (c :: out)

end Verif.FactGroups
