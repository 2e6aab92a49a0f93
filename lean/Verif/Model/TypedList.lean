import Verif.Spec.TypedList

/-
Model of src/translate/pddl_parser/parsing_functions.py:110-147 (`parse_typed_list`).

Simplifications: the constructors (src/translate/pddl_parser/parsing_functions.py:95-107) are modelled by their check that the name is a word (the lists of functions, which use the constructor `parse_function`, are not modelled); warnings and the texts of errors are left out.
-/
namespace Verif.TypedList
open Verif.Lisp

/-- equality with the separator -/
def isDash : Tree → Bool
  | .word w => w == ['-']
  | .list _ => false

/-- src/translate/pddl_parser/parsing_functions.py:119 and 129: `alist.index(TYPED_LIST_SEPARATOR)`; the items before the first separator and the elements after it -/
def splitDash : List Tree → Option (List Tree × List Tree)
  | [] => none
  | t :: ts => if isDash t then some ([], ts) else (splitDash ts).map (fun p => (t :: p.1, p.2))

/-- src/translate/pddl_parser/parsing_functions.py:135-140: the check of the type -/
def typeOk (eitherAllowed : Bool) : Tree → Bool
  | .word _ => true
  | .list ts => eitherAllowed && (match ts with | .word w :: _ => w == "either".toList | _ => false)

/-- src/translate/pddl_parser/parsing_functions.py:141-145: the loop over the items of a group; a list has no method `startswith` -/
def entries (onlyVariables : Bool) (type : Tree) : List Tree → Outcome
  | [] => .ok []
  | .word w :: ts =>
    if onlyVariables && w.head? != some '?' then .error
    else match entries onlyVariables type ts with
      | .ok r => .ok ((w, type) :: r)
      | o => o
  | .list _ :: _ => if onlyVariables then .crash else .error

theorem splitDash_length : ∀ {l : List Tree} {p : List Tree × List Tree}, splitDash l = some p → p.2.length < l.length
  | [], _, h => by simp [splitDash] at h
  | t :: ts, p, h => by
    unfold splitDash at h
    split at h
    · simp only [Option.some.injEq] at h
      subst h
      simp
    · simp only [Option.map_eq_some_iff] at h
      obtain ⟨q, hq, rfl⟩ := h
      have := splitDash_length hq
      simp only [List.length_cons]
      omega

/-- src/translate/pddl_parser/parsing_functions.py:116-147: the loop over the groups -/
def parseTypedList (onlyVariables eitherAllowed : Bool) (default : Tree) (alist : List Tree) : Outcome :=
  match h : splitDash alist with
  | none => entries onlyVariables default alist
  | some (_, []) => .error
  | some (items, type :: rest) =>
    if typeOk eitherAllowed type then
      match entries onlyVariables type items with
      | .ok r =>
        match parseTypedList onlyVariables eitherAllowed default rest with
        | .ok r' => .ok (r ++ r')
        | o => o
      | o => o
    else .error
termination_by alist.length
decreasing_by
  have := splitDash_length h
  simp only [List.length_cons] at this
  omega

end Verif.TypedList
