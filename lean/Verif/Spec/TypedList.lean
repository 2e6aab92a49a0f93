import Verif.Spec.Lisp

/-
Specification of typed lists in PDDL: groups of names, a separator and a type, and a last group that may have no type.
-/
namespace Verif.TypedList
open Verif.Lisp

/-- the word `-` -/
def dash : Tree := .word ['-']

/-- names: words, or words that start with a question mark if only variables are allowed -/
def IsName (onlyVariables : Bool) (w : Word) : Prop := onlyVariables = true → w.head? = some '?'

/-- types: words, or lists that start with the word `either` if they are allowed -/
def IsType (eitherAllowed : Bool) : Tree → Prop
  | .word _ => True
  | .list ts => eitherAllowed = true ∧ ts.head? = some (.word "either".toList)

/-- `Denotes v e d alist r`: the list consists of groups of names, and `r` are the names with their types; names are different from the separator, but the word after a separator is a type in any case -/
inductive Denotes (onlyVariables eitherAllowed : Bool) (default : Tree) : List Tree → List (Word × Tree) → Prop where
  | last (ws : List Word) : (∀ w ∈ ws, IsName onlyVariables w ∧ w ≠ ['-']) → Denotes onlyVariables eitherAllowed default (ws.map .word) (ws.map (·, default))
  | group (ws : List Word) (t : Tree) (rest r) : (∀ w ∈ ws, IsName onlyVariables w ∧ w ≠ ['-']) → IsType eitherAllowed t → Denotes onlyVariables eitherAllowed default rest r →
      Denotes onlyVariables eitherAllowed default (ws.map .word ++ dash :: t :: rest) (ws.map (·, t) ++ r)

/-- results: entries, a reported error, or an exception that is not caught by the parser -/
inductive Outcome where
  | ok (r : List (Word × Tree))
  | error
  | crash
deriving Inhabited

end Verif.TypedList
