/-
Specification of nested lists in text files: what a PDDL file says, before its keywords are interpreted.
-/
namespace Verif.Lisp

abbrev Word := List Char

/-- nested lists of words -/
inductive Tree where
  | word (w : Word)
  | list (ts : List Tree)

/-- white space (of ASCII) -/
def isSpace (c : Char) : Bool := c = ' ' || (9 ≤ c.val && c.val ≤ 13) || (28 ≤ c.val && c.val ≤ 31)

/-- a character that continues a word: no white space, no parenthesis, no question mark -/
def Inner (c : Char) : Prop := isSpace c = false ∧ c ≠ '(' ∧ c ≠ ')' ∧ c ≠ '?'

instance : DecidablePred Inner := fun c => by unfold Inner; infer_instance

/-- no word can be continued with this text -/
def Ends : List Char → Prop
  | [] => True
  | c :: _ => ¬Inner c

/-- The text consists of these parentheses and words (in lower case), separated by white space where necessary. A question mark starts a word. -/
inductive Spells : List Char → List Word → Prop where
  | nil : Spells [] []
  | space (c s ws) : isSpace c = true → Spells s ws → Spells (c :: s) ws
  | opening (s ws) : Spells s ws → Spells ('(' :: s) (['('] :: ws)
  | closing (s ws) : Spells s ws → Spells (')' :: s) ([')'] :: ws)
  | word (c w s ws) : (Inner c ∨ c = '?') → (∀ x ∈ w, Inner x) → Ends s → Spells s ws → Spells (c :: w ++ s) ((c :: w).map Char.toLower :: ws)

/-- a line consists of a text in ASCII without semicolons, and possibly a comment with any characters after a semicolon -/
def LineSpells (line : List Char) (ws : List Word) : Prop :=
  ∃ code comment, line = code ++ comment ∧ ';' ∉ code ∧ (comment = [] ∨ ∃ x, comment = ';' :: x) ∧ (∀ c ∈ code, c.val < 128) ∧ Spells code ws

/-- all lines of a file, in this order -/
inductive FileSpells : List (List Char) → List Word → Prop where
  | nil : FileSpells [] []
  | cons (l ls ws ws') : LineSpells l ws → FileSpells ls ws' → FileSpells (l :: ls) (ws ++ ws')

mutual
/-- the parentheses and words of a nested list -/
def Tree.tokens : Tree → List Word
  | .word w => [w]
  | .list ts => ['('] :: (treeTokens ts ++ [[')']])
def treeTokens : List Tree → List Word
  | [] => []
  | t :: ts => t.tokens ++ treeTokens ts
end

mutual
/-- no word is a parenthesis -/
def Tree.Ok : Tree → Prop
  | .word w => w ≠ ['('] ∧ w ≠ [')']
  | .list ts => TreesOk ts
def TreesOk : List Tree → Prop
  | [] => True
  | t :: ts => t.Ok ∧ TreesOk ts
end

/-- the file consists of the nested list with these elements -/
def Denotes (file : List (List Char)) (ts : List Tree) : Prop := TreesOk ts ∧ FileSpells file (Tree.list ts).tokens

/-- what happens when the file is read -/
inductive Outcome where
  | ok (ts : List Tree)
  /-- `ParseError`, which the translator reports -/
  | parseError
  /-- `StopIteration`, which is not caught -/
  | stopIteration

end Verif.Lisp
