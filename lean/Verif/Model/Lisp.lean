import Verif.Spec.Lisp

/-
Model of the reader for nested lists in PDDL files: src/translate/pddl_parser/lisp_parser.py.

A file is a list of lines. Simplifications: tokens are computed for all lines at first (the generator of the code does this while it parses: this can only change the message of a `ParseError`); the recursion of the parser gets
a bound that is never reached (see `parse_complete`), and the limit of Python for the depth of recursion is not modelled.
-/
namespace Verif.Lisp

/-- src/translate/pddl_parser/lisp_parser.py:20: `line.split(";", 1)[0]` -/
def stripComment (line : List Char) : List Char := line.takeWhile (· ≠ ';')

/-- src/translate/pddl_parser/lisp_parser.py:25: `str.replace` with a pattern of length 1 -/
def replace (c : Char) (by_ : List Char) (s : List Char) : List Char := s.flatMap (fun x => if x = c then by_ else [x])

/-- src/translate/pddl_parser/lisp_parser.py:25 -/
def expand (line : List Char) : List Char := replace '?' [' ', '?'] (replace ')' [' ', ')', ' '] (replace '(' [' ', '(', ' '] line))

def emit (cur : List Char) : List Word := if cur = [] then [] else [cur]

/-- src/translate/pddl_parser/lisp_parser.py:26: `str.split()` of Python, with the characters of the current word -/
def splitSpace (cur : List Char) : List Char → List Word
  | [] => emit cur
  | c :: s => if isSpace c then emit cur ++ splitSpace [] s else splitSpace (cur ++ [c]) s

/-- src/translate/pddl_parser/lisp_parser.py:18-27 (`tokenize`), one line -/
def tokenizeLine (line : List Char) : Option (List Word) :=
  let code := stripComment line
  if code.all (fun c => c.val < 128) then some ((splitSpace [] (expand code)).map (·.map Char.toLower)) else none

/-- src/translate/pddl_parser/lisp_parser.py:18-27 (`tokenize`); `none` for a `ParseError` -/
def tokenize : List (List Char) → Option (List Word)
  | [] => some []
  | l :: ls =>
    match tokenizeLine l with
    | none => none
    | some ws => (tokenize ls).map (ws ++ ·)

/-- src/translate/pddl_parser/lisp_parser.py:29-41 (`parse_list_aux`): the elements up to the matching parenthesis, and the remaining tokens; `none` for a `ParseError` -/
def parseList : Nat → List Word → Option (List Tree × List Word)
  | 0, _ => none
  | _ + 1, [] => none
  | n + 1, w :: ws =>
    if w = [')'] then some ([], ws)
    else if w = ['('] then
      match parseList n ws with
      | none => none
      | some (ts, ws') => (parseList n ws').map (fun r => (.list ts :: r.1, r.2))
    else (parseList n ws).map (fun r => (.word w :: r.1, r.2))

/-- src/translate/pddl_parser/lisp_parser.py:6-16 (`parse_nested_list`) -/
def parseNestedList (file : List (List Char)) : Outcome :=
  match tokenize file with
  | none => .parseError
  | some [] => .stopIteration
  | some (w :: ws) =>
    if w ≠ ['('] then .parseError
    else
      match parseList (ws.length + 1) ws with
      | none => .parseError
      | some (ts, rest) => if rest = [] then .ok ts else .parseError

end Verif.Lisp
