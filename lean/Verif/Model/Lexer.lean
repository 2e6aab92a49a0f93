/-
Model of the lexical analysis of command line configurations:
/repo/src/search/parser/lexical_analyzer.cc, token_stream.{h,cc}.

A `char` is modelled by the Lean character with its code; the classes of the
regular expressions are those of the "C" locale (ASCII).  Error messages and
the trace blocks are not modelled.
-/
namespace Verif.Lex

/-- The characters matched by `\s`. -/
def isSpace (c : Char) : Bool :=
  c == ' ' || c == '\t' || c == '\n' || c == '\x0b' || c == '\x0c' || c == '\r'

/-- The characters matched by `\d`. -/
def isDigit (c : Char) : Bool := '0'.toNat ≤ c.toNat && c.toNat ≤ '9'.toNat

/-- The characters matched by `[a-zA-Z]`. -/
def isLetter (c : Char) : Bool :=
  ('a'.toNat ≤ c.toNat && c.toNat ≤ 'z'.toNat) || ('A'.toNat ≤ c.toNat && c.toNat ≤ 'Z'.toNat)

/-- The characters matched by `\w`. -/
def isWord (c : Char) : Bool := isLetter c || isDigit c || c == '_'

/-- `::tolower` in the "C" locale. -/
def lower (c : Char) : Char :=
  if 'A'.toNat ≤ c.toNat && c.toNat ≤ 'Z'.toNat then Char.ofNat (c.toNat + 32) else c

/-- Regular expressions of ECMAScript, as far as lexical_analyzer.cc lines
21-43 use them. -/
inductive Re where
  | eps
  | chr (p : Char → Bool)
  | seq (a b : Re)
  | alt (a b : Re)
  | star (a : Re)
  | wordBoundary

/-- A position in the text: the previous character (if any) and the rest. -/
abbrev Pos := Option Char × List Char

/-- The outcomes of a greedy repetition, in the order in which they are tried:
once more first (an iteration must not be empty), then stop.  `n` bounds the
number of iterations; the length of the rest is enough. -/
def starOuts (m : Pos → List Pos) : Nat → Pos → List Pos
  | 0, x => [x]
  | n + 1, x =>
    (m x).flatMap (fun y => if y.2.length < x.2.length then starOuts m n y else []) ++ [x]

/-- The positions which a regular expression can reach from a position, in the
order in which a backtracking matcher for ECMAScript finds them (std::regex
with `ECMAScript`: alternatives from left to right, repetitions greedy). -/
def Re.outs : Re → Pos → List Pos
  | .eps, x => [x]
  | .chr p, x =>
    match x.2 with
    | [] => []
    | c :: s => if p c then [(some c, s)] else []
  | .seq a b, x => (a.outs x).flatMap b.outs
  | .alt a b, x => a.outs x ++ b.outs x
  | .star a, x => starOuts a.outs x.2.length x
  | .wordBoundary, x =>
    if (match x.1 with | some c => isWord c | none => false) !=
       (match x.2 with | c :: _ => isWord c | [] => false) then [x] else []

/-- `r?` -/
def Re.opt (r : Re) : Re := .alt r .eps
/-- `r+` -/
def Re.plus (r : Re) : Re := .seq r (.star r)
/-- A literal character with `regex_constants::icase`. -/
def Re.lit (c : Char) : Re := .chr (fun d => lower d == lower c)
/-- A literal word with `regex_constants::icase`. -/
def Re.word : List Char → Re
  | [] => .eps
  | [c] => .lit c
  | c :: cs => .seq (.lit c) (Re.word cs)

/-- token_stream.h, `TokenType`. -/
inductive TokenType where
  | openingParenthesis | closingParenthesis | openingBracket | closingBracket
  | comma | equals | letT | boolean | string | float | integer | identifier
deriving DecidableEq, Repr

def digit : Re := .chr isDigit
def sign : Re := .opt (.alt (.lit '+') (.lit '-'))
/-- `e[+-]?\d+` -/
def exponent : Re := .seq (.lit 'e') (.seq sign digit.plus)
/-- `[kmg]\b` -/
def suffix : Re := .seq (.alt (.lit 'k') (.alt (.lit 'm') (.lit 'g'))) .wordBoundary

/-- lexical_analyzer.cc lines 21-43: the expressions of the token types. -/
def tokenRe : TokenType → Re
  | .openingParenthesis => .lit '('
  | .closingParenthesis => .lit ')'
  | .openingBracket => .lit '['
  | .closingBracket => .lit ']'
  | .comma => .lit ','
  | .equals => .lit '='
  | .letT => .word ['l', 'e', 't']
  | .boolean => .alt (.word ['t', 'r', 'u', 'e']) (.word ['f', 'a', 'l', 's', 'e'])
  -- "(\\\\|\\"|\\n|[^"\\])*"
  | .string =>
    .seq (.lit '"') (.seq
      (.star (.alt (.word ['\\', '\\']) (.alt (.word ['\\', '"']) (.alt (.word ['\\', 'n'])
        (.chr (fun c => c != '"' && c != '\\'))))))
      (.lit '"'))
  -- [+-]?(((\d*\.\d+|\d+\.)(e[+-]?\d+|[kmg]\b)?)|\d+e[+-]?\d+)
  | .float =>
    .seq sign (.alt
      (.seq (.alt (.seq (.star digit) (.seq (.lit '.') digit.plus)) (.seq digit.plus (.lit '.')))
        (.opt (.alt exponent suffix)))
      (.seq digit.plus exponent))
  -- [+-]?(infinity|\d+([kmg]\b)?)
  | .integer =>
    .seq sign (.alt (.word ['i', 'n', 'f', 'i', 'n', 'i', 't', 'y'])
      (.seq digit.plus (.opt suffix)))
  -- [a-zA-Z_]\w*
  | .identifier => .seq (.chr (fun c => isLetter c || c == '_')) (.star (.chr isWord))

/-- lexical_analyzer.cc lines 21-43: the order in which the expressions are
tried. -/
def tokenTypes : List TokenType :=
  [.openingParenthesis, .closingParenthesis, .openingBracket, .closingBracket, .comma, .equals,
   .letT, .boolean, .string, .float, .integer, .identifier]

/-- lexical_analyzer.cc lines 14-18 and 89-91: the first match of
`^\s*(r)\s*` at the beginning of a text: the submatch `match[1]` and the text
behind the match.  (`^` holds at the beginning of the range searched.) -/
def matchToken (r : Re) (text : List Char) : Option (List Char × List Char) :=
  (((Re.star (.chr isSpace)).outs (none, text)).flatMap fun x =>
    (r.outs x).flatMap fun y =>
      ((Re.star (.chr isSpace)).outs y).map fun z =>
        (x.2.take (x.2.length - y.2.length), z.2)).head?

structure Token where
  content : List Char
  type : TokenType
deriving DecidableEq, Repr

/-- token_stream.cc lines 13-20, `case_insensitive_to_lower`. -/
def caseInsensitiveToLower (content : List Char) (type : TokenType) : List Char :=
  if type = .boolean ∨ type = .integer ∨ type = .float ∨ type = .identifier then
    content.map lower
  else content

/-- token_stream.cc lines 21-23, the constructor of `Token`. -/
def mkToken (content : List Char) (type : TokenType) : Token :=
  ⟨caseInsensitiveToLower content type, type⟩

/-- lexical_analyzer.cc lines 86-96: the first expression that matches. -/
def firstMatch : List TokenType → List Char → Option (Token × List Char)
  | [], _ => none
  | t :: ts, text =>
    match matchToken (tokenRe t) text with
    | some (content, rest) => some (mkToken content t, rest)
    | none => firstMatch ts text

/-- What `split_tokens` does. -/
inductive LexResult where
  /-- it returns the tokens -/
  | ok (tokens : List Token)
  /-- it reports an error; `rest` is the text from the reported position on -/
  | error (rest : List Char)
  /-- it does not terminate -/
  | loops
deriving DecidableEq

/-- lexical_analyzer.cc lines 82-103: the loop of `split_tokens`; `tokens` in
reverse order.  More iterations than characters can only be made by a loop
that does not terminate. -/
def splitLoop : Nat → List Char → List Token → LexResult
  | _, [], tokens => .ok tokens.reverse
  | 0, _ :: _, _ => .loops
  | n + 1, c :: text, tokens =>
    match firstMatch tokenTypes (c :: text) with
    | some (token, rest) => splitLoop n rest (token :: tokens)
    | none => .error (c :: text)

/-- lexical_analyzer.cc lines 74-105, `split_tokens`. -/
def splitTokens (text : List Char) : LexResult := splitLoop text.length text []

end Verif.Lex
