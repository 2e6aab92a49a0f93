import Verif.Model.Lexer

/-
Specification of the lexical analysis, without regular expressions: what the
lexemes of each type are, which lexeme is read at a position, and how a text is
split.  Only the character classes `isSpace`, `isDigit`, `isLetter`, `isWord`,
the function `lower`, the names of the token types and their order come from
the model.
-/
namespace Verif.Lex

/-- A non-empty sequence of digits. -/
def Digits (s : List Char) : Prop := s ≠ [] ∧ ∀ c ∈ s, isDigit c = true

/-- An optional sign. -/
def Sign (s : List Char) : Prop := s = [] ∨ s = ['+'] ∨ s = ['-']

/-- The rest of the text does not continue a word. -/
def NoWord (v : List Char) : Prop := ∀ c w, v = c :: w → isWord c = false

/-- An exponent: `e`, optional sign, digits. -/
def Exponent (s : List Char) : Prop :=
  ∃ c sg ds, s = c :: (sg ++ ds) ∧ lower c = 'e' ∧ Sign sg ∧ Digits ds

/-- A multiplier `k`, `m` or `g`, which must end the word. -/
def Suffix (s v : List Char) : Prop :=
  ∃ c, s = [c] ∧ (lower c = 'k' ∨ lower c = 'm' ∨ lower c = 'g') ∧ NoWord v

/-- The items of a string: an ordinary character, or `\\`, `\"`, `\n`. -/
def StringItem (s : List Char) : Prop :=
  (∃ c, s = [c] ∧ c ≠ '"' ∧ c ≠ '\\') ∨
  s = ['\\', '\\'] ∨ s = ['\\', '"'] ∨ ∃ c, s = ['\\', c] ∧ lower c = 'n'

/-- `s`, followed by the text `v`, is a lexeme of the given type. -/
def LexemeAt : TokenType → List Char → List Char → Prop
  | .openingParenthesis, s, _ => s = ['(']
  | .closingParenthesis, s, _ => s = [')']
  | .openingBracket, s, _ => s = ['[']
  | .closingBracket, s, _ => s = [']']
  | .comma, s, _ => s = [',']
  | .equals, s, _ => s = ['=']
  | .letT, s, _ => s.map lower = ['l', 'e', 't']
  | .boolean, s, _ => s.map lower = ['t', 'r', 'u', 'e'] ∨ s.map lower = ['f', 'a', 'l', 's', 'e']
  | .string, s, _ => ∃ items : List (List Char),
      (∀ i ∈ items, StringItem i) ∧ s = '"' :: (items.flatten ++ ['"'])
  | .float, s, v => ∃ sg m x, s = sg ++ (m ++ x) ∧ Sign sg ∧
      -- digits and a point, with at least one digit, and possibly more; or digits and an exponent
      (((∃ ds es, m = ds ++ '.' :: es ∧ (∀ c ∈ ds ++ es, isDigit c = true) ∧ ds ++ es ≠ []) ∧
          (x = [] ∨ Exponent x ∨ Suffix x v)) ∨
        (Digits m ∧ Exponent x))
  | .integer, s, v => ∃ sg m x, s = sg ++ (m ++ x) ∧ Sign sg ∧
      ((m.map lower = ['i', 'n', 'f', 'i', 'n', 'i', 't', 'y'] ∧ x = []) ∨
        (Digits m ∧ (x = [] ∨ Suffix x v)))
  | .identifier, s, _ => ∃ c w, s = c :: w ∧ (isLetter c = true ∨ c = '_') ∧
      ∀ d ∈ w, isWord d = true

/-- `s` is what is read at the beginning of `s ++ v` (a text which does not
begin with a space): its type is the first one with a lexeme here, and it is
the longest lexeme of this type. -/
structure TokenAt (t : TokenType) (s v : List Char) : Prop where
  lexeme : LexemeAt t s v
  first : ∀ before after, tokenTypes = before ++ t :: after →
    ∀ t' ∈ before, ∀ s' v', s' ++ v' = s ++ v → ¬ LexemeAt t' s' v'
  longest : ∀ s' v', s' ++ v' = s ++ v → LexemeAt t s' v' → s'.length ≤ s.length

/-- The text of a token: numbers, Booleans and identifiers in lower case. -/
def tokenText (t : TokenType) (s : List Char) : List Char :=
  match t with
  | .boolean | .integer | .float | .identifier => s.map lower
  | _ => s

/-- `LexesTo text toks rest`: reading tokens from `text` on gives `toks` and
leaves `rest`. -/
inductive LexesTo : List Char → List Token → List Char → Prop
  | done (rest) : LexesTo rest [] rest
  | token {before s behind next : List Char} {t : TokenType} {toks : List Token}
      {rest : List Char} :
      (∀ c ∈ before, isSpace c = true) → TokenAt t s (behind ++ next) →
      (∀ c ∈ behind, isSpace c = true) →
      (∀ c w, next = c :: w → isSpace c = false) →
      LexesTo next toks rest →
      LexesTo (before ++ s ++ behind ++ next) (⟨tokenText t s, t⟩ :: toks) rest

/-- No token can be read at the beginning of the text. -/
def Unrecognisable (rest : List Char) : Prop :=
  rest ≠ [] ∧ ∀ before s v t, rest = before ++ s ++ v → (∀ c ∈ before, isSpace c = true) →
    ¬ LexemeAt t s v

/-- Identifiers that begin with a reserved word are not read as identifiers. -/
def ReservedPrefix (s : List Char) : Prop :=
  ∃ w x : List Char, s.map lower = w ++ x ∧
    (w = ['l', 'e', 't'] ∨ w = ['t', 'r', 'u', 'e'] ∨ w = ['f', 'a', 'l', 's', 'e'] ∨
      w = ['i', 'n', 'f', 'i', 'n', 'i', 't', 'y'])

/-- What the user has to write for a token: a lexeme of its type; an identifier
must not begin with a reserved word. -/
def Written (t : TokenType) (s : List Char) : Prop :=
  LexemeAt t s [] ∧ (t = .identifier → ¬ ReservedPrefix s)

/-- The text a user writes: each lexeme, followed by a space. -/
def render (items : List (TokenType × List Char)) : List Char :=
  items.flatMap fun i => i.2 ++ [' ']

end Verif.Lex
