import Verif.Model.Parser
import Verif.Spec.Lexer

/-
Specification of the syntax of configurations: how a configuration is written
as a sequence of tokens.
-/
namespace Verif.Lex

/-- The token with a given type; the text of separators and of `let` does not
matter. -/
def sep (type : TokenType) : Token := ⟨[], type⟩

/-- Elements separated by commas, without a trailing comma. -/
def commas : List (List Token) → List Token
  | [] => []
  | [x] => x
  | x :: y :: l => x ++ sep .comma :: commas (y :: l)

mutual
/-- How a configuration is written. -/
def Ast.print : Ast → List Token
  -- let(NAME, definition, nested)
  | .letNode name definition nested =>
    sep .letT :: sep .openingParenthesis :: ⟨name, .identifier⟩ :: sep .comma ::
      (definition.print ++ sep .comma :: (nested.print ++ [sep .closingParenthesis]))
  -- NAME(positional, ..., KEY=value, ...)
  | .call name positional keyword =>
    ⟨name, .identifier⟩ :: sep .openingParenthesis ::
      (commas (Ast.printAll positional ++ Ast.printKeyword keyword) ++ [sep .closingParenthesis])
  -- [element, ...]
  | .list elements =>
    sep .openingBracket :: (commas (Ast.printAll elements) ++ [sep .closingBracket])
  | .literal token => [token]
/-- Each of some configurations. -/
def Ast.printAll : List Ast → List (List Token)
  | [] => []
  | a :: l => a.print :: Ast.printAll l
/-- Each of some keyword arguments. -/
def Ast.printKeyword : List (List Char × Ast) → List (List Token)
  | [] => []
  | (k, a) :: l => (⟨k, .identifier⟩ :: sep .equals :: a.print) :: Ast.printKeyword l
end

mutual
/-- The configurations which exist: literals are Booleans, strings, numbers and
identifiers; no keyword is given twice. -/
def Ast.Legal : Ast → Prop
  | .letNode _ definition nested => definition.Legal ∧ nested.Legal
  | .call _ positional keyword =>
    Ast.AllLegal positional ∧ Ast.KeywordLegal keyword ∧ (keyword.map Prod.fst).Nodup
  | .list elements => Ast.AllLegal elements
  | .literal token => token.type = .boolean ∨ token.type = .string ∨ token.type = .integer ∨
      token.type = .float ∨ token.type = .identifier
def Ast.AllLegal : List Ast → Prop
  | [] => True
  | a :: l => a.Legal ∧ Ast.AllLegal l
def Ast.KeywordLegal : List (List Char × Ast) → Prop
  | [] => True
  | (_, a) :: l => a.Legal ∧ Ast.KeywordLegal l
end

/-- Forget the text of separators and of `let`. -/
def Token.plain (tok : Token) : Token :=
  match tok.type with
  | .boolean | .string | .integer | .float | .identifier => tok
  | _ => ⟨[], tok.type⟩

/-- `toks` is a way to write the configuration `a`. -/
def Writes (toks : List Token) (a : Ast) : Prop := toks.map Token.plain = a.print

end Verif.Lex
