import Verif.Model.Lexer

/-
Model of the syntax analysis of command line configurations:
/repo/src/search/parser/syntax_analyzer.cc, token_stream.cc.

A token stream is modelled by the list of the tokens from its position on.
Error messages, trace blocks and `unparsed_config` (the text of a function
call, used in messages) are not modelled.
-/
namespace Verif.Lex

/-- abstract_syntax_tree.h, the four kinds of nodes.  The keyword arguments are
kept in the order of their definition (`unordered_map` in the code). -/
inductive Ast where
  | letNode (name : List Char) (definition nested : Ast)
  | call (name : List Char) (positional : List Ast) (keyword : List (List Char × Ast))
  | list (elements : List Ast)
  | literal (token : Token)

/-- What a parsing function does. -/
inductive PRes (α : Type) where
  /-- it returns a result; the tokens which remain -/
  | ok (a : α) (rest : List Token)
  /-- it reports an error (throws `ContextError`) -/
  | error
  /-- it does not terminate -/
  | loops

namespace PRes

/-- Continue with the result and the tokens which remain. -/
def bind {α β : Type} (r : PRes α) (f : α → List Token → PRes β) : PRes β :=
  match r with
  | ok a rest => f a rest
  | error => error
  | loops => loops

end PRes

/-- token_stream.cc lines 46-51, `pop()`. -/
def pop : List Token → PRes Token
  | [] => .error
  | tok :: rest => .ok tok rest

/-- token_stream.cc lines 53-68, `pop(expected_type)`. -/
def popType (expected : TokenType) : List Token → PRes Token
  | [] => .error
  | tok :: rest => if tok.type = expected then .ok tok rest else .error

/-- Whether there is a token at offset `n`, and it has the given type:
`has_tokens(n + 1) && peek(n).type == type` (token_stream.cc lines 29-44). -/
def isAt (toks : List Token) (n : Nat) (type : TokenType) : Bool :=
  match toks[n]? with
  | some tok => tok.type == type
  | none => false

/-- Arguments collected so far: positional and keyword arguments. -/
abbrev Args := List Ast × List (List Char × Ast)

/-- syntax_analyzer.cc lines 49-74, `parse_argument`; `node` parses a node. -/
def parseArgument (node : List Token → PRes Ast) (args : Args) (toks : List Token) : PRes Args :=
  if isAt toks 0 .identifier && isAt toks 1 .equals then
    (pop toks).bind fun name toks =>
    (popType .equals toks).bind fun _ toks =>
    if args.2.any (fun kv => kv.1 == name.content) then .error
    else (node toks).bind fun value toks => .ok (args.1, args.2 ++ [(name.content, value)]) toks
  else
    if args.2 ≠ [] then .error
    else (node toks).bind fun value toks => .ok (args.1 ++ [value], args.2) toks

/-- syntax_analyzer.cc lines 76-108, `parse_let`. -/
def parseLet (node : List Token → PRes Ast) (toks : List Token) : PRes Ast :=
  (popType .letT toks).bind fun _ toks =>
  (popType .openingParenthesis toks).bind fun _ toks =>
  (popType .identifier toks).bind fun name toks =>
  (popType .comma toks).bind fun _ toks =>
  (node toks).bind fun definition toks =>
  (popType .comma toks).bind fun _ toks =>
  (node toks).bind fun nested toks =>
  (popType .closingParenthesis toks).bind fun _ toks =>
  .ok (.letNode name.content definition nested) toks

/-- syntax_analyzer.cc lines 110-141, `parse_sequence`; `func` parses one
element and stores it in `σ`.  More iterations than tokens can only be made by
a loop that does not terminate. -/
def parseSequence {σ : Type} (func : σ → List Token → PRes σ) (terminal : TokenType) :
    Nat → σ → List Token → PRes σ
  | _, _, [] => .error
  | n, st, tok :: toks =>
    if tok.type = terminal then .ok st (tok :: toks)
    else
      match n with
      | 0 => .loops
      | n + 1 =>
        (func st (tok :: toks)).bind fun st' rest =>
        match rest with
        | [] => .error
        | next :: rest' =>
          if next.type = terminal then .ok st' (next :: rest')
          else if next.type = .comma then
            if rest' = [] then .error
            else if isAt rest' 0 terminal then .error
            else parseSequence func terminal n st' rest'
          else .error

/-- syntax_analyzer.cc lines 143-171, `parse_function`. -/
def parseFunction (node : List Token → PRes Ast) (toks : List Token) : PRes Ast :=
  (popType .identifier toks).bind fun name toks =>
  (popType .openingParenthesis toks).bind fun _ toks =>
  (parseSequence (parseArgument node) .closingParenthesis toks.length ([], []) toks).bind
    fun args toks =>
  (popType .closingParenthesis toks).bind fun _ toks =>
  .ok (.call name.content args.1 args.2) toks

/-- syntax_analyzer.cc lines 173-175, `literal_tokens`. -/
def literalTokens : List TokenType := [.boolean, .string, .integer, .float, .identifier]

/-- syntax_analyzer.cc lines 177-187, `parse_literal`. -/
def parseLiteral (toks : List Token) : PRes Ast :=
  (pop toks).bind fun tok toks =>
  if tok.type ∈ literalTokens then .ok (.literal tok) toks else .error

/-- syntax_analyzer.cc lines 189-203, `parse_list`. -/
def parseList (node : List Token → PRes Ast) (toks : List Token) : PRes Ast :=
  (popType .openingBracket toks).bind fun _ toks =>
  (parseSequence (fun elements toks =>
      (node toks).bind fun e toks => .ok (elements ++ [e]) toks)
    .closingBracket toks.length [] toks).bind fun elements toks =>
  (popType .closingBracket toks).bind fun _ toks =>
  .ok (.list elements) toks

/-- syntax_analyzer.cc lines 205-244, `parse_node`.  The recursion of the code
is bounded by `fuel`. -/
def parseNode : Nat → List Token → PRes Ast
  | 0, _ => .loops
  | fuel + 1, toks =>
    match toks with
    | [] => .error
    | tok :: _ =>
      match tok.type with
      | .openingBracket => parseList (parseNode fuel) toks
      | .letT => parseLet (parseNode fuel) toks
      | .boolean | .string | .integer | .float => parseLiteral toks
      | .identifier =>
        if isAt toks 1 .openingParenthesis then parseFunction (parseNode fuel) toks
        else parseLiteral toks
      | _ => .error

/-- syntax_analyzer.cc lines 246-260, `parse`.  A recursion deeper than the
number of tokens could only be one that does not terminate. -/
def parse (toks : List Token) : PRes Ast :=
  if toks = [] then .error
  else (parseNode (toks.length + 1) toks).bind fun node rest =>
    if rest ≠ [] then .error else .ok node rest

end Verif.Lex
