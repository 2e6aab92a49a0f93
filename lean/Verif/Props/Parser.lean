import Verif.Lemmas.LexerPrint
import Verif.Lemmas.ParserComplete

/-
C46: lexical and syntax analysis of configurations.
-/
namespace Verif.Lex

/-- **C46**: for every text, `split_tokens` terminates.  It returns the tokens
which the specification describes: lexemes which, together with the spaces
between them, are the text.  Or it reports an error at the first position where
no token can be read. -/
theorem C46_lexer (text : List Char) :
    (∃ toks, splitTokens text = .ok toks ∧ LexesTo text toks []) ∨
    (∃ toks rest, splitTokens text = .error rest ∧ LexesTo text toks rest ∧
      Unrecognisable rest) := by
  rcases splitLoop_spec text.length text [] (Nat.le_refl _) with ⟨toks, h1, h2⟩ |
    ⟨toks, rest, h1, h2, h3⟩
  · exact .inl ⟨toks, by simpa [splitTokens] using h2, h1⟩
  · exact .inr ⟨toks, rest, h3, h1, h2⟩

/-- **C46**: the tokens returned are exactly those of the specification. -/
theorem C46_lexer_exact (text : List Char) (toks : List Token) :
    splitTokens text = .ok toks ↔ LexesTo text toks [] := by
  constructor
  · intro h
    rcases C46_lexer text with ⟨toks', h1, h2⟩ | ⟨toks', rest, h1, _⟩
    · rw [h] at h1
      cases h1
      exact h2
    · rw [h] at h1; cases h1
  · intro h
    rcases C46_lexer text with ⟨toks', h1, h2⟩ | ⟨toks', rest, h1, h2, h3⟩
    · rw [h1, (lexesTo_unique h h2 (.inl rfl) (.inl rfl)).1]
    · have := (lexesTo_unique h h2 (.inl rfl) (.inr h3)).2
      exact absurd this.symm h3.1

/-- **C46**: for every sequence of tokens, `parse` terminates, and it returns a
configuration exactly if the tokens are a way to write this configuration. -/
theorem C46_parser (toks : List Token) :
    parse toks ≠ .loops ∧
    (∀ a rest, parse toks = .ok a rest → rest = []) ∧
    ∀ a, parse toks = .ok a [] ↔ a.Legal ∧ Writes toks a := by
  have hnl : parse toks ≠ .loops := by
    intro h
    unfold parse at h
    split at h
    · cases h
    · rcases bind_loops h with h | ⟨_, _, _, h⟩
      · exact parseNode_loops _ _ (Nat.lt_succ_self _) h
      · split at h <;> cases h
  have hnil : ∀ a rest, parse toks = .ok a rest → rest = [] := by
    intro a rest h
    unfold parse at h
    split at h
    · cases h
    · obtain ⟨b, r, _, h2⟩ := bind_ok h
      split at h2
      · cases h2
      · rename_i hr
        cases h2
        simpa using hr
  refine ⟨hnl, hnil, fun a => ⟨?_, ?_⟩⟩
  · intro h
    unfold parse at h
    split at h
    · cases h
    · obtain ⟨b, r, h1, h2⟩ := bind_ok h
      split at h2
      · cases h2
      · cases h2
        obtain ⟨used, e, hw, hl⟩ := parseNode_sound _ _ _ _ h1
        rw [List.append_nil] at e
        rw [e]
        exact ⟨hl, hw⟩
  · rintro ⟨hl, hw⟩
    have hne : toks ≠ [] := by
      rintro rfl
      obtain ⟨t, l, e, _⟩ := print_head hl
      unfold Writes at hw
      rw [e] at hw
      simp at hw
    have := parseNode_complete (toks.length + 1) a toks [] hl hw (by intro t r h; cases h)
      (Nat.lt_succ_self _)
    rw [List.append_nil] at this
    unfold parse
    rw [if_neg hne, this]
    rfl

/-- **C46**: the grammar is not ambiguous: no sequence of tokens is a way to
write two configurations. -/
theorem C46_unambiguous {toks : List Token} {a b : Ast} (ha : a.Legal) (hb : b.Legal)
    (h : Writes toks a) (h' : Writes toks b) : a = b := by
  have h1 := ((C46_parser toks).2.2 a).2 ⟨ha, h⟩
  have h2 := ((C46_parser toks).2.2 b).2 ⟨hb, h'⟩
  rw [h1] at h2
  injection h2

theorem lexes_render {items : List (TokenType × List Char)}
    (h : ∀ i ∈ items, Written i.1 i.2) :
    LexesTo (render items) (items.map fun i => ⟨tokenText i.1 i.2, i.1⟩) [] := by
  induction items with
  | nil => exact .done _
  | cons i items ih =>
    have hi := h i (List.mem_cons_self ..)
    have := ih fun j hj => h j (List.mem_cons_of_mem _ hj)
    have e : render (i :: items) = [] ++ i.2 ++ [' '] ++ render items := by
      simp [render]
    rw [e]
    refine .token (by simp) (tokenAt_written hi _) (by simp; rfl) ?_ this
    intro c w hc
    cases items with
    | nil => cases hc
    | cons j items =>
      have hj := h j (List.mem_cons_of_mem _ (List.mem_cons_self ..))
      obtain ⟨d, u, e', hd⟩ := lexeme_lead hj.1
      simp only [render, List.flatMap_cons, e', List.cons_append, List.cons.injEq] at hc
      rw [← hc.1]
      exact hd

/-- **C46**: whatever configuration a user writes (with lexemes separated by
spaces), the planner reads it. -/
theorem C46_round_trip {items : List (TokenType × List Char)} {a : Ast}
    (h : ∀ i ∈ items, Written i.1 i.2) (ha : a.Legal)
    (hw : Writes (items.map fun i => ⟨tokenText i.1 i.2, i.1⟩) a) :
    ∃ toks, splitTokens (render items) = .ok toks ∧ parse toks = .ok a [] :=
  ⟨_, (C46_lexer_exact _ _).2 (lexes_render h), ((C46_parser _).2.2 a).2 ⟨ha, hw⟩⟩

/-- Identifiers that begin with a reserved word are not read as identifiers:
`letter` is read as `let` and `ter`, `true_cost` as `true` and `_cost`,
`infinity2` as two numbers (the expressions of the reserved words do not require
a word boundary). -/
theorem C46_reserved_prefix_fails :
    splitTokens "letter".toList =
      .ok [⟨"let".toList, .letT⟩, ⟨"ter".toList, .identifier⟩] ∧
    splitTokens "true_cost".toList =
      .ok [⟨"true".toList, .boolean⟩, ⟨"_cost".toList, .identifier⟩] ∧
    splitTokens "infinity2".toList =
      .ok [⟨"infinity".toList, .integer⟩, ⟨"2".toList, .integer⟩] ∧
    (∃ c w, "letter".toList = c :: w ∧ isLetter c = true ∧ ∀ d ∈ w, isWord d = true) := by
  refine ⟨by decide +kernel, by decide +kernel, by decide +kernel, 'l', "etter".toList,
    by decide +kernel, by decide +kernel, by decide +kernel⟩

/-! ### Examples -/

/-- A realistic configuration: `let(hff, ff(), eager([hff, -2.5E3], x=5k))`. -/
def exItems : List (TokenType × List Char) :=
  [(.letT, "LET".toList), (.openingParenthesis, "(".toList), (.identifier, "hff".toList),
   (.comma, ",".toList), (.identifier, "FF".toList), (.openingParenthesis, "(".toList),
   (.closingParenthesis, ")".toList), (.comma, ",".toList), (.identifier, "eager".toList),
   (.openingParenthesis, "(".toList), (.openingBracket, "[".toList), (.identifier, "hff".toList),
   (.comma, ",".toList), (.float, "-2.5E3".toList), (.closingBracket, "]".toList),
   (.comma, ",".toList), (.identifier, "x".toList), (.equals, "=".toList),
   (.integer, "5k".toList), (.closingParenthesis, ")".toList), (.closingParenthesis, ")".toList)]

def exAst : Ast :=
  .letNode "hff".toList (.call "ff".toList [] [])
    (.call "eager".toList
      [.list [.literal ⟨"hff".toList, .identifier⟩, .literal ⟨"-2.5e3".toList, .float⟩]]
      [("x".toList, .literal ⟨"5k".toList, .integer⟩)])

example : splitTokens (render exItems) =
    .ok (exItems.map fun i => ⟨tokenText i.1 i.2, i.1⟩) := by decide +kernel

theorem exAst_legal : exAst.Legal := by
  simp [exAst, Ast.Legal, Ast.AllLegal, Ast.KeywordLegal]

theorem exAst_written : Writes (exItems.map fun i => ⟨tokenText i.1 i.2, i.1⟩) exAst := by
  unfold Writes
  decide +kernel

/-- A number, a string and an identifier which satisfy the hypotheses of
`C46_round_trip`. -/
example : Written .float "-2.5E3".toList ∧ Written .string "\"a \\\"b\"".toList ∧
    Written .identifier "hff".toList := by
  refine ⟨⟨⟨['-'], "2.5".toList, "E3".toList, rfl, .inr (.inr rfl), .inl
    ⟨⟨['2'], ['5'], rfl, by decide, by decide⟩, .inr (.inl ⟨'E', [], ['3'], rfl, rfl, .inl rfl,
      by decide, by decide⟩)⟩⟩, by simp⟩, ⟨⟨[['a'], [' '], ['\\', '"'], ['b']], ?_, rfl⟩, by simp⟩,
    ⟨⟨'h', ['f', 'f'], rfl, .inl rfl, by decide⟩, fun _ h => ?_⟩⟩
  · intro i hi
    simp only [List.mem_cons, List.not_mem_nil, or_false] at hi
    rcases hi with rfl | rfl | rfl | rfl
    · exact .inl ⟨'a', rfl, by decide, by decide⟩
    · exact .inl ⟨' ', rfl, by decide, by decide⟩
    · exact .inr (.inr (.inl rfl))
    · exact .inl ⟨'b', rfl, by decide, by decide⟩
  · obtain ⟨w, x, e, h⟩ := h
    have e' : ['h', 'f', 'f'] = w ++ x := e
    rcases h with rfl | rfl | rfl | rfl <;>
      simp only [List.cons_append, List.cons.injEq] at e' <;> exact absurd e'.1 (by decide)

/-- Errors: a trailing comma, a positional after a keyword argument, a keyword
twice, a character that begins no token, only spaces. -/
example : parse [⟨[], .openingBracket⟩, ⟨['1'], .integer⟩, ⟨[], .comma⟩, ⟨[], .closingBracket⟩] =
    .error := by rfl
example : parse [⟨['f'], .identifier⟩, ⟨[], .openingParenthesis⟩, ⟨['x'], .identifier⟩,
    ⟨[], .equals⟩, ⟨['1'], .integer⟩, ⟨[], .comma⟩, ⟨['2'], .integer⟩,
    ⟨[], .closingParenthesis⟩] = .error := by rfl
example : splitTokens "f(1, ?)".toList = .error "?)".toList := by decide +kernel
example : splitTokens "  ".toList = .error "  ".toList := by decide +kernel

end Verif.Lex
