import Verif.Lemmas.LexerSplit

/- Lexemes that are separated by spaces. -/
namespace Verif.Lex

theorem noWord_space (v : List Char) : NoWord (' ' :: v) := by
  intro c w h
  cases h
  rfl

theorem Suffix.space {x v : List Char} (h : Suffix x v) (w : List Char) :
    Suffix x (' ' :: w) := by
  obtain ⟨c, rfl, hc, _⟩ := h
  exact ⟨c, rfl, hc, noWord_space w⟩

/-- A lexeme remains one if a space follows. -/
theorem lexeme_space {t : TokenType} {s v : List Char} (h : LexemeAt t s v) (w : List Char) :
    LexemeAt t s (' ' :: w) := by
  cases t with
  | float =>
    obtain ⟨sg, m, x, e, hs, h⟩ := h
    refine ⟨sg, m, x, e, hs, ?_⟩
    rcases h with ⟨h1, h2 | h2 | h2⟩ | h
    · exact .inl ⟨h1, .inl h2⟩
    · exact .inl ⟨h1, .inr (.inl h2)⟩
    · exact .inl ⟨h1, .inr (.inr (h2.space w))⟩
    · exact .inr h
  | integer =>
    obtain ⟨sg, m, x, e, hs, h⟩ := h
    refine ⟨sg, m, x, e, hs, ?_⟩
    rcases h with h | ⟨h1, h2 | h2⟩
    · exact .inl h
    · exact .inr ⟨h1, .inl h2⟩
    · exact .inr ⟨h1, .inr (h2.space w)⟩
  | _ => exact h

theorem lower_not_space {c : Char} (h : isLetter (lower c) = true) : isSpace c = false :=
  word_not_space (isWord_of_lower h)

theorem map_lower_not_space {s w : List Char} (h : s.map lower = w)
    (hw : ∀ c ∈ w, isLetter c = true) : ∀ c ∈ s, isSpace c = false := by
  intro c hc
  apply lower_not_space
  apply hw
  rw [← h]
  exact List.mem_map_of_mem hc

theorem exponent_not_space {x : List Char} (h : Exponent x) : ∀ c ∈ x, isSpace c = false := by
  obtain ⟨c, sg, ds, rfl, hc, hs, hd⟩ := h
  intro d hm
  rcases List.mem_cons.1 hm with rfl | hm
  · exact lower_not_space (by rw [hc]; rfl)
  · rcases List.mem_append.1 hm with hm | hm
    · rcases hs with rfl | rfl | rfl
      · simp at hm
      · rw [List.mem_singleton.1 hm]; rfl
      · rw [List.mem_singleton.1 hm]; rfl
    · exact digit_not_space (hd.2 d hm)

theorem suffix_not_space {x v : List Char} (h : Suffix x v) : ∀ c ∈ x, isSpace c = false := by
  obtain ⟨c, rfl, hc, _⟩ := h
  intro d hm
  rw [List.mem_singleton.1 hm]
  apply lower_not_space
  rcases hc with hc | hc | hc <;> rw [hc] <;> rfl

/-- No lexeme but a string contains a space. -/
theorem lexeme_not_space {t : TokenType} {s v : List Char} (h : LexemeAt t s v)
    (ht : t ≠ .string) : ∀ c ∈ s, isSpace c = false := by
  have one : ∀ d : Char, isSpace d = false → s = [d] → ∀ c ∈ s, isSpace c = false := by
    rintro d hd rfl c hc
    rw [List.mem_singleton.1 hc]; exact hd
  cases t with
  | openingParenthesis => exact one _ rfl h
  | closingParenthesis => exact one _ rfl h
  | openingBracket => exact one _ rfl h
  | closingBracket => exact one _ rfl h
  | comma => exact one _ rfl h
  | equals => exact one _ rfl h
  | letT => exact map_lower_not_space h (by decide)
  | boolean => rcases h with h | h <;> exact map_lower_not_space h (by decide)
  | string => exact absurd rfl ht
  | float =>
    obtain ⟨sg, m, x, rfl, hs, h⟩ := h
    intro c hc
    rcases List.mem_append.1 hc with hc | hc
    · rcases hs with rfl | rfl | rfl
      · simp at hc
      · rw [List.mem_singleton.1 hc]; rfl
      · rw [List.mem_singleton.1 hc]; rfl
    · rcases List.mem_append.1 hc with hc | hc
      · rcases h with ⟨⟨ds, es, rfl, hd, _⟩, _⟩ | ⟨h, _⟩
        · rcases List.mem_append.1 hc with hc | hc
          · exact digit_not_space (hd c (List.mem_append_left _ hc))
          · rcases List.mem_cons.1 hc with rfl | hc
            · rfl
            · exact digit_not_space (hd c (List.mem_append_right _ hc))
        · exact digit_not_space (h.2 c hc)
      · rcases h with ⟨_, rfl | h | h⟩ | ⟨_, h⟩
        · simp at hc
        · exact exponent_not_space h c hc
        · exact suffix_not_space h c hc
        · exact exponent_not_space h c hc
  | integer =>
    obtain ⟨sg, m, x, rfl, hs, h⟩ := h
    intro c hc
    rcases List.mem_append.1 hc with hc | hc
    · rcases hs with rfl | rfl | rfl
      · simp at hc
      · rw [List.mem_singleton.1 hc]; rfl
      · rw [List.mem_singleton.1 hc]; rfl
    · rcases List.mem_append.1 hc with hc | hc
      · rcases h with ⟨h, _⟩ | ⟨h, _⟩
        · exact map_lower_not_space h (by decide) c hc
        · exact digit_not_space (h.2 c hc)
      · rcases h with ⟨_, rfl⟩ | ⟨_, rfl | h⟩
        · simp at hc
        · simp at hc
        · exact suffix_not_space h c hc
  | identifier =>
    obtain ⟨d, w, rfl, hd, hw⟩ := h
    intro c hc
    rcases List.mem_cons.1 hc with rfl | hc
    · apply word_not_space
      rcases hd with hd | rfl
      · simp [isWord, hd]
      · rfl
    · exact word_not_space (hw c hc)

/-- A text without spaces in front of a space. -/
theorem prefix_of_space {s s' v v' : List Char} (hs : ∀ c ∈ s', isSpace c = false)
    (e : s' ++ v' = s ++ ' ' :: v) : ∃ x, s = s' ++ x := by
  rcases List.append_eq_append_iff.1 e with ⟨m, e1, _⟩ | ⟨m, e1, e2⟩
  · exact ⟨m, e1⟩
  · cases m with
    | nil => exact ⟨[], by simpa using e1.symm⟩
    | cons c m =>
      exfalso
      simp only [List.cons_append, List.cons.injEq] at e2
      have := hs c (by rw [e1]; simp)
      rw [← e2.1] at this
      exact absurd this (by decide)

/-- The characters a lexeme can begin with. -/
def Heads : TokenType → Char → Prop
  | .openingParenthesis, c => c = '('
  | .closingParenthesis, c => c = ')'
  | .openingBracket, c => c = '['
  | .closingBracket, c => c = ']'
  | .comma, c => c = ','
  | .equals, c => c = '='
  | .letT, c => lower c = 'l'
  | .boolean, c => lower c = 't' ∨ lower c = 'f'
  | .string, c => c = '"'
  | .float, c => c = '+' ∨ c = '-' ∨ c = '.' ∨ isDigit c = true
  | .integer, c => c = '+' ∨ c = '-' ∨ lower c = 'i' ∨ isDigit c = true
  | .identifier, c => isLetter c = true ∨ c = '_'

theorem map_lower_head {s w : List Char} {c : Char} (h : s.map lower = c :: w) :
    ∃ d u, s = d :: u ∧ lower d = c := by
  cases s with
  | nil => simp at h
  | cons d u =>
    simp only [List.map_cons, List.cons.injEq] at h
    exact ⟨d, u, rfl, h.1⟩

theorem sign_head {sg r : List Char} {P : Char → Prop} (hs : Sign sg)
    (hr : ∃ c w, r = c :: w ∧ P c) : ∃ c w, sg ++ r = c :: w ∧ (c = '+' ∨ c = '-' ∨ P c) := by
  rcases hs with rfl | rfl | rfl
  · obtain ⟨c, w, rfl, h⟩ := hr
    exact ⟨c, w, rfl, .inr (.inr h)⟩
  · exact ⟨'+', r, rfl, .inl rfl⟩
  · exact ⟨'-', r, rfl, .inr (.inl rfl)⟩

theorem lexeme_head {t : TokenType} {s v : List Char} (h : LexemeAt t s v) :
    ∃ c w, s = c :: w ∧ Heads t c := by
  cases t with
  | openingParenthesis => exact ⟨_, _, h, rfl⟩
  | closingParenthesis => exact ⟨_, _, h, rfl⟩
  | openingBracket => exact ⟨_, _, h, rfl⟩
  | closingBracket => exact ⟨_, _, h, rfl⟩
  | comma => exact ⟨_, _, h, rfl⟩
  | equals => exact ⟨_, _, h, rfl⟩
  | letT => exact map_lower_head h
  | boolean =>
    rcases h with h | h
    · obtain ⟨d, u, e, h⟩ := map_lower_head h; exact ⟨d, u, e, .inl h⟩
    · obtain ⟨d, u, e, h⟩ := map_lower_head h; exact ⟨d, u, e, .inr h⟩
  | string => obtain ⟨items, _, rfl⟩ := h; exact ⟨_, _, rfl, rfl⟩
  | float =>
    obtain ⟨sg, m, x, rfl, hs, h⟩ := h
    refine sign_head (P := fun c => c = '.' ∨ isDigit c = true) hs ?_
    rcases h with ⟨⟨ds, es, rfl, hd, _⟩, _⟩ | ⟨⟨hne, hd⟩, _⟩
    · cases ds with
      | nil => exact ⟨'.', _, rfl, .inl rfl⟩
      | cons c ds => exact ⟨c, _, rfl, .inr (hd c (by simp))⟩
    · cases m with
      | nil => exact absurd rfl hne
      | cons c ds => exact ⟨c, _, rfl, .inr (hd c (by simp))⟩
  | integer =>
    obtain ⟨sg, m, x, rfl, hs, h⟩ := h
    refine sign_head (P := fun c => lower c = 'i' ∨ isDigit c = true) hs ?_
    rcases h with ⟨h, _⟩ | ⟨⟨hne, hd⟩, _⟩
    · obtain ⟨d, u, rfl, hd⟩ := map_lower_head h; exact ⟨d, u ++ x, rfl, .inl hd⟩
    · cases m with
      | nil => exact absurd rfl hne
      | cons c ds => exact ⟨c, _, rfl, .inr (hd c (by simp))⟩
  | identifier => obtain ⟨c, w, e, h, _⟩ := h; exact ⟨c, w, e, h⟩

theorem isLetter_of_lower {c : Char} (h : isLetter (lower c) = true) : isLetter c = true := by
  unfold lower at h
  split at h
  · rename_i hd
    simp only [isLetter, hd, Bool.or_true]
  · exact h

theorem not_digit_of_lower {c : Char} (h : isLetter (lower c) = true) : isDigit c = false := by
  cases hd : isDigit c with
  | false => rfl
  | true =>
    have := isDigit_not_letter hd
    rw [isLetter_of_lower h] at this
    cases this

/-- A classification of characters. -/
def kind (c : Char) : Nat :=
  if c = '(' then 0 else if c = ')' then 1 else if c = '[' then 2 else if c = ']' then 3
  else if c = ',' then 4 else if c = '=' then 5 else if c = '"' then 6
  else if c = '+' then 7 else if c = '-' then 7 else if c = '.' then 8
  else if c = '_' then 14
  else if isDigit c then 9
  else if lower c = 'l' then 10 else if lower c = 't' then 11 else if lower c = 'f' then 11
  else if lower c = 'i' then 12 else if isLetter c then 13 else 15

def kinds : TokenType → List Nat
  | .openingParenthesis => [0]
  | .closingParenthesis => [1]
  | .openingBracket => [2]
  | .closingBracket => [3]
  | .comma => [4]
  | .equals => [5]
  | .letT => [10]
  | .boolean => [11]
  | .string => [6]
  | .float => [7, 8, 9]
  | .integer => [7, 9, 12]
  | .identifier => [10, 11, 12, 13, 14]

theorem kind_of_digit {c : Char} (h : isDigit c = true) : kind c = 9 := by
  unfold kind
  iterate 11 rw [if_neg (by rintro rfl; exact absurd h (by decide))]
  rw [if_pos h]

theorem kind_of_letter {c : Char} (h : isLetter c = true) :
    kind c = if lower c = 'l' then 10 else if lower c = 't' then 11 else if lower c = 'f' then 11
      else if lower c = 'i' then 12 else 13 := by
  unfold kind
  iterate 11 rw [if_neg (by rintro rfl; exact absurd h (by decide))]
  rw [if_neg (by intro hd; rw [isDigit_not_letter hd] at h; cases h)]
  simp only [h, if_true]

theorem kind_of_heads {t : TokenType} {c : Char} (h : Heads t c) : kind c ∈ kinds t := by
  have lw : ∀ {d : Char}, lower c = d → isLetter d = true → isLetter c = true := by
    rintro d rfl hd
    exact isLetter_of_lower hd
  cases t with
  | openingParenthesis => cases h; decide
  | closingParenthesis => cases h; decide
  | openingBracket => cases h; decide
  | closingBracket => cases h; decide
  | comma => cases h; decide
  | equals => cases h; decide
  | string => cases h; decide
  | letT => rw [kind_of_letter (lw h rfl), show lower c = 'l' from h]; decide
  | boolean =>
    rcases h with h | h
    · rw [kind_of_letter (lw h rfl), h]; decide
    · rw [kind_of_letter (lw h rfl), h]; decide
  | float =>
    rcases h with rfl | rfl | rfl | h
    · decide
    · decide
    · decide
    · rw [kind_of_digit h]; decide
  | integer =>
    rcases h with rfl | rfl | h | h
    · decide
    · decide
    · rw [kind_of_letter (lw h rfl), h]; decide
    · rw [kind_of_digit h]; decide
  | identifier =>
    rcases h with h | rfl
    · rw [kind_of_letter h]
      split
      · decide
      · split
        · decide
        · split
          · decide
          · split <;> decide
    · decide

/-- The types in front of a type. -/
theorem before_eq {l r : List TokenType} {t : TokenType} (h : tokenTypes = l ++ t :: r) :
    l = tokenTypes.takeWhile (· != t) := by
  have : ∃ r', tokenTypes = tokenTypes.takeWhile (· != t) ++ t :: r' := by
    cases t <;> exact ⟨_, rfl⟩
  obtain ⟨r', hr'⟩ := this
  exact split_unique h hr'

/-- Two lexemes at the same place, the types of which differ. -/
theorem heads_clash {t t' : TokenType} {c : Char} (h : Heads t c) (h' : Heads t' c)
    {l r : List TokenType} (hb : tokenTypes = l ++ t :: r) (hm : t' ∈ l) :
    (t = .integer ∧ t' = .float) ∨
    (t = .identifier ∧ (t' = .letT ∨ t' = .boolean ∨ t' = .integer)) := by
  have h1 := kind_of_heads h
  have h2 := kind_of_heads h'
  rw [before_eq hb] at hm
  generalize kind c = k at h1 h2
  have key : (kinds t).any (fun k => (kinds t').contains k) = true := by
    rw [List.any_eq_true]
    exact ⟨k, h1, by simpa using h2⟩
  clear h1 h2 h h' hb
  revert key hm
  cases t <;> cases t' <;> decide

theorem tokenAt_written {t : TokenType} {s : List Char} (h : Written t s) (v : List Char) :
    TokenAt t s (' ' :: v) := by
  obtain ⟨hl, hr⟩ := h
  refine ⟨lexeme_space hl v, ?_, ?_⟩
  · intro before after e t' ht' s' v' es hl'
    have hpre : t' ≠ .string → ∃ x, s = s' ++ x := fun hne =>
      prefix_of_space (lexeme_not_space hl' hne) es
    obtain ⟨c, w, rfl, hc⟩ := lexeme_head hl
    obtain ⟨c', w', rfl, hc'⟩ := lexeme_head hl'
    have hcc : c' = c := by
      simp only [List.cons_append, List.cons.injEq] at es
      exact es.1
    subst hcc
    have low : ∀ {w : List Char}, (∃ x, c' :: w = (c' :: w') ++ x) →
        ∃ x : List Char, (c' :: w).map lower = (c' :: w').map lower ++ x.map lower := by
      rintro w ⟨x, hx⟩
      exact ⟨x, by rw [hx, List.map_append]⟩
    rcases heads_clash hc hc' e ht' with ⟨rfl, rfl⟩ | ⟨rfl, rfl | rfl | rfl⟩
    · -- a float in front of an integer
      obtain ⟨x, hx⟩ := hpre (by decide)
      clear hpre low hr hc hc'
      obtain ⟨sg', m', x', e', hs', h'⟩ := hl'
      obtain ⟨sg, m, y, e1, hs, h1⟩ := hl
      rw [e', e1] at hx
      -- a float lexeme, apart from the sign: digits and then a point or an e
      have hpt : ∃ ds d u, m' ++ x' = ds ++ d :: u ∧ (∀ c ∈ ds, isDigit c = true) ∧
          (d = '.' ∨ (lower d = 'e' ∧ ds ≠ [])) := by
        rcases h' with ⟨⟨ds, es, rfl, hd, _⟩, _⟩ | ⟨⟨hne, hd⟩, c, sg2, ds2, rfl, hc, _⟩
        · exact ⟨ds, '.', es ++ x', by simp, fun c hc => hd c (by simp [hc]), .inl rfl⟩
        · exact ⟨m', c, sg2 ++ ds2, rfl, hd, .inr ⟨hc, hne⟩⟩
      obtain ⟨ds, d, u, e2, hds, hd⟩ := hpt
      have hdd : isDigit d = false := by
        rcases hd with rfl | ⟨hd, _⟩
        · rfl
        · exact not_digit_of_lower (by rw [hd]; rfl)
      rw [e2] at hx
      -- the integer lexeme, apart from the sign
      have hbody : ∀ r, m ++ y = ds ++ d :: r → False := by
        intro r hr
        rcases h1 with ⟨hm, rfl⟩ | ⟨hm, hy⟩
        · rw [List.append_nil] at hr
          rw [hr] at hm
          cases ds with
          | nil =>
            simp only [List.nil_append, List.map_cons, List.cons.injEq] at hm
            rcases hd with rfl | ⟨_, hne⟩
            · exact absurd hm.1 (by decide)
            · exact hne rfl
          | cons a ds =>
            simp only [List.cons_append, List.map_cons, List.cons.injEq] at hm
            have ha := hds a (List.mem_cons_self ..)
            rw [lower_digit ha] at hm
            rw [hm.1] at ha
            exact absurd ha (by decide)
        · rcases hy with rfl | ⟨k, rfl, hk, _⟩
          · rw [List.append_nil] at hr
            have := hm.2 d (by rw [hr]; simp)
            rw [this] at hdd
            cases hdd
          · have hkd : isDigit k = false := not_digit_of_lower (by
              rcases hk with hk | hk | hk <;> rw [hk] <;> rfl)
            obtain ⟨_, rfl, _⟩ := digits_split hm.2 hds hkd hdd hr
            rcases hd with rfl | ⟨hd, _⟩
            · exact absurd hk (by decide)
            · rw [hd] at hk
              exact absurd hk (by decide)
      have hns : ∀ (sg ds : List Char) (d : Char) (z u : List Char),
          isDigit d = false → (d = '.' ∨ (lower d = 'e' ∧ ds ≠ [])) → (∀ c ∈ ds, isDigit c = true) →
          ∀ a b : Char, (a = '+' ∨ a = '-') → a :: z ≠ ds ++ d :: u := by
        intro sg ds d z u hdd hd hds a b ha e
        cases ds with
        | nil =>
          simp only [List.nil_append, List.cons.injEq] at e
          rcases hd with hd | ⟨_, hne⟩
          · rw [hd] at e; rcases ha with rfl | rfl <;> exact absurd e.1 (by decide)
          · exact hne rfl
        | cons q ds =>
          simp only [List.cons_append, List.cons.injEq] at e
          have hq := hds q (List.mem_cons_self ..)
          rw [← e.1] at hq
          rcases ha with rfl | rfl <;> exact absurd hq (by decide)
      have hni : ∀ z u : List Char, ∀ a : Char, (a = '+' ∨ a = '-') → m ++ y ≠ a :: z := by
        intro z u a ha e
        rcases h1 with ⟨hm, rfl⟩ | ⟨⟨hne, hm⟩, hy⟩
        · rw [List.append_nil] at e
          rw [e] at hm
          simp only [List.map_cons, List.cons.injEq] at hm
          rcases ha with rfl | rfl <;> exact absurd hm.1 (by decide)
        · cases m with
          | nil => exact hne rfl
          | cons q m =>
            simp only [List.cons_append, List.cons.injEq] at e
            have hq := hm q (List.mem_cons_self ..)
            rw [e.1] at hq
            rcases ha with rfl | rfl <;> exact absurd hq (by decide)
      rcases hs with rfl | rfl | rfl <;> rcases hs' with rfl | rfl | rfl <;>
        simp only [List.nil_append, List.cons_append, List.append_assoc, List.cons.injEq,
          true_and] at hx
      · exact hbody _ hx
      · exact hni _ [] '+' (.inl rfl) hx
      · exact hni _ [] '-' (.inr rfl) hx
      · exact hns [] ds d _ _ hdd hd hds '+' '+' (.inl rfl) hx
      · exact hbody _ hx
      · exact absurd hx.1 (by decide)
      · exact hns [] ds d _ _ hdd hd hds '-' '-' (.inr rfl) hx
      · exact absurd hx.1 (by decide)
      · exact hbody _ hx
    · obtain ⟨x, hx⟩ := low (hpre (by decide))
      exact hr rfl ⟨_, _, hx, .inl hl'⟩
    · obtain ⟨x, hx⟩ := low (hpre (by decide))
      rcases hl' with hl' | hl'
      · exact hr rfl ⟨_, _, hx, .inr (.inl hl')⟩
      · exact hr rfl ⟨_, _, hx, .inr (.inr (.inl hl'))⟩
    · obtain ⟨x, hx⟩ := low (hpre (by decide))
      obtain ⟨sg, m, y, e1, hs, h1⟩ := hl'
      have hlt : c' = '_' ∨ isLetter c' = true := hc.symm
      have hsg : sg = [] := by
        rcases hs with rfl | rfl | rfl
        · rfl
        · simp only [List.cons_append, List.nil_append, List.cons.injEq] at e1
          rw [e1.1] at hlt
          exact absurd hlt (by decide)
        · simp only [List.cons_append, List.nil_append, List.cons.injEq] at e1
          rw [e1.1] at hlt
          exact absurd hlt (by decide)
      subst hsg
      rw [List.nil_append] at e1
      rcases h1 with ⟨h1, rfl⟩ | ⟨⟨hne, hm⟩, _⟩
      · rw [List.append_nil] at e1
        rw [e1, h1] at hx
        exact hr rfl ⟨_, _, hx, .inr (.inr (.inr rfl))⟩
      · cases m with
        | nil => exact hne rfl
        | cons q m =>
          simp only [List.cons_append, List.cons.injEq] at e1
          have hq := hm q (List.mem_cons_self ..)
          rw [← e1.1] at hq
          rcases hlt with rfl | hlt
          · exact absurd hq (by decide)
          · rw [isDigit_not_letter hq] at hlt
            cases hlt
  · intro s' v' es hl'
    by_cases ht : t = .string
    · subst ht
      obtain ⟨i1, h1, rfl⟩ := hl
      obtain ⟨i2, h2, rfl⟩ := hl'
      simp only [List.cons_append, List.append_assoc, List.nil_append, List.cons.injEq,
        true_and] at es
      have hv := string_unique h2 h1 es
      have := congrArg List.length es
      rw [hv] at this
      simp at this ⊢
      omega
    · obtain ⟨x, rfl⟩ := prefix_of_space (lexeme_not_space hl' ht) es
      simp

end Verif.Lex
