import Verif.Lemmas.LexerOrder

/- Splitting a text into tokens. -/
namespace Verif.Lex

theorem sign_lead {sg m : List Char} (hs : Sign sg) (hm : ∃ c w, m = c :: w ∧ isSpace c = false) :
    ∃ c w, sg ++ m = c :: w ∧ isSpace c = false := by
  rcases hs with rfl | rfl | rfl
  · exact hm
  · exact ⟨'+', m, rfl, rfl⟩
  · exact ⟨'-', m, rfl, rfl⟩

theorem digit_not_space {c : Char} (h : isDigit c = true) : isSpace c = false := by
  cases hs : isSpace c with
  | false => rfl
  | true =>
    simp only [isSpace, Bool.or_eq_true, beq_iff_eq] at hs
    rcases hs with ((((rfl | rfl) | rfl) | rfl) | rfl) | rfl <;> exact absurd h (by decide)

theorem word_not_space {c : Char} (h : isWord c = true) : isSpace c = false := by
  cases hs : isSpace c with
  | false => rfl
  | true =>
    simp only [isSpace, Bool.or_eq_true, beq_iff_eq] at hs
    rcases hs with ((((rfl | rfl) | rfl) | rfl) | rfl) | rfl <;> exact absurd h (by decide)

/-- A word with a lower case that begins with a letter. -/
theorem lower_lead {s w : List Char} {c : Char} (h : s.map lower = c :: w)
    (hc : isLetter c = true) : ∃ d u, s = d :: u ∧ isSpace d = false := by
  cases s with
  | nil => simp at h
  | cons d u =>
    simp only [List.map_cons, List.cons.injEq] at h
    exact ⟨d, u, rfl, word_not_space (isWord_of_lower (by rw [h.1]; exact hc))⟩

theorem digits_lead {s : List Char} (h : Digits s) : ∃ c w, s = c :: w ∧ isSpace c = false := by
  cases s with
  | nil => exact absurd rfl h.1
  | cons c w => exact ⟨c, w, rfl, digit_not_space (h.2 c (List.mem_cons_self ..))⟩

theorem lead_append {s x : List Char} (h : ∃ c w, s = c :: w ∧ isSpace c = false) :
    ∃ c w, s ++ x = c :: w ∧ isSpace c = false := by
  obtain ⟨c, w, rfl, h⟩ := h
  exact ⟨c, w ++ x, rfl, h⟩

/-- Lexemes are not empty and do not begin with a space. -/
theorem lexeme_lead {t : TokenType} {s v : List Char} (h : LexemeAt t s v) :
    ∃ c w, s = c :: w ∧ isSpace c = false := by
  cases t with
  | openingParenthesis => exact ⟨_, _, h, rfl⟩
  | closingParenthesis => exact ⟨_, _, h, rfl⟩
  | openingBracket => exact ⟨_, _, h, rfl⟩
  | closingBracket => exact ⟨_, _, h, rfl⟩
  | comma => exact ⟨_, _, h, rfl⟩
  | equals => exact ⟨_, _, h, rfl⟩
  | letT => exact lower_lead h rfl
  | boolean => rcases h with h | h <;> exact lower_lead h rfl
  | string =>
    obtain ⟨items, _, rfl⟩ := h
    exact ⟨_, _, rfl, rfl⟩
  | float =>
    obtain ⟨sg, m, x, rfl, hs, h⟩ := h
    apply sign_lead hs
    apply lead_append
    rcases h with ⟨⟨ds, es, rfl, hd, _⟩, _⟩ | ⟨h, _⟩
    · cases ds with
      | nil => exact ⟨'.', es, rfl, rfl⟩
      | cons c ds => exact ⟨c, _, rfl, digit_not_space (hd c (by simp))⟩
    · exact digits_lead h
  | integer =>
    obtain ⟨sg, m, x, rfl, hs, h⟩ := h
    apply sign_lead hs
    apply lead_append
    rcases h with ⟨h, _⟩ | ⟨h, _⟩
    · exact lower_lead h rfl
    · exact digits_lead h
  | identifier =>
    obtain ⟨c, w, rfl, hc, _⟩ := h
    refine ⟨c, w, rfl, word_not_space ?_⟩
    rcases hc with hc | rfl
    · simp [isWord, hc]
    · rfl

/-- No lexeme at a space. -/
theorem outs_space {t : TokenType} {y : Pos} (h : Lead isSpace y) : (tokenRe t).outs y = [] := by
  cases ho : (tokenRe t).outs y with
  | nil => rfl
  | cons z tl =>
    exfalso
    obtain ⟨c, w, e, hc⟩ := h
    obtain ⟨s, e1, hl⟩ := (den_tokenRe t y z.2).1 ⟨z.1, by rw [ho]; exact List.mem_cons_self ..⟩
    obtain ⟨d, u, rfl, hd⟩ := lexeme_lead hl
    rw [e] at e1
    simp only [List.cons_append, List.cons.injEq] at e1
    rw [e1.1, hd] at hc
    cases hc

theorem matchToken_eq (t : TokenType) (text : List Char) : ∃ p,
    matchToken (tokenRe t) text =
      match (tokenRe t).outs (p, text.dropWhile isSpace) with
      | [] => none
      | y :: _ => some ((text.dropWhile isSpace).take
          ((text.dropWhile isSpace).length - y.2.length), y.2.dropWhile isSpace) := by
  obtain ⟨p, tl, e, htl⟩ := starChr_shape isSpace (none, text)
  refine ⟨p, ?_⟩
  unfold matchToken
  rw [e]
  have hnil : (tl.flatMap fun x => ((tokenRe t).outs x).flatMap fun y =>
      ((Re.star (.chr isSpace)).outs y).map fun z =>
        (x.2.take (x.2.length - y.2.length), z.2)) = [] := by
    rw [List.flatMap_eq_nil_iff]
    intro x hx
    rw [outs_space (htl x hx)]
    rfl
  rw [List.flatMap_cons, hnil, List.append_nil]
  cases ho : (tokenRe t).outs (p, text.dropWhile isSpace) with
  | nil => rfl
  | cons y l =>
    obtain ⟨p', tl', e', _⟩ := starChr_shape isSpace y
    rw [List.flatMap_cons, e']
    rfl

theorem dropWhile_head {q : Char → Bool} (l : List Char) (c : Char) (w : List Char)
    (h : l.dropWhile q = c :: w) : q c = false := by
  induction l with
  | nil => simp at h
  | cons d l ih =>
    by_cases hd : q d = true
    · rw [List.dropWhile_cons_of_pos hd] at h
      exact ih h
    · rw [List.dropWhile_cons_of_neg hd] at h
      cases h
      simpa using hd

theorem takeWhile_all {q : Char → Bool} (l : List Char) : ∀ c ∈ l.takeWhile q, q c = true := by
  intro c hc
  have := List.all_takeWhile (l := l) (p := q)
  exact List.all_eq_true.1 this c hc

/-- Spaces and a text that does not begin with a space. -/
theorem dropWhile_spaces {before u : List Char} (hb : ∀ c ∈ before, isSpace c = true)
    (hu : ∀ c w, u = c :: w → isSpace c = false) :
    (before ++ u).dropWhile isSpace = u := by
  induction before with
  | nil =>
    cases u with
    | nil => rfl
    | cons c w => rw [List.nil_append, List.dropWhile_cons_of_neg (by rw [hu c w rfl]; decide)]
  | cons d before ih =>
    rw [List.cons_append, List.dropWhile_cons_of_pos (hb d (List.mem_cons_self ..))]
    exact ih fun c hc => hb c (List.mem_cons_of_mem _ hc)

/-- The longest lexeme of a type at the beginning of a text. -/
def LongestAt (t : TokenType) (s v : List Char) : Prop :=
  LexemeAt t s v ∧ ∀ s' v', s' ++ v' = s ++ v → LexemeAt t s' v' → s'.length ≤ s.length

theorem matchToken_none {t : TokenType} {text : List Char}
    (h : matchToken (tokenRe t) text = none) (before s v : List Char)
    (e : text = before ++ s ++ v) (hb : ∀ c ∈ before, isSpace c = true) : ¬ LexemeAt t s v := by
  intro hl
  obtain ⟨p, hm⟩ := matchToken_eq t text
  have hd : text.dropWhile isSpace = s ++ v := by
    rw [e, List.append_assoc]
    apply dropWhile_spaces hb
    intro c w hcw
    obtain ⟨d, u, rfl, hd⟩ := lexeme_lead hl
    simp only [List.cons_append, List.cons.injEq] at hcw
    rw [← hcw.1]; exact hd
  rw [hd] at hm
  obtain ⟨p', hp'⟩ := (den_tokenRe t (p, s ++ v) v).2 ⟨s, rfl, hl⟩
  cases ho : (tokenRe t).outs (p, s ++ v) with
  | nil => rw [ho] at hp'; simp at hp'
  | cons y l =>
    rw [ho, h] at hm
    cases hm

theorem matchToken_some {t : TokenType} {text s next : List Char}
    (h : matchToken (tokenRe t) text = some (s, next)) : ∃ before behind,
    text = before ++ s ++ behind ++ next ∧ (∀ c ∈ before, isSpace c = true) ∧
    (∀ c ∈ behind, isSpace c = true) ∧ (∀ c w, next = c :: w → isSpace c = false) ∧
    LongestAt t s (behind ++ next) := by
  obtain ⟨p, hm⟩ := matchToken_eq t text
  rw [h] at hm
  cases ho : (tokenRe t).outs (p, text.dropWhile isSpace) with
  | nil => rw [ho] at hm; cases hm
  | cons y l =>
    rw [ho] at hm
    simp only [Option.some.injEq, Prod.mk.injEq] at hm
    obtain ⟨hs, hn⟩ := hm
    have hy : y ∈ (tokenRe t).outs (p, text.dropWhile isSpace) := by
      rw [ho]; exact List.mem_cons_self ..
    obtain ⟨s', e', hl⟩ := (den_tokenRe t _ y.2).1 ⟨y.1, hy⟩
    simp only at e'
    have hss : s = s' := by
      rw [hs, e', List.length_append, Nat.add_sub_cancel, List.take_left]
    subst hss
    have hyv : y.2.takeWhile isSpace ++ next = y.2 := by
      rw [hn]; exact List.takeWhile_append_dropWhile
    refine ⟨text.takeWhile isSpace, y.2.takeWhile isSpace, ?_, takeWhile_all _, takeWhile_all _,
      ?_, ?_, ?_⟩
    · rw [List.append_assoc, List.append_assoc, hyv, ← e']
      exact List.takeWhile_append_dropWhile.symm
    · intro c w hcw
      exact dropWhile_head y.2 c w (by rw [← hn]; exact hcw)
    · rw [hyv]; exact hl
    · intro s2 v2 e2 h2
      rw [hyv, ← e'] at e2
      obtain ⟨p2, hp2⟩ := (den_tokenRe t (p, text.dropWhile isSpace) v2).2 ⟨s2, e2.symm, h2⟩
      have hord : Ord y (p2, v2) := by
        have hpw := tokenRe_pairwise t (p, text.dropWhile isSpace)
        rw [ho] at hp2 hpw
        rcases List.mem_cons.1 hp2 with e | hmem
        · rw [e]; exact Nat.le_refl _
        · exact (List.pairwise_cons.1 hpw).1 _ hmem
      unfold Ord at hord
      simp only at hord
      have hlen := congrArg List.length e2
      rw [e'] at hlen
      simp only [List.length_append] at hlen
      omega

theorem LongestAt.unique {t : TokenType} {s v s' v' : List Char} (h : LongestAt t s v)
    (h' : LongestAt t s' v') (e : s ++ v = s' ++ v') : s = s' ∧ v = v' := by
  have h1 := h.2 s' v' e.symm h'.1
  have h2 := h'.2 s v e h.1
  exact List.append_inj e (by omega)

/-- The first expression that matches. -/
theorem firstMatch_some {ts : List TokenType} {text : List Char} {tok : Token}
    {next : List Char} (h : firstMatch ts text = some (tok, next)) : ∃ l t r s,
    ts = l ++ t :: r ∧ (∀ t' ∈ l, matchToken (tokenRe t') text = none) ∧
    matchToken (tokenRe t) text = some (s, next) ∧ tok = mkToken s t := by
  induction ts with
  | nil => simp [firstMatch] at h
  | cons t ts ih =>
    unfold firstMatch at h
    cases hm : matchToken (tokenRe t) text with
    | some r =>
      obtain ⟨s, nx⟩ := r
      rw [hm] at h
      simp only [Option.some.injEq, Prod.mk.injEq] at h
      obtain ⟨rfl, rfl⟩ := h
      exact ⟨[], t, ts, s, rfl, by simp, hm, rfl⟩
    | none =>
      rw [hm] at h
      obtain ⟨l, t', r, s, rfl, h1, h2, h3⟩ := ih h
      refine ⟨t :: l, t', r, s, rfl, ?_, h2, h3⟩
      intro u hu
      rcases List.mem_cons.1 hu with rfl | hu
      · exact hm
      · exact h1 u hu

theorem firstMatch_none {ts : List TokenType} {text : List Char}
    (h : firstMatch ts text = none) : ∀ t ∈ ts, matchToken (tokenRe t) text = none := by
  induction ts with
  | nil => simp
  | cons t ts ih =>
    unfold firstMatch at h
    cases hm : matchToken (tokenRe t) text with
    | some r => obtain ⟨s, nx⟩ := r; rw [hm] at h; cases h
    | none =>
      rw [hm] at h
      intro u hu
      rcases List.mem_cons.1 hu with rfl | hu
      · exact hm
      · exact ih h u hu

theorem mem_tokenTypes (t : TokenType) : t ∈ tokenTypes := by cases t <;> decide

theorem tokenTypes_nodup : tokenTypes.Nodup := by decide

theorem split_unique {l l' r r' : List TokenType} {t : TokenType}
    (h : tokenTypes = l ++ t :: r) (h' : tokenTypes = l' ++ t :: r') : l = l' := by
  have hn := tokenTypes_nodup
  have key : ∀ (l l' r r' : List TokenType), (l ++ t :: r).Nodup →
      l ++ t :: r = l' ++ t :: r' → l = l' := by
    intro l
    induction l with
    | nil =>
      intro l' r r' hn e
      cases l' with
      | nil => rfl
      | cons x l' =>
        simp only [List.nil_append, List.cons_append, List.cons.injEq] at e
        exfalso
        have := (List.nodup_cons.1 hn).1
        rw [e.2] at this
        simp at this
    | cons x l ih =>
      intro l' r r' hn e
      cases l' with
      | nil =>
        simp only [List.nil_append, List.cons_append, List.cons.injEq] at e
        exfalso
        have := (List.nodup_cons.1 hn).1
        rw [e.1] at this
        simp at this
      | cons y l' =>
        simp only [List.cons_append, List.cons.injEq] at e
        rw [e.1, ih l' r r' (List.nodup_cons.1 hn).2 e.2]
  exact key l l' r r' (h ▸ hn) (h ▸ h')

theorem tokenText_eq (t : TokenType) (s : List Char) : mkToken s t = ⟨tokenText t s, t⟩ := by
  cases t <;> rfl

/-- One token. -/
theorem firstMatch_spec {text : List Char} {tok : Token} {next : List Char}
    (h : firstMatch tokenTypes text = some (tok, next)) : ∃ before s behind t,
    text = before ++ s ++ behind ++ next ∧ (∀ c ∈ before, isSpace c = true) ∧
    (∀ c ∈ behind, isSpace c = true) ∧ (∀ c w, next = c :: w → isSpace c = false) ∧
    TokenAt t s (behind ++ next) ∧ tok = ⟨tokenText t s, t⟩ := by
  obtain ⟨l, t, r, s, e, h1, h2, rfl⟩ := firstMatch_some h
  obtain ⟨before, behind, rfl, hb, hb', hn, hl⟩ := matchToken_some h2
  refine ⟨before, s, behind, t, rfl, hb, hb', hn, ⟨hl.1, ?_, hl.2⟩, tokenText_eq t s⟩
  intro l' r' e' t' ht' s' v' es'
  rw [← split_unique e e'] at ht'
  exact matchToken_none (h1 t' ht') before s' v'
    (by rw [List.append_assoc before s' v', es']; simp) hb

theorem firstMatch_rest {text : List Char} {tok : Token} {next : List Char}
    (h : firstMatch tokenTypes text = some (tok, next)) : next.length < text.length := by
  obtain ⟨before, s, behind, t, rfl, _, _, _, ht, _⟩ := firstMatch_spec h
  obtain ⟨c, w, rfl, _⟩ := lexeme_lead ht.lexeme
  simp
  omega

/-- Reading a token is deterministic. -/
theorem tokenAt_unique {text before s behind next before' s' behind' next' : List Char}
    {t t' : TokenType}
    (e : text = before ++ s ++ behind ++ next) (e' : text = before' ++ s' ++ behind' ++ next')
    (hb : ∀ c ∈ before, isSpace c = true) (hb' : ∀ c ∈ before', isSpace c = true)
    (h : TokenAt t s (behind ++ next)) (h' : TokenAt t' s' (behind' ++ next'))
    (hh : ∀ c ∈ behind, isSpace c = true) (hh' : ∀ c ∈ behind', isSpace c = true)
    (hn : ∀ c w, next = c :: w → isSpace c = false)
    (hn' : ∀ c w, next' = c :: w → isSpace c = false) :
    t = t' ∧ s = s' ∧ next = next' := by
  have lead : ∀ {s x : List Char} {t : TokenType} {v : List Char}, LexemeAt t s v →
      ∀ c w, s ++ x = c :: w → isSpace c = false := by
    intro s x t v hl c w hcw
    obtain ⟨d, u, rfl, hd⟩ := lexeme_lead hl
    simp only [List.cons_append, List.cons.injEq] at hcw
    rw [← hcw.1]; exact hd
  have e0 : s ++ (behind ++ next) = s' ++ (behind' ++ next') := by
    rw [← dropWhile_spaces hb (lead h.lexeme), ← dropWhile_spaces hb' (lead h'.lexeme)]
    congr 1
    rw [List.append_assoc, List.append_assoc] at e e'
    rw [← e, ← e']
  have ht : t = t' := by
    obtain ⟨l, r, hl⟩ := List.append_of_mem (mem_tokenTypes t)
    obtain ⟨l', r', hl'⟩ := List.append_of_mem (mem_tokenTypes t')
    have hnt : t ∉ l' := fun hm => h'.first l' r' hl' t hm s _ e0 h.lexeme
    have hnt' : t' ∉ l := fun hm => h.first l r hl t' hm s' _ e0.symm h'.lexeme
    rw [hl] at hl'
    rcases List.append_eq_append_iff.1 hl' with ⟨m, e1, e2⟩ | ⟨m, e1, e2⟩
    · cases m with
      | nil => simp only [List.nil_append, List.cons.injEq] at e2; exact e2.1
      | cons x m =>
        simp only [List.cons_append, List.cons.injEq] at e2
        exact absurd (by rw [e1, ← e2.1]; simp) hnt
    · cases m with
      | nil => simp only [List.nil_append, List.cons.injEq] at e2; exact e2.1.symm
      | cons x m =>
        simp only [List.cons_append, List.cons.injEq] at e2
        exact absurd (by rw [e1, ← e2.1]; simp) hnt'
  subst ht
  obtain ⟨rfl, ev⟩ := LongestAt.unique ⟨h.lexeme, h.longest⟩ ⟨h'.lexeme, h'.longest⟩ e0
  refine ⟨rfl, rfl, ?_⟩
  rw [← dropWhile_spaces hh hn, ← dropWhile_spaces hh' hn', ev]

theorem tokenAt_firstMatch {before s behind next : List Char} {t : TokenType}
    (hb : ∀ c ∈ before, isSpace c = true) (h : TokenAt t s (behind ++ next))
    (hh : ∀ c ∈ behind, isSpace c = true) (hn : ∀ c w, next = c :: w → isSpace c = false) :
    firstMatch tokenTypes (before ++ s ++ behind ++ next) = some (⟨tokenText t s, t⟩, next) := by
  cases hm : firstMatch tokenTypes (before ++ s ++ behind ++ next) with
  | none =>
    exact absurd h.lexeme (matchToken_none (firstMatch_none hm t (mem_tokenTypes t)) before s _
      (by simp) hb)
  | some r =>
    obtain ⟨tok, next'⟩ := r
    obtain ⟨before', s', behind', t', e, hb', hh', hn', h', rfl⟩ := firstMatch_spec hm
    obtain ⟨rfl, rfl, rfl⟩ := tokenAt_unique rfl e hb hb' h h' hh hh' hn hn'
    rfl

theorem splitLoop_spec : ∀ (n : Nat) (text : List Char) (acc : List Token),
    text.length ≤ n →
    (∃ toks, LexesTo text toks [] ∧ splitLoop n text acc = .ok (acc.reverse ++ toks)) ∨
    (∃ toks rest, LexesTo text toks rest ∧ Unrecognisable rest ∧
      splitLoop n text acc = .error rest) := by
  intro n
  induction n with
  | zero =>
    intro text acc h
    have : text = [] := List.length_eq_zero_iff.1 (Nat.le_zero.1 h)
    subst this
    exact .inl ⟨[], .done _, by simp [splitLoop]⟩
  | succ n ih =>
    intro text acc h
    cases text with
    | nil => exact .inl ⟨[], .done _, by simp [splitLoop]⟩
    | cons c text =>
      unfold splitLoop
      cases hm : firstMatch tokenTypes (c :: text) with
      | none =>
        refine .inr ⟨[], c :: text, .done _, ⟨by simp, ?_⟩, rfl⟩
        intro before s v t e hb
        exact matchToken_none (firstMatch_none hm t (mem_tokenTypes t)) before s v e hb
      | some r =>
        obtain ⟨tok, next⟩ := r
        have hlen := firstMatch_rest hm
        obtain ⟨before, s, behind, t, e, hb, hh, hn, ht, rfl⟩ := firstMatch_spec hm
        rw [e]
        simp only
        rcases ih next (⟨tokenText t s, t⟩ :: acc) (by simp only [List.length_cons] at h hlen; omega)
          with ⟨toks, h1, h2⟩ | ⟨toks, rest, h1, h2, h3⟩
        · exact .inl ⟨_, .token hb ht hh hn h1, by rw [h2]; simp⟩
        · exact .inr ⟨_, rest, .token hb ht hh hn h1, h2, h3⟩

/-- Splitting a text is deterministic. -/
theorem lexesTo_unique {text : List Char} {toks toks' : List Token} {rest rest' : List Char}
    (h : LexesTo text toks rest) (h' : LexesTo text toks' rest')
    (hr : rest = [] ∨ Unrecognisable rest) (hr' : rest' = [] ∨ Unrecognisable rest') :
    toks = toks' ∧ rest = rest' := by
  have stuck : ∀ {before s behind next : List Char} {t : TokenType},
      (∀ c ∈ before, isSpace c = true) → TokenAt t s (behind ++ next) →
      ¬ (before ++ s ++ behind ++ next = [] ∨ Unrecognisable (before ++ s ++ behind ++ next)) := by
    intro before s behind next t hb ht hr
    rcases hr with hr | hr
    · obtain ⟨c, w, rfl, _⟩ := lexeme_lead ht.lexeme
      simp at hr
    · exact hr.2 before s (behind ++ next) t (by simp) hb ht.lexeme
  induction h generalizing toks' with
  | done rest =>
    cases h' with
    | done => exact ⟨rfl, rfl⟩
    | token hb ht hh hn hl => exact absurd hr (stuck hb ht)
  | @token before s behind next t toks rest hb ht hh hn hl ih =>
    generalize hx : before ++ s ++ behind ++ next = x at h'
    cases h' with
    | done => rw [← hx] at hr'; exact absurd hr' (stuck hb ht)
    | token hb' ht' hh' hn' hl' =>
      obtain ⟨rfl, rfl, rfl⟩ := tokenAt_unique hx.symm rfl hb hb' ht ht' hh hh' hn hn'
      obtain ⟨rfl, rfl⟩ := ih hl' hr
      exact ⟨rfl, rfl⟩

end Verif.Lex
