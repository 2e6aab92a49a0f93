import Verif.Lemmas.Parser

/- Every way to write a configuration is parsed. -/
namespace Verif.Lex

/-- What can follow a configuration inside another one. -/
def Follow (rest : List Token) : Prop := ∀ t r, rest = t :: r →
  t.type = .comma ∨ t.type = .closingParenthesis ∨ t.type = .closingBracket

theorem map_plain_cons {toks : List Token} {t : Token} {l : List Token}
    (h : toks.map Token.plain = t :: l) : ∃ x u, toks = x :: u ∧ x.plain = t ∧
      u.map Token.plain = l := by
  obtain ⟨x, u, rfl, h1, h2⟩ := List.map_eq_cons_iff.1 h
  exact ⟨x, u, rfl, h1, h2⟩

theorem map_plain_append {toks : List Token} {l1 l2 : List Token}
    (h : toks.map Token.plain = l1 ++ l2) : ∃ u1 u2, toks = u1 ++ u2 ∧
      u1.map Token.plain = l1 ∧ u2.map Token.plain = l2 := by
  obtain ⟨u1, u2, rfl, h1, h2⟩ := List.map_eq_append_iff.1 h
  exact ⟨u1, u2, rfl, h1, h2⟩

theorem type_of_plain {x : Token} {t : Token} (h : x.plain = t) : x.type = t.type := by
  rw [← plain_type x, h]

theorem sep_type {x : Token} {t : TokenType} (h : x.plain = sep t) : x.type = t :=
  type_of_plain h

theorem ident_type {x : Token} {c : List Char} (h : x.plain = ⟨c, .identifier⟩) :
    x.type = .identifier := type_of_plain h

theorem popType_cons {x : Token} {t : TokenType} (h : x.type = t) (rest : List Token) :
    popType t (x :: rest) = .ok x rest := by
  simp only [popType, if_pos h]

theorem parseSequence_complete {σ : Type} {func : σ → List Token → PRes σ} {terminal : TokenType}
    {Step : σ → List Token → σ → Prop} (m : Nat)
    (hterm : terminal = .closingParenthesis ∨ terminal = .closingBracket)
    (hstart : ∀ st item st', Step st item st' → ∃ t l, item = t :: l ∧ t.type ∈ startTypes)
    (hf : ∀ st item st' used rest, Step st item st' → used.map Token.plain = item →
      used.length ≤ m → Follow rest → func st (used ++ rest) = .ok st' rest)
    {st st' : σ} {items : List (List Token)} (hs : Steps Step st items st') :
    ∀ (n : Nat) (used : List Token) (t : Token) (r : List Token),
      used.map Token.plain = commas items → t.type = terminal → used.length ≤ n →
      used.length ≤ m →
      parseSequence func terminal n st (used ++ t :: r) = .ok st' (t :: r) := by
  induction hs with
  | nil st =>
    intro n used t r hu ht _ _
    have : used = [] := by simpa [commas] using hu
    subst this
    rw [List.nil_append]
    unfold parseSequence
    rw [if_pos ht]
  | @cons st st1 st2 item items hst hsts ih =>
    intro n used t r hu ht hn hm
    obtain ⟨t0, l0, e0, ht0⟩ := hstart _ _ _ hst
    have hne : ∀ x ∈ startTypes, x ≠ terminal := by
      intro x hx e
      rw [e] at hx
      rcases hterm with h | h <;> rw [h] at hx <;> exact absurd hx (by decide)
    have hfollow : ∀ r, Follow (t :: r) := by
      intro r t' r' e
      simp only [List.cons.injEq] at e
      rw [← e.1, ht]
      rcases hterm with h | h
      · exact .inr (.inl h)
      · exact .inr (.inr h)
    by_cases hitems : items = []
    · subst hitems
      cases hsts
      rw [show commas [item] = item from rfl] at hu
      obtain ⟨x, u, rfl, hx, hu'⟩ := map_plain_cons (hu.trans e0)
      have hxt : ¬ x.type = terminal := hne _ (by rw [type_of_plain hx]; exact ht0)
      cases n with
      | zero => simp at hn
      | succ n =>
        rw [List.cons_append]
        unfold parseSequence
        rw [if_neg hxt]
        have := hf _ _ _ _ (t :: r) hst hu hm (hfollow r)
        rw [List.cons_append] at this
        simp only
        rw [this]
        simp only [PRes.bind, if_pos ht]
    · rw [commas_cons _ hitems] at hu
      obtain ⟨u1, u2, rfl, h1, h2⟩ := map_plain_append hu
      obtain ⟨c, u3, rfl, hc, h3⟩ := map_plain_cons h2
      have hct : c.type = .comma := type_of_plain hc
      obtain ⟨x, u, rfl, hx, hu'⟩ := map_plain_cons (h1.trans e0)
      have hxt : ¬ x.type = terminal := hne _ (by rw [type_of_plain hx]; exact ht0)
      have hcterm : ¬ c.type = terminal := by
        rw [hct]
        rcases hterm with h | h <;> rw [h] <;> decide
      simp only [List.cons_append, List.length_cons, List.length_append] at hn hm
      cases n with
      | zero => omega
      | succ n =>
        simp only [List.cons_append, List.append_assoc]
        unfold parseSequence
        rw [if_neg hxt]
        have := hf _ _ _ _ (c :: (u3 ++ t :: r)) hst h1 (by simp only [List.length_cons]; omega)
          (by
            intro t' r' e
            simp only [List.cons.injEq] at e
            rw [← e.1]
            exact .inl hct)
        rw [List.cons_append] at this
        simp only
        rw [this]
        simp only [PRes.bind, if_neg hcterm, if_pos hct]
        rw [if_neg (by simp)]
        have hnt : ¬ isAt (u3 ++ t :: r) 0 terminal = true := by
          cases hsts with
          | nil => exact absurd rfl hitems
          | @cons _ _ _ item2 items2 hst2 _ =>
            obtain ⟨t1, l1, e1, ht1⟩ := hstart _ _ _ hst2
            have : ∃ y u4, u3 = y :: u4 ∧ y.plain = t1 := by
              cases items2 with
              | nil =>
                rw [show commas [item2] = item2 from rfl] at h3
                obtain ⟨y, u4, rfl, hy, _⟩ := map_plain_cons (h3.trans e1)
                exact ⟨y, u4, rfl, hy⟩
              | cons z items2 =>
                rw [commas_cons _ (by simp), e1] at h3
                obtain ⟨y, u4, rfl, hy, _⟩ := map_plain_cons h3
                exact ⟨y, u4, rfl, hy⟩
            obtain ⟨y, u4, rfl, hy⟩ := this
            have := hne y.type (by rw [type_of_plain hy]; exact ht1)
            simpa [isAt] using this
        rw [if_neg hnt]
        exact ih n u3 t r h3 ht (by omega) (by omega)

/-- A configuration does not begin like a keyword argument. -/
theorem not_keyword {used : List Token} {a : Ast} (hl : a.Legal) (hw : Writes used a)
    {rest : List Token} (hf : Follow rest) :
    (isAt (used ++ rest) 0 .identifier && isAt (used ++ rest) 1 .equals) = false := by
  unfold Writes at hw
  cases a with
  | letNode n d b =>
    rw [Ast.print] at hw
    obtain ⟨x, u, rfl, hx, _⟩ := map_plain_cons hw
    have := type_of_plain hx
    simp [isAt, this, sep]
  | call n p k =>
    rw [Ast.print] at hw
    obtain ⟨x, u, rfl, hx, h1⟩ := map_plain_cons hw
    obtain ⟨y, u', rfl, hy, _⟩ := map_plain_cons h1
    have := type_of_plain hy
    simp [isAt, this, sep]
  | list es =>
    rw [Ast.print] at hw
    obtain ⟨x, u, rfl, hx, _⟩ := map_plain_cons hw
    have := type_of_plain hx
    simp [isAt, this, sep]
  | literal t =>
    rw [Ast.print] at hw
    obtain ⟨x, u, rfl, hx, h1⟩ := map_plain_cons hw
    have : u = [] := by simpa using h1
    subst this
    cases rest with
    | nil => simp [isAt]
    | cons y r =>
      have := hf y r rfl
      rcases this with h | h | h <;> simp [isAt, h]

theorem parseNode_complete : ∀ (fuel : Nat) (a : Ast) (used rest : List Token), a.Legal →
    Writes used a → Follow rest → used.length < fuel →
    parseNode fuel (used ++ rest) = .ok a rest := by
  intro fuel
  induction fuel with
  | zero => intro a used rest _ _ _ h; omega
  | succ fuel ih =>
    intro a used rest hl hw hf hlen
    cases a with
    | literal tok =>
      have hwp : used.map Token.plain = [tok] := by
        have := hw
        unfold Writes at this
        rw [Ast.print] at this
        exact this
      obtain ⟨x, u, rfl, hx, hu⟩ := map_plain_cons hwp
      have : u = [] := by simpa using hu
      subst this
      have ht := type_of_plain hx
      have hmem : x.type ∈ literalTokens := by
        rw [ht]
        rcases hl with h | h | h | h | h <;> rw [h] <;> decide
      have hxt : x = tok := by rw [← hx, plain_literal hmem]
      subst hxt
      have hlit : parseLiteral (x :: rest) = .ok (.literal x) rest := by
        simp only [parseLiteral, pop, PRes.bind, if_pos hmem]
      rw [List.cons_append, List.nil_append]
      unfold parseNode
      simp only
      rcases hl with h | h | h | h | h
      · rw [h]; exact hlit
      · rw [h]; exact hlit
      · rw [h]; exact hlit
      · rw [h]; exact hlit
      · rw [h]
        simp only
        rw [if_neg, hlit]
        cases rest with
        | nil => simp [isAt]
        | cons y r => rcases hf y r rfl with h | h | h <;> simp [isAt, h]
    | letNode name d b =>
      have hw' := hw
      unfold Writes at hw'
      rw [Ast.print] at hw'
      obtain ⟨t1, u1, rfl, h1, hw'⟩ := map_plain_cons hw'
      obtain ⟨t2, u2, rfl, h2, hw'⟩ := map_plain_cons hw'
      obtain ⟨t3, u3, rfl, h3, hw'⟩ := map_plain_cons hw'
      obtain ⟨t4, u4, rfl, h4, hw'⟩ := map_plain_cons hw'
      obtain ⟨u5, u6, rfl, h5, hw'⟩ := map_plain_append hw'
      obtain ⟨t6, u7, rfl, h6, hw'⟩ := map_plain_cons hw'
      obtain ⟨u8, u9, rfl, h8, hw'⟩ := map_plain_append hw'
      obtain ⟨t9, u10, rfl, h9, hw'⟩ := map_plain_cons hw'
      have : u10 = [] := by simpa using hw'
      subst this
      have hc3 : t3.content = name := by
        rw [plain_ident (type_of_plain h3)] at h3
        injection h3
      simp only [List.cons_append, List.length_cons, List.length_append, List.append_assoc,
        List.nil_append] at hlen ⊢
      have n5 := ih d u5 (t6 :: (u8 ++ t9 :: rest)) hl.1 h5 (by
        intro t r e
        simp only [List.cons.injEq] at e
        rw [← e.1]
        exact .inl (type_of_plain h6)) (by omega)
      have n8 := ih b u8 (t9 :: rest) hl.2 h8 (by
        intro t r e
        simp only [List.cons.injEq] at e
        rw [← e.1]
        exact .inr (.inl (type_of_plain h9))) (by omega)
      unfold parseNode
      simp only [type_of_plain h1, sep]
      unfold parseLet
      rw [popType_cons (sep_type h1)]
      simp only [PRes.bind]
      rw [popType_cons (sep_type h2)]
      simp only
      rw [popType_cons (ident_type h3)]
      simp only
      rw [popType_cons (sep_type h4)]
      simp only
      rw [n5]
      simp only
      rw [popType_cons (sep_type h6)]
      simp only
      rw [n8]
      simp only
      rw [popType_cons (sep_type h9)]
      simp only
      rw [hc3]
    | list es =>
      have hw' := hw
      unfold Writes at hw'
      rw [Ast.print] at hw'
      obtain ⟨t1, u1, rfl, h1, hw'⟩ := map_plain_cons hw'
      obtain ⟨u2, u3, rfl, h2, hw'⟩ := map_plain_append hw'
      obtain ⟨t3, u4, rfl, h3, hw'⟩ := map_plain_cons hw'
      have : u4 = [] := by simpa using hw'
      subst this
      simp only [List.cons_append, List.length_cons, List.length_append, List.append_assoc,
        List.nil_append, List.length_nil] at hlen ⊢
      have hseq := parseSequence_complete (Step := ListStep)
        (func := fun elements toks =>
          (parseNode fuel toks).bind fun e toks => .ok (elements ++ [e]) toks)
        (terminal := .closingBracket) u2.length (.inr rfl)
        (by
          rintro st item st' ⟨a, rfl, ha, _⟩
          exact print_head ha)
        (by
          rintro st item st' used rest ⟨a, rfl, ha, rfl⟩ hu hlen' hfol
          rw [ih a used rest ha hu hfol (by omega)]
          rfl)
        (steps_list (Ast.Legal.eq_3 es ▸ hl) []) (u2 ++ t3 :: rest).length u2 t3 rest h2
        (type_of_plain h3) (by simp) (Nat.le_refl _)
      unfold parseNode
      simp only [type_of_plain h1, sep]
      unfold parseList
      rw [popType_cons (sep_type h1)]
      simp only [PRes.bind] at hseq ⊢
      rw [hseq]
      simp only
      rw [popType_cons (sep_type h3)]
      simp only
      rw [List.nil_append]
    | call name pos kw =>
      have hw' := hw
      unfold Writes at hw'
      rw [Ast.print] at hw'
      obtain ⟨t0, u0, rfl, h0, hw'⟩ := map_plain_cons hw'
      obtain ⟨t1, u1, rfl, h1, hw'⟩ := map_plain_cons hw'
      obtain ⟨u2, u3, rfl, h2, hw'⟩ := map_plain_append hw'
      obtain ⟨t3, u4, rfl, h3, hw'⟩ := map_plain_cons hw'
      have : u4 = [] := by simpa using hw'
      subst this
      have hc0 : t0.content = name := by
        rw [plain_ident (type_of_plain h0)] at h0
        injection h0
      simp only [List.cons_append, List.length_cons, List.length_append, List.append_assoc,
        List.nil_append, List.length_nil] at hlen ⊢
      obtain ⟨hl1, hl2, hl3⟩ : Ast.AllLegal pos ∧ Ast.KeywordLegal kw ∧ (kw.map Prod.fst).Nodup := by
        simpa only [Ast.Legal] using hl
      have hseq := parseSequence_complete (Step := ArgStep)
        (func := parseArgument (parseNode fuel))
        (terminal := .closingParenthesis) u2.length (.inl rfl)
        (by
          rintro st item st' (⟨_, a, rfl, ha, _⟩ | ⟨k, a, rfl, _⟩)
          · exact print_head ha
          · exact ⟨_, _, rfl, show TokenType.identifier ∈ startTypes by decide⟩)
        (by
          rintro st item st' used rest (⟨hk, a, rfl, ha, rfl⟩ | ⟨k, a, rfl, ha, hk, rfl⟩) hu hlen' hfol
          · unfold parseArgument
            rw [not_keyword ha hu hfol]
            simp only [Bool.false_eq_true, if_false]
            rw [if_neg (by rw [hk]; simp), ih a used rest ha hu hfol (by omega)]
            simp only [PRes.bind, hk]
          · obtain ⟨s1, v1, rfl, g1, hu⟩ := map_plain_cons hu
            obtain ⟨s2, v2, rfl, g2, hu⟩ := map_plain_cons hu
            have hc1 : s1.content = k := by
              rw [plain_ident (type_of_plain g1)] at g1
              injection g1
            simp only [List.length_cons] at hlen'
            unfold parseArgument
            simp only [List.cons_append]
            rw [if_pos (by simp [isAt, type_of_plain g1, type_of_plain g2, sep])]
            simp only [pop, PRes.bind]
            rw [popType_cons (sep_type g2)]
            simp only
            rw [if_neg, ih a v2 rest ha hu hfol (by omega), hc1]
            rw [List.any_eq_true]
            rintro ⟨kv, hkv, e⟩
            apply hk
            rw [List.mem_map]
            exact ⟨kv, hkv, by rw [beq_iff_eq] at e; rw [e, hc1]⟩)
        (steps_arg hl1 hl2 hl3 []) (u2 ++ t3 :: rest).length u2 t3 rest h2
        (type_of_plain h3) (by simp) (Nat.le_refl _)
      unfold parseNode
      simp only [type_of_plain h0]
      rw [if_pos (by simp [isAt, type_of_plain h1, sep])]
      unfold parseFunction
      rw [popType_cons (ident_type h0)]
      simp only [PRes.bind] at hseq ⊢
      rw [popType_cons (sep_type h1)]
      simp only
      rw [hseq]
      simp only
      rw [popType_cons (sep_type h3)]
      simp only
      rw [List.nil_append, hc0]

end Verif.Lex
