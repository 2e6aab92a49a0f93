import Verif.Spec.Parser

/- Helper lemmas for the syntax analysis. -/
namespace Verif.Lex

theorem bind_ok {α β : Type} {r : PRes α} {f : α → List Token → PRes β} {b : β}
    {rest : List Token} (h : r.bind f = .ok b rest) :
    ∃ a r', r = .ok a r' ∧ f a r' = .ok b rest := by
  cases r with
  | ok a r' => exact ⟨a, r', rfl, h⟩
  | error => cases h
  | loops => cases h

theorem popType_ok {t : TokenType} {toks : List Token} {tok : Token} {rest : List Token}
    (h : popType t toks = .ok tok rest) : toks = tok :: rest ∧ tok.type = t := by
  cases toks with
  | nil => cases h
  | cons x toks =>
    by_cases ht : x.type = t
    · simp only [popType, if_pos ht, PRes.ok.injEq] at h
      exact ⟨by rw [h.1, h.2], h.1 ▸ ht⟩
    · simp only [popType, if_neg ht] at h
      cases h

theorem pop_ok {toks : List Token} {tok : Token} {rest : List Token}
    (h : pop toks = .ok tok rest) : toks = tok :: rest := by
  cases toks with
  | nil => cases h
  | cons x toks => cases h; rfl

theorem plain_sep {tok : Token} {t : TokenType} (h : tok.type = t)
    (ht : t ∉ literalTokens) : tok.plain = sep t := by
  subst h
  unfold Token.plain sep
  cases e : tok.type <;> first | rfl | exact absurd (by rw [e]; decide) ht

theorem plain_literal {tok : Token} (h : tok.type ∈ literalTokens) : tok.plain = tok := by
  unfold Token.plain
  cases e : tok.type <;> first | rfl | (rw [e] at h; exact absurd h (by decide))

theorem plain_type (tok : Token) : tok.plain.type = tok.type := by
  unfold Token.plain
  cases e : tok.type <;> first | rfl | exact e

theorem plain_ident {tok : Token} (h : tok.type = .identifier) :
    tok.plain = ⟨tok.content, .identifier⟩ := by
  rw [plain_literal (by rw [h]; decide), ← h]

theorem commas_cons (x : List Token) {l : List (List Token)} (h : l ≠ []) :
    commas (x :: l) = x ++ sep .comma :: commas l := by
  cases l with
  | nil => exact absurd rfl h
  | cons y l => rfl

/-- The elements of a sequence are stored one after the other. -/
inductive Steps {σ : Type} (Step : σ → List Token → σ → Prop) : σ → List (List Token) → σ → Prop
  | nil (st) : Steps Step st [] st
  | cons {st st1 st2 item items} : Step st item st1 → Steps Step st1 items st2 →
      Steps Step st (item :: items) st2

theorem parseSequence_sound {σ : Type} {func : σ → List Token → PRes σ} {terminal : TokenType}
    {Step : σ → List Token → σ → Prop}
    (hf : ∀ st toks st' rest, func st toks = .ok st' rest → ∃ used item, toks = used ++ rest ∧
      used.map Token.plain = item ∧ Step st item st') :
    ∀ (n : Nat) (st : σ) (toks : List Token) (st' : σ) (rest : List Token),
      parseSequence func terminal n st toks = .ok st' rest →
      ∃ used items, toks = used ++ rest ∧ used.map Token.plain = commas items ∧
        Steps Step st items st' ∧ ∃ t r, rest = t :: r ∧ t.type = terminal := by
  intro n
  induction n with
  | zero =>
    intro st toks st' rest h
    cases toks with
    | nil => cases h
    | cons tok toks =>
      unfold parseSequence at h
      split at h
      · rename_i ht
        cases h
        exact ⟨[], [], rfl, rfl, .nil _, tok, toks, rfl, ht⟩
      · cases h
  | succ n ih =>
    intro st toks st' rest h
    cases toks with
    | nil => cases h
    | cons tok toks =>
      unfold parseSequence at h
      split at h
      · rename_i ht
        cases h
        exact ⟨[], [], rfl, rfl, .nil _, tok, toks, rfl, ht⟩
      · obtain ⟨st1, r1, h1, h2⟩ := bind_ok h
        obtain ⟨used, item, e1, e2, hst⟩ := hf _ _ _ _ h1
        cases r1 with
        | nil => cases h2
        | cons next r2 =>
          simp only at h2
          split at h2
          · rename_i ht
            cases h2
            exact ⟨used, [item], e1, e2, .cons hst (.nil _), next, r2, rfl, ht⟩
          · split at h2
            · rename_i hc
              split at h2
              · cases h2
              · rename_i hne
                split at h2
                · cases h2
                · rename_i hterm
                  obtain ⟨used', items, e3, e4, hsts, t, r, e5, e6⟩ := ih _ _ _ _ h2
                  have hitems : items ≠ [] := by
                    rintro rfl
                    apply hterm
                    have : used' = [] := by simpa [commas] using e4
                    rw [e3, this, e5]
                    simp [isAt, e6]
                  refine ⟨used ++ next :: used', item :: items, ?_, ?_, .cons hst hsts,
                    t, r, e5, e6⟩
                  · rw [e1, e3]; simp
                  · rw [commas_cons _ hitems, List.map_append, List.map_cons, e2, e4,
                      plain_sep hc (by decide)]
            · cases h2

/-- The elements of a list. -/
def ListStep (st : List Ast) (item : List Token) (st' : List Ast) : Prop :=
  ∃ a : Ast, item = a.print ∧ a.Legal ∧ st' = st ++ [a]

/-- The arguments of a function. -/
def ArgStep (st : Args) (item : List Token) (st' : Args) : Prop :=
  (st.2 = [] ∧ ∃ a : Ast, item = a.print ∧ a.Legal ∧ st' = (st.1 ++ [a], [])) ∨
  (∃ k, ∃ a : Ast, item = ⟨k, .identifier⟩ :: sep .equals :: a.print ∧ a.Legal ∧
    k ∉ st.2.map Prod.fst ∧ st' = (st.1, st.2 ++ [(k, a)]))

theorem list_steps {st st' : List Ast} {items : List (List Token)}
    (h : Steps ListStep st items st') :
    ∃ l, st' = st ++ l ∧ items = Ast.printAll l ∧ Ast.AllLegal l := by
  induction h with
  | nil st => exact ⟨[], by simp, rfl, trivial⟩
  | cons hs _ ih =>
    obtain ⟨a, rfl, ha, rfl⟩ := hs
    obtain ⟨l, rfl, rfl, hl⟩ := ih
    exact ⟨a :: l, by simp, rfl, ha, hl⟩

theorem steps_list {l : List Ast} (h : Ast.AllLegal l) (st : List Ast) :
    Steps ListStep st (Ast.printAll l) (st ++ l) := by
  induction l generalizing st with
  | nil => rw [List.append_nil]; exact .nil _
  | cons a l ih =>
    have := ih h.2 (st ++ [a])
    rw [List.append_assoc] at this
    exact .cons ⟨a, rfl, h.1, rfl⟩ this

theorem arg_steps {st st' : Args} {items : List (List Token)}
    (h : Steps ArgStep st items st') :
    ∃ l1 l2, st' = (st.1 ++ l1, st.2 ++ l2) ∧ items = Ast.printAll l1 ++ Ast.printKeyword l2 ∧
      (st.2 ≠ [] → l1 = []) ∧ Ast.AllLegal l1 ∧ Ast.KeywordLegal l2 ∧
      ((st.2.map Prod.fst).Nodup → (st'.2.map Prod.fst).Nodup) := by
  induction h with
  | nil st => exact ⟨[], [], by simp, rfl, fun _ => rfl, trivial, trivial, id⟩
  | @cons st st1 st2 item items hs _ ih =>
    obtain ⟨l1, l2, e, e2, h1, h2, h3, h4⟩ := ih
    rcases hs with ⟨hk, a, rfl, ha, rfl⟩ | ⟨k, a, rfl, ha, hk, rfl⟩
    · refine ⟨a :: l1, l2, ?_, ?_, ?_, ⟨ha, h2⟩, h3, ?_⟩
      · rw [e, hk]; simp
      · rw [e2]; rfl
      · intro h; exact absurd hk h
      · intro _; exact h4 (by simp)
    · have hl1 : l1 = [] := h1 (by simp)
      subst hl1
      refine ⟨[], (k, a) :: l2, ?_, ?_, fun _ => rfl, trivial, ⟨ha, h3⟩, ?_⟩
      · rw [e]; simp
      · rw [e2]; rfl
      · intro hn
        apply h4
        simp only [List.map_append, List.map_cons, List.map_nil]
        rw [List.nodup_append]
        refine ⟨hn, by simp, ?_⟩
        intro x hx y hy
        rw [List.mem_singleton.1 hy]
        intro e
        exact hk (e ▸ hx)

theorem steps_keyword {l : List (List Char × Ast)} (h : Ast.KeywordLegal l) (st : Args)
    (hn : ((st.2 ++ l).map Prod.fst).Nodup) :
    Steps ArgStep st (Ast.printKeyword l) (st.1, st.2 ++ l) := by
  induction l generalizing st with
  | nil => rw [List.append_nil]; exact .nil _
  | cons ka l ih =>
    obtain ⟨k, a⟩ := ka
    have := ih h.2 (st.1, st.2 ++ [(k, a)]) (by simpa using hn)
    rw [List.append_assoc] at this
    refine .cons (.inr ⟨k, a, rfl, h.1, ?_, rfl⟩) this
    rw [List.map_append, List.nodup_append] at hn
    intro hk
    exact hn.2.2 k hk k (by simp) rfl

theorem steps_arg {l1 : List Ast} {l2 : List (List Char × Ast)} (h1 : Ast.AllLegal l1)
    (h2 : Ast.KeywordLegal l2) (hn : (l2.map Prod.fst).Nodup) (st : List Ast) :
    Steps ArgStep (st, []) (Ast.printAll l1 ++ Ast.printKeyword l2) (st ++ l1, l2) := by
  induction l1 generalizing st with
  | nil =>
    rw [List.append_nil]
    exact steps_keyword h2 (st, []) hn
  | cons a l1 ih =>
    have := ih h1.2 (st ++ [a])
    rw [List.append_assoc] at this
    exact .cons (.inl ⟨rfl, a, rfl, h1.1, rfl⟩) this

theorem parseArgument_sound {node : List Token → PRes Ast}
    (hn : ∀ toks a rest, node toks = .ok a rest → ∃ used, toks = used ++ rest ∧
      Writes used a ∧ a.Legal)
    (st : Args) (toks : List Token) (st' : Args) (rest : List Token)
    (h : parseArgument node st toks = .ok st' rest) : ∃ used item, toks = used ++ rest ∧
      used.map Token.plain = item ∧ ArgStep st item st' := by
  unfold parseArgument at h
  split at h
  · rename_i hk
    obtain ⟨name, r1, h1, h2⟩ := bind_ok h
    obtain ⟨eq, r2, h3, h4⟩ := bind_ok h2
    split at h4
    · cases h4
    · rename_i hnew
      obtain ⟨a, r3, h5, h6⟩ := bind_ok h4
      cases h6
      have e1 := pop_ok h1
      obtain ⟨e2, t2⟩ := popType_ok h3
      obtain ⟨used, e3, hw, ha⟩ := hn _ _ _ h5
      have ht : name.type = .identifier := by
        rw [Bool.and_eq_true] at hk
        have := hk.1
        rw [e1] at this
        simpa [isAt] using this
      refine ⟨name :: eq :: used, _, by rw [e1, e2, e3]; rfl, rfl, .inr ⟨name.content, a, ?_, ha,
        ?_, rfl⟩⟩
      · rw [List.map_cons, List.map_cons, hw, plain_ident ht, plain_sep t2 (by decide)]
      · intro hm
        obtain ⟨kv, hkv, e⟩ := List.mem_map.1 hm
        apply hnew
        rw [List.any_eq_true]
        exact ⟨kv, hkv, by rw [e]; simp⟩
  · split at h
    · cases h
    · rename_i hk
      obtain ⟨a, r3, h5, h6⟩ := bind_ok h
      cases h6
      obtain ⟨used, e3, hw, ha⟩ := hn _ _ _ h5
      have hk' : st.2 = [] := by
        cases hst : st.2 with
        | nil => rfl
        | cons x l => exact absurd (by rw [hst]; simp) hk
      exact ⟨used, _, e3, rfl, .inl ⟨hk', a, hw, ha, by rw [hk']⟩⟩

theorem parseLiteral_ok {toks : List Token} {a : Ast} {rest : List Token}
    (h : parseLiteral toks = .ok a rest) : ∃ tok, toks = tok :: rest ∧ a = .literal tok ∧
      tok.type ∈ literalTokens := by
  obtain ⟨tok, r, h1, h2⟩ := bind_ok h
  split at h2
  · rename_i ht
    cases h2
    exact ⟨tok, pop_ok h1, rfl, ht⟩
  · cases h2

theorem literal_legal {tok : Token} (h : tok.type ∈ literalTokens) :
    (Ast.literal tok).Legal := by
  simp only [literalTokens, List.mem_cons, List.not_mem_nil, or_false] at h
  exact h

theorem parseNode_sound : ∀ (fuel : Nat) (toks : List Token) (a : Ast) (rest : List Token),
    parseNode fuel toks = .ok a rest → ∃ used, toks = used ++ rest ∧ Writes used a ∧ a.Legal := by
  intro fuel
  induction fuel with
  | zero => intro toks a rest h; cases h
  | succ fuel ih =>
    intro toks a rest h
    have lit : parseLiteral toks = .ok a rest →
        ∃ used, toks = used ++ rest ∧ Writes used a ∧ a.Legal := by
      intro h
      obtain ⟨tok, rfl, rfl, ht⟩ := parseLiteral_ok h
      refine ⟨[tok], rfl, ?_, literal_legal ht⟩
      show [tok.plain] = _
      rw [plain_literal ht]
      simp [Ast.print]
    cases toks with
    | nil => cases h
    | cons tok toks =>
      unfold parseNode at h
      simp only at h
      split at h
      · -- list
        obtain ⟨t1, r1, h1, h2⟩ := bind_ok h
        obtain ⟨es, r2, h3, h4⟩ := bind_ok h2
        obtain ⟨t2, r3, h5, h6⟩ := bind_ok h4
        cases h6
        obtain ⟨e1, ht1⟩ := popType_ok h1
        obtain ⟨e2, ht2⟩ := popType_ok h5
        obtain ⟨used, items, e3, e4, hst, _⟩ := parseSequence_sound (Step := ListStep) (by
          intro st toks st' rest hh
          obtain ⟨e, r, h7, h8⟩ := bind_ok hh
          cases h8
          obtain ⟨used, e3, hw, ha⟩ := ih _ _ _ h7
          exact ⟨used, _, e3, rfl, e, hw, ha, rfl⟩) _ _ _ _ _ h3
        obtain ⟨l, rfl, rfl, hl⟩ := list_steps hst
        refine ⟨t1 :: (used ++ [t2]), ?_, ?_, ?_⟩
        · rw [e1, e3, e2]; simp
        · unfold Writes
          rw [List.map_cons, List.map_append, e4, plain_sep ht1 (by decide)]
          simp [Ast.print, plain_sep ht2 (by decide)]
        · simpa [Ast.Legal] using hl
      · -- let
        obtain ⟨t1, r1, h1, h⟩ := bind_ok h
        obtain ⟨t2, r2, h2, h⟩ := bind_ok h
        obtain ⟨name, r3, h3, h⟩ := bind_ok h
        obtain ⟨t4, r4, h4, h⟩ := bind_ok h
        obtain ⟨d, r5, h5, h⟩ := bind_ok h
        obtain ⟨t6, r6, h6, h⟩ := bind_ok h
        obtain ⟨b, r7, h7, h⟩ := bind_ok h
        obtain ⟨t8, r8, h8, h⟩ := bind_ok h
        cases h
        obtain ⟨e1, ht1⟩ := popType_ok h1
        obtain ⟨e2, ht2⟩ := popType_ok h2
        obtain ⟨e3, ht3⟩ := popType_ok h3
        obtain ⟨e4, ht4⟩ := popType_ok h4
        obtain ⟨e6, ht6⟩ := popType_ok h6
        obtain ⟨e8, ht8⟩ := popType_ok h8
        obtain ⟨u5, e5, hw5, hl5⟩ := ih _ _ _ h5
        obtain ⟨u7, e7, hw7, hl7⟩ := ih _ _ _ h7
        refine ⟨t1 :: t2 :: name :: t4 :: (u5 ++ t6 :: (u7 ++ [t8])), ?_, ?_, ?_⟩
        · rw [e1, e2, e3, e4, e5, e6, e7, e8]; simp
        · unfold Writes at hw5 hw7 ⊢
          simp only [List.map_cons, List.map_append, hw5, hw7, plain_sep ht1 (by decide),
            plain_sep ht2 (by decide), plain_ident ht3, plain_sep ht4 (by decide),
            plain_sep ht6 (by decide), plain_sep ht8 (by decide), Ast.print, List.map_nil]
        · exact ⟨hl5, hl7⟩
      all_goals try exact lit h
      · -- identifier
        split at h
        · obtain ⟨name, r1, h1, h⟩ := bind_ok h
          obtain ⟨t2, r2, h2, h⟩ := bind_ok h
          obtain ⟨args, r3, h3, h⟩ := bind_ok h
          obtain ⟨t4, r4, h4, h⟩ := bind_ok h
          cases h
          obtain ⟨e1, ht1⟩ := popType_ok h1
          obtain ⟨e2, ht2⟩ := popType_ok h2
          obtain ⟨e4, ht4⟩ := popType_ok h4
          obtain ⟨used, items, e3, e5, hst, _⟩ :=
            parseSequence_sound (parseArgument_sound ih) _ _ _ _ _ h3
          obtain ⟨l1, l2, rfl, rfl, _, hl1, hl2, hnd⟩ := arg_steps hst
          refine ⟨name :: t2 :: (used ++ [t4]), ?_, ?_, ?_⟩
          · rw [e1, e2, e3, e4]; simp
          · unfold Writes
            simp only [List.map_cons, List.map_append, e5, plain_ident ht1,
              plain_sep ht2 (by decide), plain_sep ht4 (by decide), Ast.print, List.map_nil,
              List.nil_append]
          · exact ⟨hl1, hl2, hnd (by simp)⟩
        · exact lit h
      · cases h

theorem writes_length {toks : List Token} {a : Ast} (h : Writes toks a) :
    toks.length = a.print.length := by
  rw [← h, List.length_map]

/-- The token types a configuration can begin with. -/
def startTypes : List TokenType :=
  [.openingBracket, .letT, .boolean, .string, .integer, .float, .identifier]

theorem print_head {a : Ast} (h : a.Legal) : ∃ t l, a.print = t :: l ∧ t.type ∈ startTypes := by
  cases a with
  | letNode n d b => exact ⟨_, _, by rw [Ast.print], by decide⟩
  | call n p k => exact ⟨_, _, by rw [Ast.print], show TokenType.identifier ∈ startTypes by decide⟩
  | list es => exact ⟨_, _, by rw [Ast.print], by decide⟩
  | literal t =>
    refine ⟨t, [], by rw [Ast.print], ?_⟩
    rcases h with h | h | h | h | h <;> rw [h] <;> decide

/-- Parsing a node consumes a token. -/
theorem parseNode_rest {fuel : Nat} {toks : List Token} {a : Ast} {rest : List Token}
    (h : parseNode fuel toks = .ok a rest) : rest.length < toks.length := by
  obtain ⟨used, rfl, hw, hl⟩ := parseNode_sound fuel toks a rest h
  obtain ⟨t, l, e, _⟩ := print_head hl
  have := writes_length hw
  rw [e] at this
  simp at this ⊢
  omega

theorem bind_loops {α β : Type} {r : PRes α} {f : α → List Token → PRes β}
    (h : r.bind f = .loops) : r = .loops ∨ ∃ a r', r = .ok a r' ∧ f a r' = .loops := by
  cases r with
  | ok a r' => exact .inr ⟨a, r', rfl, h⟩
  | error => cases h
  | loops => exact .inl rfl

theorem popType_loops (t : TokenType) (toks : List Token) : popType t toks ≠ .loops := by
  intro h
  cases toks with
  | nil => cases h
  | cons x toks =>
    by_cases ht : x.type = t
    · simp only [popType, if_pos ht] at h
      cases h
    · simp only [popType, if_neg ht] at h
      cases h

theorem pop_loops (toks : List Token) : pop toks ≠ .loops := by
  intro h
  cases toks <;> cases h

theorem parseSequence_loops {σ : Type} {func : σ → List Token → PRes σ} {terminal : TokenType}
    (m : Nat)
    (hf : ∀ st toks, toks.length ≤ m → func st toks ≠ .loops)
    (hr : ∀ st toks st' rest, func st toks = .ok st' rest → rest.length < toks.length) :
    ∀ (n : Nat) (st : σ) (toks : List Token), toks.length ≤ n → toks.length ≤ m →
      parseSequence func terminal n st toks ≠ .loops := by
  intro n
  induction n with
  | zero =>
    intro st toks hn hm h
    have : toks = [] := List.length_eq_zero_iff.1 (Nat.le_zero.1 hn)
    subst this
    cases h
  | succ n ih =>
    intro st toks hn hm h
    cases toks with
    | nil => cases h
    | cons tok toks =>
      unfold parseSequence at h
      split at h
      · cases h
      · rcases bind_loops h with h | ⟨st', rest, h1, h2⟩
        · exact hf _ _ hm h
        · have hlen := hr _ _ _ _ h1
          cases rest with
          | nil => cases h2
          | cons next rest =>
            simp only at h2
            split at h2
            · cases h2
            · split at h2
              · split at h2
                · cases h2
                · split at h2
                  · cases h2
                  · simp only [List.length_cons] at hn hm hlen
                    exact ih st' rest (by omega) (by omega) h2
              · cases h2

theorem parseLiteral_loops (toks : List Token) : parseLiteral toks ≠ .loops := by
  intro h
  rcases bind_loops h with h | ⟨a, r, _, h⟩
  · exact pop_loops _ h
  · split at h <;> cases h

theorem parseNode_loops : ∀ (fuel : Nat) (toks : List Token), toks.length < fuel →
    parseNode fuel toks ≠ .loops := by
  intro fuel
  induction fuel with
  | zero => intro toks h; omega
  | succ fuel ih =>
    intro toks hlen h
    cases toks with
    | nil => cases h
    | cons tok toks =>
      unfold parseNode at h
      simp only [List.length_cons] at hlen
      simp only at h
      split at h
      · rcases bind_loops h with h | ⟨t1, r1, h1, h⟩
        · exact popType_loops _ _ h
        · have e1 := (popType_ok h1).1
          simp only [List.cons.injEq] at e1
          rcases bind_loops h with h | ⟨es, r2, h2, h⟩
          · refine parseSequence_loops toks.length ?_ ?_ _ _ _ (Nat.le_refl _)
              (by rw [e1.2]; exact Nat.le_refl _) h
            · intro st toks' hl hh
              rcases bind_loops hh with hh | ⟨_, _, _, hh⟩
              · exact ih toks' (by omega) hh
              · cases hh
            · intro st toks' st' rest hh
              obtain ⟨e, r, h7, h8⟩ := bind_ok hh
              cases h8
              exact parseNode_rest h7
          · rcases bind_loops h with h | ⟨_, _, _, h⟩
            · exact popType_loops _ _ h
            · cases h
      · rcases bind_loops h with h | ⟨t1, r1, h1, h⟩
        · exact popType_loops _ _ h
        rcases bind_loops h with h | ⟨t2, r2, h2, h⟩
        · exact popType_loops _ _ h
        rcases bind_loops h with h | ⟨t3, r3, h3, h⟩
        · exact popType_loops _ _ h
        rcases bind_loops h with h | ⟨t4, r4, h4, h⟩
        · exact popType_loops _ _ h
        have e1 := congrArg List.length (popType_ok h1).1
        have e2 := congrArg List.length (popType_ok h2).1
        have e3 := congrArg List.length (popType_ok h3).1
        have e4 := congrArg List.length (popType_ok h4).1
        simp only [List.length_cons] at e1 e2 e3 e4
        rcases bind_loops h with h | ⟨t5, r5, h5, h⟩
        · exact ih _ (by omega) h
        have e5 := parseNode_rest h5
        rcases bind_loops h with h | ⟨t6, r6, h6, h⟩
        · exact popType_loops _ _ h
        have e6 := congrArg List.length (popType_ok h6).1
        simp only [List.length_cons] at e6
        rcases bind_loops h with h | ⟨t7, r7, h7, h⟩
        · exact ih _ (by omega) h
        rcases bind_loops h with h | ⟨t8, r8, h8, h⟩
        · exact popType_loops _ _ h
        · cases h
      all_goals try exact parseLiteral_loops _ h
      · split at h
        · rcases bind_loops h with h | ⟨t1, r1, h1, h⟩
          · exact popType_loops _ _ h
          rcases bind_loops h with h | ⟨t2, r2, h2, h⟩
          · exact popType_loops _ _ h
          have e1 := congrArg List.length (popType_ok h1).1
          have e2 := congrArg List.length (popType_ok h2).1
          simp only [List.length_cons] at e1 e2
          rcases bind_loops h with h | ⟨args, r3, h3, h⟩
          · refine parseSequence_loops r2.length ?_ ?_ _ _ _ (Nat.le_refl _)
              (Nat.le_refl _) h
            · intro st toks' hl hh
              unfold parseArgument at hh
              split at hh
              · rcases bind_loops hh with hh | ⟨s1, q1, g1, hh⟩
                · exact pop_loops _ hh
                rcases bind_loops hh with hh | ⟨s2, q2, g2, hh⟩
                · exact popType_loops _ _ hh
                have f1 := congrArg List.length (pop_ok g1)
                have f2 := congrArg List.length (popType_ok g2).1
                simp only [List.length_cons] at f1 f2
                split at hh
                · cases hh
                · rcases bind_loops hh with hh | ⟨_, _, _, hh⟩
                  · exact ih _ (by omega) hh
                  · cases hh
              · split at hh
                · cases hh
                · rcases bind_loops hh with hh | ⟨_, _, _, hh⟩
                  · exact ih _ (by omega) hh
                  · cases hh
            · intro st toks' st' rest hh
              unfold parseArgument at hh
              split at hh
              · obtain ⟨s1, q1, g1, hh⟩ := bind_ok hh
                obtain ⟨s2, q2, g2, hh⟩ := bind_ok hh
                have f1 := congrArg List.length (pop_ok g1)
                have f2 := congrArg List.length (popType_ok g2).1
                simp only [List.length_cons] at f1 f2
                split at hh
                · cases hh
                · obtain ⟨s3, q3, g3, hh⟩ := bind_ok hh
                  cases hh
                  have := parseNode_rest g3
                  omega
              · split at hh
                · cases hh
                · obtain ⟨s3, q3, g3, hh⟩ := bind_ok hh
                  cases hh
                  exact parseNode_rest g3
          · rcases bind_loops h with h | ⟨_, _, _, h⟩
            · exact popType_loops _ _ h
            · cases h
        · exact parseLiteral_loops _ h
      · cases h

end Verif.Lex
