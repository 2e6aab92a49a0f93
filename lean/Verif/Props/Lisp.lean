import Verif.Model.Lisp

/-
C86: reading the nested lists of PDDL files.
-/
namespace Verif.Lisp

/-! ### Lines -/

/-- `splitSpace` after `expand` -/
def tok (cur s : List Char) : List Word := splitSpace cur (expand s)

theorem tok_nil (cur : List Char) : tok cur [] = emit cur := rfl

theorem expand_cons (c : Char) (s : List Char) : expand (c :: s) = (if c = '(' then [' ', '(', ' '] else if c = ')' then [' ', ')', ' '] else if c = '?' then [' ', '?'] else [c]) ++ expand s := by
  unfold expand replace
  simp only [List.flatMap_cons, List.flatMap_append]
  congr 1
  by_cases h1 : c = '('
  · subst h1
    decide
  · by_cases h2 : c = ')'
    · subst h2
      decide
    · by_cases h3 : c = '?'
      · subst h3
        decide
      · simp [h1, h2, h3]

theorem tok_open (cur s : List Char) : tok cur ('(' :: s) = emit cur ++ ['('] :: tok [] s := by
  unfold tok
  rw [expand_cons]
  simp [splitSpace, isSpace, emit]

theorem tok_close (cur s : List Char) : tok cur (')' :: s) = emit cur ++ [')'] :: tok [] s := by
  unfold tok
  rw [expand_cons]
  simp [splitSpace, isSpace, emit]

theorem tok_question (cur s : List Char) : tok cur ('?' :: s) = emit cur ++ tok ['?'] s := by
  unfold tok
  rw [expand_cons]
  simp [splitSpace, isSpace]

theorem space_ne {c : Char} (h : isSpace c = true) : c ≠ '(' ∧ c ≠ ')' ∧ c ≠ '?' := by
  refine ⟨?_, ?_, ?_⟩ <;> rintro rfl <;> simp [isSpace] at h

theorem tok_space (cur s : List Char) {c : Char} (h : isSpace c = true) : tok cur (c :: s) = emit cur ++ tok [] s := by
  obtain ⟨h1, h2, h3⟩ := space_ne h
  unfold tok
  rw [expand_cons, if_neg h1, if_neg h2, if_neg h3]
  simp [splitSpace, h]

theorem tok_inner (cur s : List Char) {c : Char} (h : Inner c) : tok cur (c :: s) = tok (cur ++ [c]) s := by
  obtain ⟨h0, h1, h2, h3⟩ := h
  unfold tok
  rw [expand_cons, if_neg h1, if_neg h2, if_neg h3]
  simp [splitSpace, h0]

theorem tok_inners (cur s : List Char) : ∀ {w : List Char}, (∀ x ∈ w, Inner x) → tok cur (w ++ s) = tok (cur ++ w) s := by
  intro w
  induction w generalizing cur with
  | nil => simp
  | cons c w ih =>
    intro h
    rw [List.cons_append, tok_inner _ _ (h c List.mem_cons_self), ih _ (fun x hx => h x (List.mem_cons_of_mem _ hx))]
    simp

/-- the kinds of characters -/
theorem char_cases (c : Char) : isSpace c = true ∨ c = '(' ∨ c = ')' ∨ c = '?' ∨ Inner c := by
  by_cases h0 : isSpace c = true
  · exact .inl h0
  · by_cases h1 : c = '('
    · exact .inr (.inl h1)
    · by_cases h2 : c = ')'
      · exact .inr (.inr (.inl h2))
      · by_cases h3 : c = '?'
        · exact .inr (.inr (.inr (.inl h3)))
        · exact .inr (.inr (.inr (.inr ⟨by simpa using h0, h1, h2, h3⟩)))

theorem tok_ends {cur s : List Char} (hc : cur ≠ []) (h : Ends s) : tok cur s = cur :: tok [] s := by
  cases s with
  | nil => simp [tok_nil, emit, hc]
  | cons c s =>
    rcases char_cases c with h0 | rfl | rfl | rfl | h0
    · simp [tok_space _ _ h0, emit, hc]
    · simp [tok_open, emit, hc]
    · simp [tok_close, emit, hc]
    · simp [tok_question, emit, hc]
    · exact absurd h0 h

theorem tok_of_spells {s : List Char} {ws : List Word} (h : Spells s ws) : (tok [] s).map (·.map Char.toLower) = ws := by
  induction h with
  | nil => rfl
  | space c s ws hc _ ih => rw [tok_space _ _ hc]; simpa [emit] using ih
  | opening s ws _ ih =>
    rw [tok_open]
    simp only [emit, if_true, List.nil_append, List.map_cons, ih, List.map_nil]
    rfl
  | closing s ws _ ih =>
    rw [tok_close]
    simp only [emit, if_true, List.nil_append, List.map_cons, ih, List.map_nil]
    rfl
  | word c w s ws hc hw he _ ih =>
    have h1 : tok [] (c :: w ++ s) = tok [c] (w ++ s) := by
      rcases hc with hc | rfl
      · rw [List.cons_append, tok_inner _ _ hc]
        rfl
      · rw [List.cons_append, tok_question]
        rfl
    rw [h1, tok_inners _ _ hw, tok_ends (by simp) he]
    simp only [List.map_cons, ih, List.cons_append, List.nil_append]

theorem spells_tok (s : List Char) : Spells s ((tok [] s).map (·.map Char.toLower)) ∧ ∀ c w, (Inner c ∨ c = '?') → (∀ x ∈ w, Inner x) → Spells (c :: w ++ s) ((tok (c :: w) s).map (·.map Char.toLower)) := by
  induction s with
  | nil =>
    refine ⟨.nil, fun c w hc hw => ?_⟩
    have := Spells.word c w [] [] hc hw trivial .nil
    simpa [tok_nil, emit] using this
  | cons x s ih =>
    have h1 : Spells (x :: s) ((tok [] (x :: s)).map (·.map Char.toLower)) := by
      rcases char_cases x with h0 | rfl | rfl | rfl | h0
      · rw [tok_space _ _ h0]
        exact .space _ _ _ h0 (by simpa [emit] using ih.1)
      · rw [tok_open]
        exact .opening _ _ ih.1
      · rw [tok_close]
        exact .closing _ _ ih.1
      · rw [tok_question]
        exact ih.2 '?' [] (.inr rfl) (by simp)
      · rw [tok_inner _ _ h0]
        exact ih.2 x [] (.inl h0) (by simp)
    refine ⟨h1, fun c w hc hw => ?_⟩
    by_cases hx : Inner x
    · rw [tok_inner _ _ hx]
      have := ih.2 c (w ++ [x]) hc (fun y hy => by
        rcases List.mem_append.mp hy with hy | hy
        · exact hw y hy
        · rw [List.mem_singleton.mp hy]
          exact hx)
      simpa using this
    · rw [tok_ends (cur := c :: w) (s := x :: s) (by simp) hx]
      exact .word c w (x :: s) _ hc hw hx h1

theorem spells_iff {s : List Char} {ws : List Word} : Spells s ws ↔ (splitSpace [] (expand s)).map (·.map Char.toLower) = ws :=
  ⟨tok_of_spells, fun h => h ▸ (spells_tok s).1⟩

theorem stripComment_spec {line code comment : List Char} (h : line = code ++ comment) (hc : ';' ∉ code) (hr : comment = [] ∨ ∃ x, comment = ';' :: x) : stripComment line = code := by
  subst h
  unfold stripComment
  induction code with
  | nil => rcases hr with rfl | ⟨x, rfl⟩ <;> simp
  | cons c code ih =>
    simp only [List.mem_cons, not_or] at hc
    have : c ≠ ';' := fun h => hc.1 h.symm
    rw [List.cons_append, List.takeWhile_cons, if_pos (by simpa using this), ih hc.2]

theorem stripComment_ok (line : List Char) : ∃ comment, line = stripComment line ++ comment ∧ ';' ∉ stripComment line ∧ (comment = [] ∨ ∃ x, comment = ';' :: x) := by
  induction line with
  | nil => exact ⟨[], rfl, by simp [stripComment], .inl rfl⟩
  | cons c line ih =>
    obtain ⟨comment, h1, h2, h3⟩ := ih
    unfold stripComment at *
    by_cases hc : c = ';'
    · subst hc
      exact ⟨';' :: line, by simp, by simp, .inr ⟨_, rfl⟩⟩
    · rw [List.takeWhile_cons, if_pos (by simpa using hc)]
      refine ⟨comment, by rw [List.cons_append, ← h1], ?_, h3⟩
      simp only [List.mem_cons, not_or]
      exact ⟨fun h => hc h.symm, h2⟩

theorem tokenizeLine_iff {line : List Char} {ws : List Word} : tokenizeLine line = some ws ↔ LineSpells line ws := by
  constructor
  · intro h
    unfold tokenizeLine at h
    simp only at h
    split at h
    · rename_i ha
      obtain ⟨comment, h1, h2, h3⟩ := stripComment_ok line
      refine ⟨_, comment, h1, h2, h3, by simpa using ha, spells_iff.mpr (by simpa using h)⟩
    · simp at h
  · rintro ⟨code, comment, h1, h2, h3, h4, h5⟩
    unfold tokenizeLine
    simp only [stripComment_spec h1 h2 h3]
    rw [if_pos (by simpa using h4), spells_iff.mp h5]

theorem tokenize_iff {file : List (List Char)} {ws : List Word} : tokenize file = some ws ↔ FileSpells file ws := by
  induction file generalizing ws with
  | nil =>
    constructor
    · intro h
      simp only [tokenize, Option.some.injEq] at h
      subst h
      exact .nil
    · intro h
      cases h
      rfl
  | cons l ls ih =>
    constructor
    · intro h
      simp only [tokenize] at h
      split at h
      · simp at h
      · rename_i ws1 h1
        obtain ⟨ws2, h2, rfl⟩ := Option.map_eq_some_iff.mp h
        exact .cons _ _ _ _ (tokenizeLine_iff.mp h1) (ih.mp h2)
    · intro h
      cases h with
      | cons _ _ ws1 ws2 h1 h2 => simp only [tokenize, tokenizeLine_iff.mpr h1, ih.mpr h2, Option.map_some]

/-! ### Nested lists -/

mutual
theorem parse_tree (t : Tree) (ht : t.Ok) (ts : List Tree) (ws ws' : List Word) (n : Nat) (hn : t.tokens.length + ws.length ≤ n) (h : ∀ m, ws.length ≤ m → parseList m ws = some (ts, ws')) : parseList n (t.tokens ++ ws) = some (t :: ts, ws') := by
  match n, t with
  | 0, .word w => simp [Tree.tokens] at hn
  | 0, .list us => simp [Tree.tokens] at hn
  | n + 1, .word w =>
    simp only [Tree.Ok] at ht
    simp only [Tree.tokens, List.length_cons, List.length_nil] at hn
    simp only [Tree.tokens, List.cons_append, List.nil_append, parseList, ht.1, ht.2, if_false]
    rw [h n (by omega)]
    rfl
  | n + 1, .list us =>
    simp only [Tree.Ok] at ht
    simp only [Tree.tokens, List.length_cons, List.length_append, List.length_nil] at hn
    have h1 := parse_trees us ht ws n (by omega)
    have e : ((Tree.list us).tokens ++ ws) = ['('] :: (treeTokens us ++ [')'] :: ws) := by simp [Tree.tokens]
    rw [e, parseList, if_neg (by decide), if_pos rfl, h1]
    simp only
    rw [h n (by omega)]
    rfl
theorem parse_trees (ts : List Tree) (ht : TreesOk ts) (ws : List Word) (n : Nat) (hn : (treeTokens ts).length + 1 + ws.length ≤ n) : parseList n (treeTokens ts ++ [')'] :: ws) = some (ts, ws) := by
  match ts with
  | [] =>
    match n with
    | 0 => omega
    | n + 1 => simp [treeTokens, parseList]
  | t :: ts =>
    simp only [TreesOk] at ht
    simp only [treeTokens, List.length_append] at hn
    rw [treeTokens, List.append_assoc]
    refine parse_tree t ht.1 ts _ ws n ?_ fun m hm => parse_trees ts ht.2 ws m ?_
    · simp only [List.length_append, List.length_cons]
      omega
    · simp only [List.length_append, List.length_cons] at hm
      omega
end

theorem parse_sound : ∀ {n : Nat} {ws ws' : List Word} {ts : List Tree}, parseList n ws = some (ts, ws') → TreesOk ts ∧ ws = treeTokens ts ++ [')'] :: ws'
  | 0, _, _, _, h => by simp [parseList] at h
  | n + 1, [], _, _, h => by simp [parseList] at h
  | n + 1, w :: ws, ws', ts, h => by
    rw [parseList] at h
    split at h
    · rename_i hw
      simp only [Option.some.injEq, Prod.mk.injEq] at h
      obtain ⟨rfl, rfl⟩ := h
      exact ⟨trivial, by simp [treeTokens, hw]⟩
    · rename_i hw
      split at h
      · rename_i ho
        split at h
        · simp at h
        · rename_i us ws1 h1
          obtain ⟨⟨vs, ws2⟩, h2, h3⟩ := Option.map_eq_some_iff.mp h
          simp only [Prod.mk.injEq] at h3
          obtain ⟨rfl, rfl⟩ := h3
          obtain ⟨k1, k2⟩ := parse_sound h1
          obtain ⟨k3, k4⟩ := parse_sound h2
          refine ⟨⟨k1, k3⟩, ?_⟩
          rw [ho, k2, k4]
          simp [treeTokens, Tree.tokens]
      · rename_i ho
        obtain ⟨⟨vs, ws2⟩, h2, h3⟩ := Option.map_eq_some_iff.mp h
        simp only [Prod.mk.injEq] at h3
        obtain ⟨rfl, rfl⟩ := h3
        obtain ⟨k3, k4⟩ := parse_sound h2
        refine ⟨⟨⟨ho, hw⟩, k3⟩, ?_⟩
        rw [k4]
        simp [treeTokens, Tree.tokens]

/-- the bound of the recursion is never reached -/
theorem parse_complete {ts : List Tree} {ws ws' : List Word} (ht : TreesOk ts) (h : ws = treeTokens ts ++ [')'] :: ws') : parseList (ws.length + 1) ws = some (ts, ws') := by
  subst h
  refine parse_trees ts ht ws' _ ?_
  simp only [List.length_append, List.length_cons]
  omega

/-- C86: reading a file returns a nested list exactly if the file consists of this nested list. -/
theorem C86_read {file : List (List Char)} {ts : List Tree} : parseNestedList file = .ok ts ↔ Denotes file ts := by
  constructor
  · intro h
    unfold parseNestedList at h
    split at h
    · simp at h
    · simp at h
    · rename_i w ws hw
      split at h
      · simp at h
      · rename_i ho
        split at h
        · simp at h
        · rename_i ts' rest hp
          split at h
          · rename_i hr
            simp only [Outcome.ok.injEq] at h
            subst h
            obtain ⟨h1, h2⟩ := parse_sound hp
            refine ⟨h1, ?_⟩
            have := tokenize_iff.mp hw
            rw [h2, hr, Classical.not_not.mp ho] at this
            exact this
          · simp at h
  · rintro ⟨h1, h2⟩
    unfold parseNestedList
    rw [tokenize_iff.mpr h2]
    simp only [Tree.tokens, ne_eq, not_true_eq_false, if_false]
    rw [parse_complete (ws' := []) h1 rfl]
    simp

/-- C86: a file consists of at most one nested list -/
theorem C86_unambiguous {file : List (List Char)} {ts ts' : List Tree} (h : Denotes file ts) (h' : Denotes file ts') : ts = ts' := by
  have h1 := C86_read.mpr h
  rw [C86_read.mpr h'] at h1
  exact (Outcome.ok.inj h1).symm

/-- C86: the other outcomes: a file without words and parentheses ends in an exception that is not caught (although the file may have comments); all other files that are no nested list are reported. -/
theorem C86_errors (file : List (List Char)) :
    (parseNestedList file = .stopIteration ↔ FileSpells file []) ∧ (parseNestedList file = .parseError ↔ ¬FileSpells file [] ∧ ¬∃ ts, Denotes file ts) := by
  have h1 : parseNestedList file = .stopIteration ↔ FileSpells file [] := by
    rw [← tokenize_iff]
    unfold parseNestedList
    constructor
    · intro h
      split at h
      · simp at h
      · assumption
      · split at h
        · simp at h
        · split at h
          · simp at h
          · split at h <;> simp at h
    · intro h
      rw [h]
  refine ⟨h1, ?_⟩
  constructor
  · intro h
    refine ⟨fun h2 => ?_, fun ⟨ts, h2⟩ => ?_⟩
    · rw [h1.mpr h2] at h
      simp at h
    · rw [C86_read.mpr h2] at h
      simp at h
  · rintro ⟨h2, h3⟩
    cases h : parseNestedList file with
    | ok ts => exact absurd ⟨ts, C86_read.mp h⟩ h3
    | parseError => rfl
    | stopIteration => exact absurd (h1.mp h) h2

/-! ### Writing and reading -/

/-- a word in lower case that can be written into a file -/
def Writable (w : Word) : Prop := ∃ c v, w = c :: v ∧ (Inner c ∨ c = '?') ∧ (∀ x ∈ v, Inner x) ∧ ∀ x ∈ w, x ≠ ';' ∧ x.val < 128 ∧ x.toLower = x

mutual
def Tree.Writable : Tree → Prop
  | .word w => Lisp.Writable w
  | .list ts => TreesWritable ts
def TreesWritable : List Tree → Prop
  | [] => True
  | t :: ts => t.Writable ∧ TreesWritable ts
end

mutual
/-- the text of a nested list: words are followed by a space -/
def Tree.text : Tree → List Char
  | .word w => w ++ [' ']
  | .list ts => '(' :: (treesText ts ++ [')'])
def treesText : List Tree → List Char
  | [] => []
  | t :: ts => t.text ++ treesText ts
end

mutual
theorem text_spells (t : Tree) (h : t.Writable) (s : List Char) (ws : List Word) (hs : Spells s ws) : Spells (t.text ++ s) (t.tokens ++ ws) := by
  match t with
  | .word w =>
    simp only [Tree.Writable] at h
    obtain ⟨c, v, rfl, h1, h2, h3⟩ := h
    have := Spells.word c v (' ' :: s) ws h1 h2 (fun h => by simp [Inner, isSpace] at h) (.space ' ' s ws rfl hs)
    have e : (c :: v).map Char.toLower = c :: v := by
      have e1 : (c :: v).map Char.toLower = (c :: v).map id := List.map_congr_left fun x hx => (h3 x hx).2.2
      rw [e1, List.map_id]
    rw [e] at this
    simpa [Tree.text, Tree.tokens] using this
  | .list ts =>
    simp only [Tree.Writable] at h
    have := Spells.opening _ _ (texts_spells ts h (')' :: s) ([')'] :: ws) (.closing _ _ hs))
    simpa [Tree.text, Tree.tokens] using this
theorem texts_spells (ts : List Tree) (h : TreesWritable ts) (s : List Char) (ws : List Word) (hs : Spells s ws) : Spells (treesText ts ++ s) (treeTokens ts ++ ws) := by
  match ts with
  | [] => simpa [treesText, treeTokens] using hs
  | t :: ts =>
    simp only [TreesWritable] at h
    have := text_spells t h.1 _ _ (texts_spells ts h.2 s ws hs)
    simpa [treesText, treeTokens] using this
end

mutual
theorem text_chars (t : Tree) (h : t.Writable) : ∀ c ∈ t.text, c ≠ ';' ∧ c.val < 128 := by
  match t with
  | .word w =>
    simp only [Tree.Writable] at h
    obtain ⟨c, v, rfl, _, _, h3⟩ := h
    intro x hx
    simp only [Tree.text, List.mem_append, List.mem_singleton] at hx
    rcases hx with hx | rfl
    · exact ⟨(h3 x hx).1, (h3 x hx).2.1⟩
    · decide
  | .list ts =>
    simp only [Tree.Writable] at h
    intro x hx
    simp only [Tree.text, List.mem_cons, List.mem_append, List.not_mem_nil, or_false] at hx
    rcases hx with rfl | hx | rfl
    · decide
    · exact texts_chars ts h x hx
    · decide
theorem texts_chars (ts : List Tree) (h : TreesWritable ts) : ∀ c ∈ treesText ts, c ≠ ';' ∧ c.val < 128 := by
  match ts with
  | [] => simp [treesText]
  | t :: ts =>
    simp only [TreesWritable] at h
    intro x hx
    simp only [treesText, List.mem_append] at hx
    rcases hx with hx | hx
    · exact text_chars t h.1 x hx
    · exact texts_chars ts h.2 x hx
end

mutual
theorem writable_ok (t : Tree) (h : t.Writable) : t.Ok := by
  match t with
  | .word w =>
    simp only [Tree.Writable] at h
    obtain ⟨c, v, rfl, h1, _, _⟩ := h
    simp only [Tree.Ok]
    constructor <;> intro e <;> obtain ⟨rfl, rfl⟩ := List.cons.inj e <;> simp [Inner] at h1
  | .list ts =>
    simp only [Tree.Writable] at h
    simp only [Tree.Ok]
    exact writables_ok ts h
theorem writables_ok (ts : List Tree) (h : TreesWritable ts) : TreesOk ts := by
  match ts with
  | [] => simp [TreesOk]
  | t :: ts =>
    simp only [TreesWritable] at h
    exact ⟨writable_ok t h.1, writables_ok ts h.2⟩
end

/-- C86: every nested list of words in lower case can be written to a file and is read again, also with a comment (with any characters) at the end of the line, and with further lines that only consist of comments -/
theorem C86_round_trip {ts : List Tree} (h : TreesWritable ts) (comment : List Char) (more : List (List Char)) : parseNestedList (((Tree.list ts).text ++ ';' :: comment) :: more.map (';' :: ·)) = .ok ts := by
  have hw : (Tree.list ts).Writable := by simpa only [Tree.Writable] using h
  rw [C86_read]
  refine ⟨writables_ok ts h, ?_⟩
  have h1 := text_spells (.list ts) hw [] [] .nil
  simp only [List.append_nil] at h1
  have h2 : FileSpells (more.map (';' :: ·)) [] := by
    induction more with
    | nil => exact .nil
    | cons l ls ih => exact .cons _ _ [] [] ⟨[], _, rfl, by simp, .inr ⟨l, rfl⟩, by simp, .nil⟩ ih
  have h3 := FileSpells.cons _ _ _ _ ⟨(Tree.list ts).text, ';' :: comment, rfl, fun h => (text_chars _ hw _ h).1 rfl, .inr ⟨comment, rfl⟩, fun c hc => (text_chars _ hw c hc).2, h1⟩ h2
  simpa using h3

/-! ### Examples -/

/-- a file with a comment, capital letters and a variable without white space before it -/
example : Denotes ["(at ?X(Not  b) ; comment (".toList, ")".toList] [.word "at".toList, .word "?x".toList, .list [.word "not".toList, .word "b".toList]] := by
  rw [← C86_read]
  rfl

example : TreesWritable [.word "at".toList, .list [.word "?x".toList]] := by
  refine ⟨⟨'a', ['t'], rfl, .inl (by decide), by decide, by decide⟩, ⟨⟨'?', ['x'], rfl, .inr rfl, by decide, by decide⟩, trivial⟩, trivial⟩

/-- an empty file is not reported as an error -/
example : parseNestedList ["; only a comment".toList] = .stopIteration := rfl

end Verif.Lisp
