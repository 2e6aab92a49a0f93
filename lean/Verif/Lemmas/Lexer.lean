import Verif.Spec.Lexer

/- Helper lemmas for the lexical analysis. -/
namespace Verif.Lex

/-- The texts matched by an expression (the second argument is the text behind
the match). -/
def Den (r : Re) (L : List Char → List Char → Prop) : Prop :=
  ∀ (x : Pos) (v : List Char), (∃ p, (p, v) ∈ r.outs x) ↔ ∃ s, x.2 = s ++ v ∧ L s v

theorem Den.congr {r : Re} {L L' : List Char → List Char → Prop} (h : Den r L)
    (e : ∀ s v, L s v ↔ L' s v) : Den r L' := by
  intro x v
  rw [h x v]
  exact ⟨fun ⟨s, a, b⟩ => ⟨s, a, (e s v).1 b⟩, fun ⟨s, a, b⟩ => ⟨s, a, (e s v).2 b⟩⟩

theorem den_eps : Den .eps (fun s _ => s = []) := by
  intro x v
  obtain ⟨p, t⟩ := x
  simp only [Re.outs, List.mem_singleton, Prod.mk.injEq]
  constructor
  · rintro ⟨_, _, rfl⟩; exact ⟨[], rfl, rfl⟩
  · rintro ⟨s, h, rfl⟩; exact ⟨p, rfl, by simpa using h.symm⟩

theorem den_chr (q : Char → Bool) : Den (.chr q) (fun s _ => ∃ c, s = [c] ∧ q c = true) := by
  intro x v
  obtain ⟨p, t⟩ := x
  cases t with
  | nil =>
    simp only [Re.outs, List.not_mem_nil, exists_false, false_iff]
    rintro ⟨s, h, c, rfl, _⟩
    simp at h
  | cons d t =>
    by_cases hd : q d = true
    · simp only [Re.outs, hd, if_true, List.mem_singleton, Prod.mk.injEq]
      constructor
      · rintro ⟨_, _, rfl⟩; exact ⟨[d], rfl, d, rfl, hd⟩
      · rintro ⟨s, h, c, rfl, _⟩
        simp only [List.cons_append, List.nil_append, List.cons.injEq] at h
        exact ⟨_, rfl, h.2.symm⟩
    · simp only [Re.outs, hd]
      constructor
      · rintro ⟨_, h⟩; simp at h
      · rintro ⟨s, h, c, rfl, hc⟩
        simp only [List.cons_append, List.nil_append, List.cons.injEq] at h
        rw [h.1] at hd
        exact absurd hc hd

theorem den_seq {a b : Re} {A B : List Char → List Char → Prop} (ha : Den a A) (hb : Den b B) :
    Den (.seq a b) (fun s v => ∃ s1 s2, s = s1 ++ s2 ∧ A s1 (s2 ++ v) ∧ B s2 v) := by
  intro x v
  simp only [Re.outs, List.mem_flatMap]
  constructor
  · rintro ⟨p, y, hy, h⟩
    obtain ⟨s1, e1, h1⟩ := (ha x y.2).1 ⟨y.1, hy⟩
    obtain ⟨s2, e2, h2⟩ := (hb y v).1 ⟨p, h⟩
    exact ⟨s1 ++ s2, by rw [e1, e2, List.append_assoc], s1, s2, rfl, by rw [← e2]; exact h1, h2⟩
  · rintro ⟨s, e, s1, s2, rfl, h1, h2⟩
    obtain ⟨p, hp⟩ := (ha x (s2 ++ v)).2 ⟨s1, by rw [e, List.append_assoc], h1⟩
    obtain ⟨p', hp'⟩ := (hb (p, s2 ++ v) v).2 ⟨s2, rfl, h2⟩
    exact ⟨p', _, hp, hp'⟩

theorem den_alt {a b : Re} {A B : List Char → List Char → Prop} (ha : Den a A) (hb : Den b B) :
    Den (.alt a b) (fun s v => A s v ∨ B s v) := by
  intro x v
  simp only [Re.outs, List.mem_append]
  constructor
  · rintro ⟨p, h | h⟩
    · obtain ⟨s, e, h⟩ := (ha x v).1 ⟨p, h⟩; exact ⟨s, e, .inl h⟩
    · obtain ⟨s, e, h⟩ := (hb x v).1 ⟨p, h⟩; exact ⟨s, e, .inr h⟩
  · rintro ⟨s, e, h | h⟩
    · obtain ⟨p, hp⟩ := (ha x v).2 ⟨s, e, h⟩; exact ⟨p, .inl hp⟩
    · obtain ⟨p, hp⟩ := (hb x v).2 ⟨s, e, h⟩; exact ⟨p, .inr hp⟩

theorem den_opt {a : Re} {A : List Char → List Char → Prop} (ha : Den a A) :
    Den (.opt a) (fun s v => A s v ∨ s = []) := den_alt ha den_eps

theorem den_star {a : Re} {A : List Char → Prop} (ha : Den a (fun s _ => A s))
    (hne : ∀ s, A s → s ≠ []) :
    Den (.star a) (fun s _ => ∃ items : List (List Char), (∀ i ∈ items, A i) ∧
      s = items.flatten) := by
  have key : ∀ (n : Nat) (x : Pos) (v : List Char), x.2.length ≤ n →
      ((∃ p, (p, v) ∈ starOuts a.outs n x) ↔ ∃ s, x.2 = s ++ v ∧
        ∃ items : List (List Char), (∀ i ∈ items, A i) ∧ s = items.flatten) := by
    intro n
    induction n with
    | zero =>
      intro x v hx
      obtain ⟨p, t⟩ := x
      have ht : t = [] := List.length_eq_zero_iff.1 (Nat.le_zero.1 hx)
      subst ht
      simp only [starOuts, List.mem_singleton, Prod.mk.injEq]
      constructor
      · rintro ⟨_, _, rfl⟩; exact ⟨[], rfl, [], by simp, rfl⟩
      · rintro ⟨s, h, _⟩
        simp only [List.nil_eq, List.append_eq_nil_iff] at h
        exact ⟨p, rfl, h.2⟩
    | succ n ih =>
      intro x v hx
      simp only [starOuts, List.mem_append, List.mem_flatMap, List.mem_singleton]
      constructor
      · rintro ⟨p, ⟨y, hy, h⟩ | h⟩
        · split at h
          · rename_i hlt
            obtain ⟨s1, e1, h1⟩ := (ha x y.2).1 ⟨y.1, hy⟩
            obtain ⟨s2, e2, items, hi, hs⟩ := (ih y v (by omega)).1 ⟨p, h⟩
            refine ⟨s1 ++ s2, by rw [e1, e2, List.append_assoc], s1 :: items, ?_, by rw [hs]; simp⟩
            intro i hi'
            rcases List.mem_cons.1 hi' with rfl | hi'
            · exact h1
            · exact hi i hi'
          · simp at h
        · exact ⟨[], by rw [← h]; rfl, [], by simp, rfl⟩
      · rintro ⟨s, e, items, hi, hs⟩
        cases items with
        | nil =>
          simp only [List.flatten_nil] at hs
          subst hs
          exact ⟨x.1, .inr (by rw [← show x.2 = v by simpa using e])⟩
        | cons i items =>
          simp only [List.flatten_cons] at hs
          have hii := hi i (List.mem_cons_self ..)
          have e' : x.2 = i ++ (items.flatten ++ v) := by rw [e, hs, List.append_assoc]
          obtain ⟨p, hp⟩ := (ha x (items.flatten ++ v)).2 ⟨i, e', hii⟩
          have hlen : (items.flatten ++ v).length < x.2.length := by
            have := List.length_pos_iff.2 (hne i hii)
            rw [e', List.length_append (as := i)]
            omega
          obtain ⟨p', hp'⟩ := (ih (p, items.flatten ++ v) v (by simp only; omega)).2
            ⟨items.flatten, rfl, items, fun j hj => hi j (List.mem_cons_of_mem _ hj), rfl⟩
          exact ⟨p', .inl ⟨_, hp, by rw [if_pos hlen]; exact hp'⟩⟩
  intro x v
  exact key x.2.length x v (Nat.le_refl _)

/-- A repetition of characters. -/
theorem den_starChr (q : Char → Bool) :
    Den (.star (.chr q)) (fun s _ => ∀ c ∈ s, q c = true) := by
  refine (den_star (A := fun s => ∃ c, s = [c] ∧ q c = true) (den_chr q)
    (by rintro s ⟨c, rfl, _⟩; simp)).congr ?_
  intro s _
  constructor
  · rintro ⟨items, hi, rfl⟩ c hc
    obtain ⟨i, hi', hc'⟩ := List.mem_flatten.1 hc
    obtain ⟨d, rfl, hd⟩ := hi i hi'
    rw [List.mem_singleton.1 hc']
    exact hd
  · intro h
    refine ⟨s.map fun c => [c], ?_, ?_⟩
    · intro i hi
      obtain ⟨c, hc, rfl⟩ := List.mem_map.1 hi
      exact ⟨c, rfl, h c hc⟩
    · induction s with
      | nil => rfl
      | cons c s ih => simp [← ih fun d hd => h d (List.mem_cons_of_mem _ hd)]

theorem den_plus : Den digit.plus (fun s _ => Digits s) := by
  refine (den_seq (den_chr isDigit) (den_starChr isDigit)).congr ?_
  intro s v
  constructor
  · rintro ⟨s1, s2, rfl, ⟨c, rfl, hc⟩, h2⟩
    refine ⟨by simp, ?_⟩
    intro d hd
    rcases List.mem_append.1 hd with hd | hd
    · rw [List.mem_singleton.1 hd]; exact hc
    · exact h2 d hd
  · rintro ⟨hne, h⟩
    cases s with
    | nil => exact absurd rfl hne
    | cons c s =>
      exact ⟨[c], s, rfl, ⟨c, rfl, h c (List.mem_cons_self ..)⟩,
        fun d hd => h d (List.mem_cons_of_mem _ hd)⟩

theorem den_lit (c : Char) : Den (.lit c) (fun s _ => ∃ d, s = [d] ∧ lower d = lower c) :=
  (den_chr _).congr fun _ _ => by simp

theorem den_word (w : List Char) : Den (.word w) (fun s _ => s.map lower = w.map lower) := by
  induction w with
  | nil => exact den_eps.congr fun s _ => by simp
  | cons c w ih =>
    cases w with
    | nil =>
      refine (den_lit c).congr fun s _ => ?_
      constructor
      · rintro ⟨d, rfl, h⟩; simp [h]
      · intro h
        cases s with
        | nil => simp at h
        | cons d s =>
          simp only [List.map_cons, List.map_nil, List.cons.injEq, List.map_eq_nil_iff] at h
          exact ⟨d, by rw [h.2], h.1⟩
    | cons c' w =>
      refine (den_seq (den_lit c) ih).congr fun s _ => ?_
      constructor
      · rintro ⟨s1, s2, rfl, ⟨d, rfl, h⟩, h2⟩
        simp [h, h2]
      · intro h
        cases s with
        | nil => simp at h
        | cons d s =>
          rw [List.map_cons, List.map_cons, List.cons.injEq] at h
          exact ⟨[d], s, rfl, ⟨d, rfl, h.1⟩, h.2⟩

/-- A character whose lower case is not a letter is itself. -/
theorem lower_eq {d c : Char} (hc : isLetter c = false) (h : lower d = c) : d = c := by
  unfold lower at h
  split at h
  · rename_i hd
    exfalso
    simp only [Bool.and_eq_true, decide_eq_true_eq] at hd
    have hval : Nat.isValidChar (d.toNat + 32) := by
      left
      have := hd.2
      have e : 'Z'.toNat = 90 := rfl
      omega
    have hn : c.toNat = d.toNat + 32 := by
      rw [← h]
      unfold Char.ofNat
      rw [dif_pos hval]
      rfl
    simp only [isLetter, Bool.or_eq_false_iff, Bool.and_eq_false_iff, decide_eq_false_iff_not] at hc
    have e1 : 'A'.toNat = 65 := rfl
    have e2 : 'Z'.toNat = 90 := rfl
    have e3 : 'a'.toNat = 97 := rfl
    have e4 : 'z'.toNat = 122 := rfl
    omega
  · exact h

theorem den_lit' {c : Char} (hc : isLetter c = false) (hl : lower c = c) :
    Den (.lit c) (fun s _ => s = [c]) := by
  refine (den_lit c).congr fun s _ => ?_
  rw [hl]
  constructor
  · rintro ⟨d, rfl, h⟩; rw [lower_eq hc h]
  · rintro rfl; exact ⟨c, rfl, hl⟩

theorem den_sign : Den sign (fun s _ => Sign s) := by
  refine (den_opt (den_alt (den_lit' (c := '+') rfl rfl) (den_lit' (c := '-') rfl rfl))).congr
    fun s _ => ?_
  unfold Sign
  constructor
  · rintro ((h | h) | h)
    · exact .inr (.inl h)
    · exact .inr (.inr h)
    · exact .inl h
  · rintro (h | h | h)
    · exact .inr h
    · exact .inl (.inl h)
    · exact .inl (.inr h)

theorem den_exponent : Den exponent (fun s _ => Exponent s) := by
  refine (den_seq (den_lit 'e') (den_seq den_sign den_plus)).congr fun s _ => ?_
  constructor
  · rintro ⟨s1, s2, rfl, ⟨d, rfl, hd⟩, s3, s4, rfl, h3, h4⟩
    exact ⟨d, s3, s4, rfl, hd, h3, h4⟩
  · rintro ⟨c, sg, ds, rfl, hc, h3, h4⟩
    exact ⟨[c], sg ++ ds, rfl, ⟨c, rfl, hc⟩, sg, ds, rfl, h3, h4⟩

/-- Letters are word characters, also those with a given lower case. -/
theorem isWord_of_lower {c : Char} (h : isLetter (lower c) = true) : isWord c = true := by
  unfold isWord
  have : isLetter c = true := by
    unfold lower at h
    split at h
    · rename_i hd
      simp only [isLetter, hd, Bool.or_true]
    · exact h
  simp [this]

open Classical in
theorem outs_suffix (x : Pos) : suffix.outs x =
    match x.2 with
    | [] => []
    | c :: v => if (lower c = 'k' ∨ lower c = 'm' ∨ lower c = 'g') ∧ NoWord v then [(some c, v)]
      else [] := by
  obtain ⟨p, t⟩ := x
  cases t with
  | nil => rfl
  | cons c v =>
    have hone : ((Re.lit 'k').alt ((Re.lit 'm').alt (Re.lit 'g'))).outs (p, c :: v) =
        if lower c = 'k' ∨ lower c = 'm' ∨ lower c = 'g' then [(some c, v)] else [] := by
      simp only [Re.outs, Re.lit, beq_iff_eq]
      have e1 : lower 'k' = 'k' := rfl
      have e2 : lower 'm' = 'm' := rfl
      have e3 : lower 'g' = 'g' := rfl
      rw [e1, e2, e3]
      by_cases h1 : lower c = 'k'
      · rw [if_pos h1, if_neg (by rw [h1]; decide), if_neg (by rw [h1]; decide), if_pos (.inl h1)]
        rfl
      · by_cases h2 : lower c = 'm'
        · rw [if_neg h1, if_pos h2, if_neg (by rw [h2]; decide), if_pos (.inr (.inl h2))]
          rfl
        · by_cases h3 : lower c = 'g'
          · rw [if_neg h1, if_neg h2, if_pos h3, if_pos (.inr (.inr h3))]; rfl
          · rw [if_neg h1, if_neg h2, if_neg h3, if_neg (by simp [h1, h2, h3])]; rfl
    show (((Re.lit 'k').alt ((Re.lit 'm').alt (Re.lit 'g'))).outs (p, c :: v)).flatMap
      Re.wordBoundary.outs = _
    rw [hone]
    by_cases hc : lower c = 'k' ∨ lower c = 'm' ∨ lower c = 'g'
    · rw [if_pos hc]
      have hw : isWord c = true := by
        apply isWord_of_lower
        rcases hc with hc | hc | hc <;> rw [hc] <;> rfl
      simp only [List.flatMap_cons, List.flatMap_nil, List.append_nil, hc, true_and, Re.outs, hw]
      by_cases hv : NoWord v
      · rw [if_pos hv, if_pos]
        cases v with
        | nil => rfl
        | cons d v => simp [hv d v rfl]
      · rw [if_neg hv, if_neg]
        cases v with
        | nil => exact absurd (by intro c w h; cases h) hv
        | cons d v =>
          cases hd : isWord d with
          | true => simp [hd]
          | false => exact absurd (by intro c w h; cases h; exact hd) hv
    · rw [if_neg hc]
      simp [hc]

theorem den_suffix : Den suffix Suffix := by
  intro x v
  rw [outs_suffix]
  obtain ⟨p, t⟩ := x
  cases t with
  | nil =>
    simp only [List.not_mem_nil, exists_false, false_iff]
    rintro ⟨s, h, c, rfl, _⟩
    simp at h
  | cons d t =>
    simp only
    constructor
    · rintro ⟨q, h⟩
      split at h
      · rename_i hd
        simp only [List.mem_singleton, Prod.mk.injEq] at h
        rw [h.2]
        exact ⟨[d], rfl, d, rfl, hd.1, hd.2⟩
      · simp at h
    · rintro ⟨s, h, c, rfl, hc, hv⟩
      simp only [List.cons_append, List.nil_append, List.cons.injEq] at h
      obtain ⟨rfl, rfl⟩ := h
      exact ⟨some d, by rw [if_pos ⟨hc, hv⟩]; simp⟩

theorem den_stringItem :
    Den (.alt (.word ['\\', '\\']) (.alt (.word ['\\', '"']) (.alt (.word ['\\', 'n'])
        (.chr (fun c => c != '"' && c != '\\'))))) (fun s _ => StringItem s) := by
  refine (den_alt (den_word _) (den_alt (den_word _) (den_alt (den_word _) (den_chr _)))).congr
    fun s _ => ?_
  have two : ∀ (a : Char), isLetter a = false → ∀ (b : Char) (s : List Char),
      s.map lower = [a, b] → ∃ c, s = [a, c] ∧ lower c = b := by
    intro a ha b s h
    match s, h with
    | [x, y], h =>
      simp only [List.map_cons, List.map_nil, List.cons.injEq, and_true] at h
      exact ⟨y, by rw [lower_eq ha h.1], h.2⟩
  unfold StringItem
  constructor
  · rintro (h | h | h | h)
    · obtain ⟨c, rfl, hc⟩ := two '\\' rfl '\\' s h
      rw [lower_eq rfl hc]
      exact .inr (.inl rfl)
    · obtain ⟨c, rfl, hc⟩ := two '\\' rfl '"' s h
      rw [lower_eq rfl hc]
      exact .inr (.inr (.inl rfl))
    · obtain ⟨c, rfl, hc⟩ := two '\\' rfl 'n' s h
      exact .inr (.inr (.inr ⟨c, rfl, hc⟩))
    · obtain ⟨c, rfl, hc⟩ := h
      simp only [Bool.and_eq_true, bne_iff_ne, ne_eq] at hc
      exact .inl ⟨c, rfl, hc.1, hc.2⟩
  · rintro (⟨c, rfl, h1, h2⟩ | rfl | rfl | ⟨c, rfl, hc⟩)
    · exact .inr (.inr (.inr ⟨c, rfl, by simp [h1, h2]⟩))
    · exact .inl rfl
    · exact .inr (.inl rfl)
    · refine .inr (.inr (.inl ?_))
      simp only [List.map_cons, List.map_nil, hc]
      rfl

theorem StringItem.ne_nil {s : List Char} (h : StringItem s) : s ≠ [] := by
  rcases h with ⟨c, rfl, _⟩ | rfl | rfl | ⟨c, rfl, _⟩ <;> simp

/-- What the expressions of the token types match. -/
theorem den_tokenRe (t : TokenType) : Den (tokenRe t) (LexemeAt t) := by
  cases t with
  | openingParenthesis => exact den_lit' rfl rfl
  | closingParenthesis => exact den_lit' rfl rfl
  | openingBracket => exact den_lit' rfl rfl
  | closingBracket => exact den_lit' rfl rfl
  | comma => exact den_lit' rfl rfl
  | equals => exact den_lit' rfl rfl
  | letT => exact den_word _
  | boolean => exact den_alt (den_word _) (den_word _)
  | string =>
    refine (den_seq (den_lit' (c := '"') rfl rfl) (den_seq
      (den_star den_stringItem fun s h => h.ne_nil) (den_lit' (c := '"') rfl rfl))).congr
      fun s v => ?_
    constructor
    · rintro ⟨s1, s2, rfl, rfl, s3, s4, rfl, ⟨items, hi, rfl⟩, rfl⟩
      exact ⟨items, hi, rfl⟩
    · rintro ⟨items, hi, rfl⟩
      exact ⟨['"'], _, rfl, rfl, _, _, rfl, ⟨items, hi, rfl⟩, rfl⟩
  | float =>
    refine (den_seq den_sign (den_alt (den_seq (den_alt (den_seq (den_starChr isDigit)
      (den_seq (den_lit' (c := '.') rfl rfl) den_plus)) (den_seq den_plus
        (den_lit' (c := '.') rfl rfl))) (den_opt (den_alt den_exponent den_suffix)))
      (den_seq den_plus den_exponent))).congr fun s v => ?_
    constructor
    · rintro ⟨sg, s2, rfl, hsg, ⟨m, x, rfl, hm, hx⟩ | ⟨m, x, rfl, hm, hx⟩⟩
      · refine ⟨sg, m, x, rfl, hsg, .inl ⟨?_, ?_⟩⟩
        · rcases hm with ⟨ds, e, rfl, hds, d, es, rfl, rfl, hes⟩ | ⟨ds, e, rfl, hds, rfl⟩
          · refine ⟨ds, es, rfl, ?_, ?_⟩
            · intro c hc
              rcases List.mem_append.1 hc with hc | hc
              · exact hds c hc
              · exact hes.2 c hc
            · simp [hes.1]
          · exact ⟨ds, [], rfl, by simpa using hds.2, by simpa using hds.1⟩
        · rcases hx with (hx | hx) | hx
          · exact .inr (.inl hx)
          · exact .inr (.inr hx)
          · exact .inl hx
      · exact ⟨sg, m, x, rfl, hsg, .inr ⟨hm, hx⟩⟩
    · rintro ⟨sg, m, x, rfl, hsg, ⟨⟨ds, es, rfl, hd, hne⟩, hx⟩ | ⟨hm, hx⟩⟩
      · refine ⟨sg, _, rfl, hsg, .inl ⟨_, x, rfl, ?_, ?_⟩⟩
        · by_cases he : es = []
          · subst he
            exact .inr ⟨ds, ['.'], rfl, ⟨by simpa using hne, by simpa using hd⟩, rfl⟩
          · exact .inl ⟨ds, '.' :: es, rfl, fun c hc => hd c (List.mem_append_left _ hc),
              ['.'], es, rfl, rfl, he, fun c hc => hd c (List.mem_append_right _ hc)⟩
        · rcases hx with hx | hx | hx
          · exact .inr hx
          · exact .inl (.inl hx)
          · exact .inl (.inr hx)
      · exact ⟨sg, _, rfl, hsg, .inr ⟨m, x, rfl, hm, hx⟩⟩
  | integer =>
    refine (den_seq den_sign (den_alt (den_word _) (den_seq den_plus (den_opt den_suffix)))).congr
      fun s v => ?_
    constructor
    · rintro ⟨sg, s2, rfl, hsg, h | ⟨m, x, rfl, hm, hx⟩⟩
      · exact ⟨sg, s2, [], by simp, hsg, .inl ⟨h, rfl⟩⟩
      · exact ⟨sg, m, x, rfl, hsg, .inr ⟨hm, hx.symm⟩⟩
    · rintro ⟨sg, m, x, rfl, hsg, ⟨h, rfl⟩ | ⟨hm, hx⟩⟩
      · exact ⟨sg, _, rfl, hsg, .inl (by rw [List.append_nil]; exact h)⟩
      · exact ⟨sg, _, rfl, hsg, .inr ⟨m, x, rfl, hm, hx.symm⟩⟩
  | identifier =>
    refine (den_seq (den_chr _) (den_starChr isWord)).congr fun s v => ?_
    constructor
    · rintro ⟨s1, w, rfl, ⟨c, rfl, hc⟩, hw⟩
      exact ⟨c, w, rfl, by simpa using hc, hw⟩
    · rintro ⟨c, w, rfl, hc, hw⟩
      exact ⟨[c], w, rfl, ⟨c, rfl, by simpa using hc⟩, hw⟩

end Verif.Lex
