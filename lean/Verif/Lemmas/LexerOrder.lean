import Verif.Lemmas.Lexer

/- The first match of an expression is the longest one, for the expressions of
the token types. -/
namespace Verif.Lex

/-- The order in which matches have to be found. -/
def Ord (a b : Pos) : Prop := a.2.length ≤ b.2.length

/-- The rest begins with a character of a class. -/
def Lead (q : Char → Bool) (y : Pos) : Prop := ∃ c w, y.2 = c :: w ∧ q c = true

theorem outs_le (r : Re) : ∀ (x y : Pos), y ∈ r.outs x → Ord y x := by
  induction r with
  | eps => intro x y h; rw [List.mem_singleton.1 h]; exact Nat.le_refl _
  | chr p =>
    rintro ⟨q, t⟩ y h
    cases t with
    | nil => simp [Re.outs] at h
    | cons c t =>
      simp only [Re.outs] at h
      split at h
      · rw [List.mem_singleton.1 h]; simp [Ord]
      · simp at h
  | seq a b iha ihb =>
    intro x y h
    obtain ⟨z, hz, hy⟩ := List.mem_flatMap.1 h
    exact Nat.le_trans (ihb z y hy) (iha x z hz)
  | alt a b iha ihb =>
    intro x y h
    rcases List.mem_append.1 h with h | h
    · exact iha x y h
    · exact ihb x y h
  | star a iha =>
    intro x y h
    have key : ∀ (n : Nat) (x y : Pos), y ∈ starOuts a.outs n x → Ord y x := by
      intro n
      induction n with
      | zero => intro x y h; rw [List.mem_singleton.1 h]; exact Nat.le_refl _
      | succ n ih =>
        intro x y h
        rcases List.mem_append.1 h with h | h
        · obtain ⟨z, hz, hy⟩ := List.mem_flatMap.1 h
          split at hy
          · exact Nat.le_trans (ih z y hy) (iha x z hz)
          · simp at hy
        · rw [List.mem_singleton.1 h]; exact Nat.le_refl _
    exact key _ x y h
  | wordBoundary =>
    intro x y h
    simp only [Re.outs, List.mem_ite_nil_right, List.mem_singleton] at h
    rw [h.2]; exact Nat.le_refl _

/-- All positions but the first one begin with a character of the class. -/
def RD (q : Char → Bool) (a b : Pos) : Prop := Ord a b ∧ Lead q b

theorem starChr_aux (q : Char → Bool) : ∀ (n : Nat) (x : Pos), x.2.length ≤ n →
    ∃ p tl, starOuts (Re.chr q).outs n x = (p, x.2.dropWhile q) :: tl ∧ (∀ y ∈ tl, Lead q y) ∧
      (starOuts (Re.chr q).outs n x).Pairwise (RD q) := by
  intro n
  induction n with
  | zero =>
    rintro ⟨p, t⟩ hx
    have ht : t = [] := List.length_eq_zero_iff.1 (Nat.le_zero.1 hx)
    subst ht
    exact ⟨p, [], rfl, by simp, by simp [starOuts]⟩
  | succ n ih =>
    rintro ⟨p, t⟩ hx
    cases t with
    | nil => exact ⟨p, [], rfl, by simp, by simp [starOuts, Re.outs]⟩
    | cons c t =>
      by_cases hc : q c = true
      · have he : starOuts (Re.chr q).outs (n + 1) (p, c :: t) =
            starOuts (Re.chr q).outs n (some c, t) ++ [(p, c :: t)] := by
          simp [starOuts, Re.outs, hc]
        obtain ⟨p', tl, e, hl, hp⟩ := ih (some c, t) (by simpa using hx)
        rw [he]
        refine ⟨p', tl ++ [(p, c :: t)], ?_, ?_, ?_⟩
        · rw [e, List.dropWhile_cons_of_pos hc]; rfl
        · intro y hy
          rcases List.mem_append.1 hy with hy | hy
          · exact hl y hy
          · rw [List.mem_singleton.1 hy]; exact ⟨c, t, rfl, hc⟩
        · refine List.pairwise_append.2 ⟨hp, by simp, ?_⟩
          intro a ha b hb
          rw [List.mem_singleton.1 hb]
          refine ⟨?_, c, t, rfl, hc⟩
          have hle : ∀ (n : Nat) (x y : Pos), y ∈ starOuts (Re.chr q).outs n x → Ord y x := by
            intro n
            induction n with
            | zero => intro x y h; rw [List.mem_singleton.1 h]; exact Nat.le_refl _
            | succ n ih =>
              intro x y h
              rcases List.mem_append.1 h with h | h
              · obtain ⟨z, hz, hy⟩ := List.mem_flatMap.1 h
                split at hy
                · exact Nat.le_trans (ih z y hy) (outs_le _ x z hz)
                · simp at hy
              · rw [List.mem_singleton.1 h]; exact Nat.le_refl _
          exact Nat.le_trans (hle n _ a ha) (by simp)
      · refine ⟨p, [], ?_, by simp, ?_⟩
        · simp [starOuts, Re.outs, hc]
        · simp [starOuts, Re.outs, hc]

theorem starChr_shape (q : Char → Bool) (x : Pos) : ∃ p tl,
    (Re.star (.chr q)).outs x = (p, x.2.dropWhile q) :: tl ∧ ∀ y ∈ tl, Lead q y := by
  obtain ⟨p, tl, e, h, _⟩ := starChr_aux q x.2.length x (Nat.le_refl _)
  exact ⟨p, tl, e, h⟩

theorem starChr_pairwise (q : Char → Bool) (x : Pos) :
    ((Re.star (.chr q)).outs x).Pairwise (RD q) := by
  obtain ⟨p, tl, _, _, h⟩ := starChr_aux q x.2.length x (Nat.le_refl _)
  exact h

/-- A sequence whose second part stays where it is (or fails) behind all but
the first match of the first part. -/
theorem seq_pairwise {a b : Re} {x : Pos} {q : Char → Bool} {R : Pos → Pos → Prop}
    (ha : (a.outs x).Pairwise (RD q)) (hb : ∀ y ∈ a.outs x, (b.outs y).Pairwise R)
    (hR : ∀ y z w, Ord z y → Lead q y → w ∈ b.outs y → R z w) :
    ((Re.seq a b).outs x).Pairwise R := by
  show ((a.outs x).flatMap b.outs).Pairwise R
  rw [List.pairwise_flatMap]
  refine ⟨hb, ha.imp ?_⟩
  intro y1 y2 h z hz w hw
  exact hR y2 z w (Nat.le_trans (outs_le b y1 z hz) h.1) h.2 hw

theorem chr_outs_lead {q q' : Char → Bool} {y : Pos} (hd : ∀ c, q c = true → q' c = false)
    (h : Lead q y) : (Re.chr q').outs y = [] := by
  obtain ⟨c, w, e, hc⟩ := h
  unfold Re.outs
  rw [e]
  simp [hd c hc]

theorem chr_pairwise (q : Char → Bool) (x : Pos) (R : Pos → Pos → Prop) :
    ((Re.chr q).outs x).Pairwise R := by
  unfold Re.outs
  split
  · exact .nil
  · split <;> simp

/-- A character followed by something. -/
theorem seqChr_outs (q : Char → Bool) (b : Re) (x : Pos) :
    (Re.seq (.chr q) b).outs x = [] ∨ ∃ y, (Re.seq (.chr q) b).outs x = b.outs y := by
  simp only [Re.outs]
  split
  · exact .inl rfl
  · split
    · exact .inr ⟨_, by simp only [List.flatMap_cons, List.flatMap_nil, List.append_nil]; rfl⟩
    · exact .inl rfl

theorem seqChr_pairwise {q : Char → Bool} {b : Re} {R : Pos → Pos → Prop}
    (hb : ∀ y, (b.outs y).Pairwise R) (x : Pos) : ((Re.seq (.chr q) b).outs x).Pairwise R := by
  rcases seqChr_outs q b x with h | ⟨y, h⟩ <;> rw [h]
  · exact .nil
  · exact hb y

theorem RD.ord {q : Char → Bool} {l : List Pos} (h : l.Pairwise (RD q)) : l.Pairwise Ord :=
  h.imp fun h => h.1

theorem plus_pairwise (x : Pos) : (digit.plus.outs x).Pairwise (RD isDigit) :=
  seqChr_pairwise (starChr_pairwise isDigit) x

theorem isDigit_not_letter {c : Char} (h : isDigit c = true) : isLetter c = false := by
  simp only [isDigit, Bool.and_eq_true, decide_eq_true_eq] at h
  simp only [isLetter, Bool.or_eq_false_iff, Bool.and_eq_false_iff, decide_eq_false_iff_not]
  have e0 : '0'.toNat = 48 := rfl
  have e9 : '9'.toNat = 57 := rfl
  have e1 : 'A'.toNat = 65 := rfl
  have e2 : 'Z'.toNat = 90 := rfl
  have e3 : 'a'.toNat = 97 := rfl
  have e4 : 'z'.toNat = 122 := rfl
  omega

theorem lower_digit {c : Char} (h : isDigit c = true) : lower c = c := by
  unfold lower
  rw [if_neg]
  simp only [isDigit, Bool.and_eq_true, decide_eq_true_eq] at h
  simp only [Bool.and_eq_true, decide_eq_true_eq]
  have e9 : '9'.toNat = 57 := rfl
  have e1 : 'A'.toNat = 65 := rfl
  omega

theorem lit_digit (c : Char) (hc : isDigit (lower c) = false) (d : Char) (h : isDigit d = true) :
    (lower d == lower c) = false := by
  rw [lower_digit h]
  apply Bool.eq_false_iff.2
  intro e
  rw [beq_iff_eq] at e
  rw [← e, h] at hc
  cases hc

theorem lit_lead {c : Char} (hc : isDigit (lower c) = false) {y : Pos} (h : Lead isDigit y) :
    (Re.lit c).outs y = [] := chr_outs_lead (lit_digit c hc) h

theorem seqLit_lead {c : Char} (hc : isDigit (lower c) = false) (b : Re) {y : Pos}
    (h : Lead isDigit y) : (Re.seq (.lit c) b).outs y = [] := by
  show ((Re.lit c).outs y).flatMap b.outs = []
  rw [lit_lead hc h]
  rfl

theorem suffix_lead {y : Pos} (h : Lead isDigit y) : suffix.outs y = [] := by
  show ((Re.lit 'k').outs y ++ ((Re.lit 'm').outs y ++ (Re.lit 'g').outs y)).flatMap _ = []
  rw [lit_lead rfl h, lit_lead rfl h, lit_lead rfl h]
  rfl

theorem suffix_pairwise (x : Pos) (R : Pos → Pos → Prop) : (suffix.outs x).Pairwise R := by
  classical
  rw [outs_suffix]
  split
  · exact .nil
  · split <;> simp

theorem exponent_lead {y : Pos} (h : Lead isDigit y) : exponent.outs y = [] :=
  seqLit_lead rfl _ h

/-- An optional sign in front of something that cannot begin with a sign. -/
theorem seqSign_pairwise {b : Re} {R : Pos → Pos → Prop} (hb : ∀ y, (b.outs y).Pairwise R)
    (hs : ∀ y, Lead (fun c => c == '+' || c == '-') y → b.outs y = []) (x : Pos) :
    ((Re.seq sign b).outs x).Pairwise R := by
  have hlit : ∀ (c d : Char), isLetter c = false → lower c = c →
      ((lower d == lower c) = (d == c)) := by
    intro c d hc hl
    rw [hl, Bool.eq_iff_iff, beq_iff_eq, beq_iff_eq]
    exact ⟨lower_eq hc, fun h => h ▸ hl⟩
  obtain ⟨p, t⟩ := x
  cases t with
  | nil =>
    have : (Re.seq sign b).outs (p, []) = b.outs (p, []) := by
      simp [Re.outs, sign, Re.opt, Re.lit]
    rw [this]; exact hb _
  | cons c t =>
    by_cases hc : (c == '+' || c == '-') = true
    · have : (Re.seq sign b).outs (p, c :: t) = b.outs (some c, t) := by
        simp only [Re.outs, sign, Re.opt, Re.lit, hlit '+' c rfl rfl, hlit '-' c rfl rfl]
        rw [Bool.or_eq_true] at hc
        have h0 := hs (p, c :: t) ⟨c, t, rfl, by simpa using hc⟩
        rcases hc with hc | hc
        · have : c = '+' := by simpa using hc
          subst this
          simp [h0]
        · have : c = '-' := by simpa using hc
          subst this
          simp [h0]
      rw [this]; exact hb _
    · have : (Re.seq sign b).outs (p, c :: t) = b.outs (p, c :: t) := by
        simp only [Re.outs, sign, Re.opt, Re.lit, hlit '+' c rfl rfl, hlit '-' c rfl rfl]
        simp only [Bool.or_eq_true, not_or, Bool.not_eq_true] at hc
        simp [hc.1, hc.2]
      rw [this]; exact hb _

theorem signChar {c : Char} (h : (c == '+' || c == '-') = true) : c = '+' ∨ c = '-' := by
  simpa using h

theorem plus_lead_sign {y : Pos} (h : Lead (fun c => c == '+' || c == '-') y) (b : Re) :
    (Re.seq digit.plus b).outs y = [] ∧ digit.plus.outs y = [] := by
  have h0 : digit.outs y = [] := chr_outs_lead (by
    intro c hc
    rcases signChar hc with rfl | rfl <;> rfl) h
  have h1 : digit.plus.outs y = [] := by
    show (digit.outs y).flatMap _ = []
    rw [h0]; rfl
  exact ⟨by show (digit.plus.outs y).flatMap _ = []; rw [h1]; rfl, h1⟩

theorem lit_lead_sign {d : Char} (hd : lower d ≠ '+' ∧ lower d ≠ '-') {y : Pos}
    (h : Lead (fun c => c == '+' || c == '-') y) : (Re.lit d).outs y = [] :=
  chr_outs_lead (by
    intro c hc
    rcases signChar hc with rfl | rfl
    · exact beq_eq_false_iff_ne.2 fun e => hd.1 e.symm
    · exact beq_eq_false_iff_ne.2 fun e => hd.2 e.symm) h

theorem exponent_pairwise (x : Pos) : (exponent.outs x).Pairwise (RD isDigit) :=
  seqChr_pairwise (fun y => seqSign_pairwise plus_pairwise
    (fun _ h => (plus_lead_sign h .eps).2) y) x

/-- A word is matched in at most one way. -/
theorem word_pairwise (w : List Char) (R : Pos → Pos → Prop) : ∀ x : Pos,
    ((Re.word w).outs x).Pairwise R := by
  induction w with
  | nil => intro x; simp [Re.word, Re.outs]
  | cons c w ih =>
    intro x
    cases w with
    | nil => exact chr_pairwise _ x R
    | cons c' w => exact seqChr_pairwise ih x

theorem opt_pairwise {a : Re} {x : Pos} (h : (a.outs x).Pairwise Ord) :
    (a.opt.outs x).Pairwise Ord := by
  refine List.pairwise_append.2 ⟨h, by simp [Re.outs], ?_⟩
  intro y hy z hz
  rw [List.mem_singleton.1 hz]
  exact outs_le a x y hy

/-- Only the position itself is reached. -/
theorem opt_lead {a : Re} {y : Pos} (h : a.outs y = []) : a.opt.outs y = [y] := by
  show a.outs y ++ [y] = [y]
  rw [h]; rfl

/-- Digits in front of something else. -/
theorem digits_split {ds ds' : List Char} {c c' : Char} {w w' : List Char}
    (h1 : ∀ d ∈ ds, isDigit d = true) (h2 : ∀ d ∈ ds', isDigit d = true)
    (hc : isDigit c = false) (hc' : isDigit c' = false)
    (h : ds ++ c :: w = ds' ++ c' :: w') : ds = ds' ∧ c = c' ∧ w = w' := by
  induction ds generalizing ds' with
  | nil =>
    cases ds' with
    | nil =>
      simp only [List.nil_append, List.cons.injEq] at h
      exact ⟨rfl, h.1, h.2⟩
    | cons d ds' =>
      simp only [List.nil_append, List.cons_append, List.cons.injEq] at h
      rw [h.1, h2 d (List.mem_cons_self ..)] at hc
      cases hc
  | cons d ds ih =>
    cases ds' with
    | nil =>
      simp only [List.nil_append, List.cons_append, List.cons.injEq] at h
      rw [← h.1, h1 d (List.mem_cons_self ..)] at hc'
      cases hc'
    | cons d' ds' =>
      simp only [List.cons_append, List.cons.injEq] at h
      obtain ⟨e1, e2, e3⟩ := ih (fun d hd => h1 d (List.mem_cons_of_mem _ hd))
        (fun d hd => h2 d (List.mem_cons_of_mem _ hd)) h.2
      exact ⟨by rw [h.1, e1], e2, e3⟩

/-- A string is matched in at most one way. -/
theorem string_unique {i1 i2 : List (List Char)} {v1 v2 : List Char}
    (h1 : ∀ i ∈ i1, StringItem i) (h2 : ∀ i ∈ i2, StringItem i)
    (h : i1.flatten ++ '"' :: v1 = i2.flatten ++ '"' :: v2) : v1 = v2 := by
  have quote : ∀ (i : List Char) (a b : List Char), StringItem i → i ++ a ≠ '"' :: b := by
    intro i a b hi e
    rcases hi with ⟨c, rfl, hc, _⟩ | rfl | rfl | ⟨c, rfl, _⟩
    · simp only [List.cons_append, List.nil_append, List.cons.injEq] at e
      exact hc e.1
    all_goals
      simp only [List.cons_append, List.nil_append, List.cons.injEq] at e
      exact absurd e.1 (by decide)
  have item : ∀ (i j a b : List Char), StringItem i → StringItem j → i ++ a = j ++ b → a = b := by
    intro i j a b hi hj e
    have slash : ∀ c : Char, lower c = 'n' → c ≠ '"' ∧ c ≠ '\\' := by
      intro c hc
      constructor <;> intro e <;> rw [e] at hc <;> exact absurd hc (by decide)
    rcases hi with ⟨c, rfl, hc1, hc2⟩ | rfl | rfl | ⟨c, rfl, hc⟩ <;>
    rcases hj with ⟨d, rfl, hd1, hd2⟩ | rfl | rfl | ⟨d, rfl, hd⟩ <;>
    simp only [List.cons_append, List.nil_append, List.cons.injEq, true_and] at e <;>
    first
      | exact e.2
      | exact e
      | exact absurd e.1 hc2
      | exact absurd e.1.symm hd2
      | exact absurd e.1 (by decide)
  induction i1 generalizing i2 with
  | nil =>
    cases i2 with
    | nil => simpa using h
    | cons j i2 =>
      exfalso
      simp only [List.flatten_nil, List.nil_append, List.flatten_cons, List.append_assoc] at h
      exact quote j _ _ (h2 j (List.mem_cons_self ..)) h.symm
  | cons i i1 ih =>
    cases i2 with
    | nil =>
      exfalso
      simp only [List.flatten_nil, List.nil_append, List.flatten_cons, List.append_assoc] at h
      exact quote i _ _ (h1 i (List.mem_cons_self ..)) h
    | cons j i2 =>
      simp only [List.flatten_cons, List.append_assoc] at h
      exact ih (fun i hi => h1 i (List.mem_cons_of_mem _ hi))
        (fun i hi => h2 i (List.mem_cons_of_mem _ hi))
        (item i j _ _ (h1 i (List.mem_cons_self ..)) (h2 j (List.mem_cons_self ..)) h)

/-- The matches of the expression of a token type are found from the longest
to the shortest. -/
theorem tokenRe_pairwise (t : TokenType) (x : Pos) : ((tokenRe t).outs x).Pairwise Ord := by
  cases t with
  | openingParenthesis => exact chr_pairwise _ _ _
  | closingParenthesis => exact chr_pairwise _ _ _
  | openingBracket => exact chr_pairwise _ _ _
  | closingBracket => exact chr_pairwise _ _ _
  | comma => exact chr_pairwise _ _ _
  | equals => exact chr_pairwise _ _ _
  | letT => exact word_pairwise _ _ _
  | boolean =>
    refine List.pairwise_append.2 ⟨word_pairwise _ _ _, word_pairwise _ _ _, ?_⟩
    intro y hy z hz
    exfalso
    obtain ⟨s1, e1, h1⟩ := (den_word _ x y.2).1 ⟨y.1, hy⟩
    obtain ⟨s2, e2, h2⟩ := (den_word _ x z.2).1 ⟨z.1, hz⟩
    cases s1 with
    | nil => simp at h1
    | cons c1 s1 =>
      cases s2 with
      | nil => simp at h2
      | cons c2 s2 =>
        rw [List.map_cons, List.map_cons, List.cons.injEq] at h1 h2
        rw [e1] at e2
        simp only [List.cons_append, List.cons.injEq] at e2
        rw [e2.1, h2.1] at h1
        exact absurd h1.1 (by decide)
  | string =>
    refine List.pairwise_iff_forall_sublist.2 ?_
    intro y z hyz
    have hy : y ∈ (tokenRe .string).outs x := hyz.subset (by simp)
    have hz : z ∈ (tokenRe .string).outs x := hyz.subset (by simp)
    obtain ⟨s1, e1, i1, h1, rfl⟩ := (den_tokenRe .string x y.2).1 ⟨y.1, hy⟩
    obtain ⟨s2, e2, i2, h2, rfl⟩ := (den_tokenRe .string x z.2).1 ⟨z.1, hz⟩
    rw [e1] at e2
    simp only [List.cons_append, List.append_assoc, List.nil_append, List.cons.injEq,
      true_and] at e2
    unfold Ord
    rw [string_unique h1 h2 e2]
    exact Nat.le_refl _
  | float =>
    apply seqSign_pairwise
    · intro x
      refine List.pairwise_append.2 ⟨?_, ?_, ?_⟩
      · apply seq_pairwise (q := isDigit)
        · refine List.pairwise_append.2 ⟨?_, ?_, ?_⟩
          · apply seq_pairwise (q := isDigit) (starChr_pairwise isDigit x)
            · intro y _
              exact seqChr_pairwise plus_pairwise y
            · intro y z w _ hy hw
              rw [seqLit_lead rfl _ hy] at hw
              simp at hw
          · apply seq_pairwise (q := isDigit) (plus_pairwise x)
            · intro y _
              exact chr_pairwise _ _ _
            · intro y z w _ hy hw
              rw [lit_lead rfl hy] at hw
              simp at hw
          · intro y hy z hz
            obtain ⟨s1, e1, ds1, r1, rfl, h1, r2, es, rfl, rfl, hes⟩ :=
              (den_seq (den_starChr isDigit) (den_seq (den_lit' (c := '.') rfl rfl) den_plus)
                x y.2).1 ⟨y.1, hy⟩
            obtain ⟨s2, e2, ds2, r3, rfl, h2, rfl⟩ :=
              (den_seq den_plus (den_lit' (c := '.') rfl rfl) x z.2).1 ⟨z.1, hz⟩
            rw [e1] at e2
            simp only [List.append_assoc, List.cons_append, List.nil_append] at e2
            obtain ⟨_, _, e⟩ := digits_split h1 h2.2 rfl rfl e2
            obtain ⟨hne, hd⟩ := hes
            cases es with
            | nil => exact absurd rfl hne
            | cons d es =>
              refine ⟨?_, d, es ++ y.2, by rw [← e]; rfl, hd d (List.mem_cons_self ..)⟩
              unfold Ord
              rw [← e]
              simp
              omega
        · intro y _
          apply opt_pairwise
          refine List.pairwise_append.2 ⟨RD.ord (exponent_pairwise y), suffix_pairwise y _, ?_⟩
          intro a ha b hb
          exfalso
          obtain ⟨s1, e1, c1, sg, ds, rfl, hc1, _⟩ := (den_exponent y a.2).1 ⟨a.1, ha⟩
          obtain ⟨s2, e2, c2, rfl, hc2, _⟩ := (den_suffix y b.2).1 ⟨b.1, hb⟩
          rw [e1] at e2
          simp only [List.cons_append, List.cons.injEq] at e2
          rw [← e2.1, hc1] at hc2
          exact absurd hc2 (by decide)
        · intro y z w hzy hy hw
          have h0 : (exponent.alt suffix).outs y = [] := by
            show exponent.outs y ++ suffix.outs y = []
            rw [exponent_lead hy, suffix_lead hy]
            rfl
          rw [opt_lead h0, List.mem_singleton] at hw
          rw [hw]; exact hzy
      · apply RD.ord (q := isDigit)
        apply seq_pairwise (q := isDigit) (plus_pairwise x)
        · intro y _
          exact exponent_pairwise y
        · intro y z w _ hy hw
          rw [exponent_lead hy] at hw
          simp at hw
      · intro y hy z hz
        exfalso
        obtain ⟨u, hu, _⟩ := List.mem_flatMap.1 hy
        have hz' : ∃ s, x.2 = s ++ z.2 ∧ _ := (den_seq den_plus den_exponent x z.2).1 ⟨z.1, hz⟩
        obtain ⟨s2, e2, ds2, r3, rfl, h2, c, sg, ds3, rfl, hc, _⟩ := hz'
        have hcd : isDigit c = false := by
          cases h : isDigit c with
          | false => rfl
          | true =>
            rw [lower_digit h] at hc
            rw [hc] at h
            exact absurd h (by decide)
        have hdot : ∃ ds1 r1, x.2 = ds1 ++ '.' :: r1 ∧ ∀ d ∈ ds1, isDigit d = true := by
          rcases List.mem_append.1 hu with hu | hu
          · obtain ⟨s1, e1, ds1, r1, rfl, h1, r2, es, rfl, rfl, hes⟩ :=
              (den_seq (den_starChr isDigit) (den_seq (den_lit' (c := '.') rfl rfl) den_plus)
                x u.2).1 ⟨u.1, hu⟩
            exact ⟨ds1, es ++ u.2, by rw [e1]; simp, h1⟩
          · obtain ⟨s1, e1, ds1, r1, rfl, h1, rfl⟩ :=
              (den_seq den_plus (den_lit' (c := '.') rfl rfl) x u.2).1 ⟨u.1, hu⟩
            exact ⟨ds1, u.2, by rw [e1]; simp, h1.2⟩
        obtain ⟨ds1, r1, e1, h1⟩ := hdot
        rw [e1] at e2
        simp only [List.append_assoc, List.cons_append] at e2
        obtain ⟨_, e, _⟩ := digits_split h1 h2.2 rfl hcd e2
        rw [← e] at hc
        exact absurd hc (by decide)
    · intro y hy
      have h1 := (plus_lead_sign hy (Re.lit '.')).1
      have h2 := (plus_lead_sign hy exponent).1
      have hst : (Re.star digit).outs y = [y] := by
        obtain ⟨c, w, e, hc⟩ := hy
        obtain ⟨p, t⟩ := y
        simp only at e
        subst e
        have hd : isDigit c = false := by rcases signChar hc with rfl | rfl <;> rfl
        simp [Re.outs, digit, starOuts, hd]
      have h3 : ((Re.star digit).seq ((Re.lit '.').seq digit.plus)).outs y = [] := by
        show ((Re.star digit).outs y).flatMap _ = []
        rw [hst]
        simp only [List.flatMap_cons, List.flatMap_nil, List.append_nil]
        show ((Re.lit '.').outs y).flatMap _ = []
        rw [lit_lead_sign (by decide) hy]
        rfl
      show (((Re.star digit).seq ((Re.lit '.').seq digit.plus)).outs y ++
        (digit.plus.seq (Re.lit '.')).outs y).flatMap _ ++ (digit.plus.seq exponent).outs y = []
      rw [h1, h2, h3]
      rfl
  | integer =>
    apply seqSign_pairwise
    · intro x
      refine List.pairwise_append.2 ⟨word_pairwise _ _ _, ?_, ?_⟩
      · apply seq_pairwise (q := isDigit) (plus_pairwise x)
        · intro y _
          exact opt_pairwise (suffix_pairwise y _)
        · intro y z w hzy hy hw
          rw [opt_lead (suffix_lead hy), List.mem_singleton] at hw
          rw [hw]; exact hzy
      · intro y hy z hz
        exfalso
        obtain ⟨s1, e1, h1⟩ := (den_word _ x y.2).1 ⟨y.1, hy⟩
        obtain ⟨u, hu, _⟩ := List.mem_flatMap.1 hz
        obtain ⟨s2, e2, hne, hd⟩ := (den_plus x u.2).1 ⟨u.1, hu⟩
        cases s1 with
        | nil => simp at h1
        | cons c1 s1 =>
          cases s2 with
          | nil => exact absurd rfl hne
          | cons c2 s2 =>
            rw [List.map_cons, List.map_cons, List.cons.injEq] at h1
            rw [e1] at e2
            simp only [List.cons_append, List.cons.injEq] at e2
            have hc2 := hd c2 (List.mem_cons_self ..)
            rw [e2.1, lower_digit hc2] at h1
            rw [h1.1] at hc2
            exact absurd hc2 (by decide)
    · intro y hy
      show (Re.word _).outs y ++ (digit.plus.seq _).outs y = []
      rw [(plus_lead_sign hy _).1, List.append_nil]
      show ((Re.lit 'i').outs y).flatMap _ = []
      rw [lit_lead_sign (by decide) hy]
      rfl
  | identifier => exact RD.ord (seqChr_pairwise (starChr_pairwise isWord) x)

end Verif.Lex
