import Verif.Spec.PlanFiles

/-
C47 and C59: plan files can be read back; a portfolio whose planner runs are killed at any point keeps exactly the complete plans.
-/
namespace Verif.PlanFiles

theorem strip_iff : ∀ {ps l r : List Char}, strip ps l = some r ↔ l = ps ++ r
  | [], l, r => by simp [strip]
  | p :: ps, [], r => by simp [strip]
  | p :: ps, c :: cs, r => by
    simp only [strip]
    split
    · rename_i h; subst h; rw [strip_iff]; simp
    · rename_i h
      simp only [List.cons_append, List.cons.injEq, reduceCtorEq, false_iff]
      exact fun h' => h h'.1.symm

theorem toNat_digit {n : Nat} (h : n < 10) : (digit n).toNat = 48 + n := by
  unfold digit
  have : ∀ k : Fin 10, (Char.ofNat (48 + k.val)).toNat = 48 + k.val := by decide
  exact this ⟨n, h⟩

theorem isDigit_digit {n : Nat} (h : n < 10) : isDigit (digit n) = true := by
  unfold isDigit
  rw [toNat_digit h]
  simp only [decide_eq_true_eq]
  omega

theorem digits_isDigit (n : Nat) : ∀ c ∈ digits n, isDigit c = true := by
  induction n using Nat.strongRecOn with
  | ind n ih =>
    rw [digits]
    split
    · rename_i h
      intro c hc
      simp only [List.mem_singleton] at hc
      subst hc
      exact isDigit_digit h
    · intro c hc
      rcases List.mem_append.mp hc with hc | hc
      · exact ih (n / 10) (by omega) c hc
      · simp only [List.mem_singleton] at hc
        subst hc
        exact isDigit_digit (by omega)

theorem digits_ne (n : Nat) : digits n ≠ [] := by
  rw [digits]
  split <;> simp

theorem toInt_digits (n : Nat) : toInt (digits n) = n := by
  induction n using Nat.strongRecOn with
  | ind n ih =>
    rw [digits]
    split
    · rename_i h
      simp only [toInt, List.foldl_cons, List.foldl_nil, toNat_digit h]
      omega
    · rename_i h
      have := ih (n / 10) (by omega)
      unfold toInt at this ⊢
      rw [List.foldl_append, this]
      simp only [List.foldl_cons, List.foldl_nil, toNat_digit (show n % 10 < 10 by omega)]
      omega

theorem takeWhile_digits {n : Nat} {c : Char} {r : List Char} (hc : isDigit c = false) : (digits n ++ c :: r).takeWhile isDigit = digits n ∧ (digits n ++ c :: r).dropWhile isDigit = c :: r := by
  have h := digits_isDigit n
  generalize digits n = l at h ⊢
  induction l with
  | nil => simp [hc]
  | cons d l ih =>
    have h1 := h d (by simp)
    have := ih (fun c hc => h c (by simp [hc]))
    simp [h1, this]

/-- the regular expression recognises the last line -/
theorem matchInfo_costLine (cost : Nat) (unit : Bool) : matchInfo (costLine cost unit) = some (cost, unit) := by
  unfold matchInfo costLine
  rw [strip_iff.mpr rfl]
  have e : " (".toList ++ (kind unit ++ ")\n".toList) = ' ' :: ('(' :: (kind unit ++ ")\n".toList)) := rfl
  have hd := takeWhile_digits (n := cost) (c := ' ') (r := '(' :: (kind unit ++ ")\n".toList)) (by decide)
  simp only [e, hd.1, hd.2, digits_ne, if_false, toInt_digits]
  cases unit with
  | true => rw [strip_iff.mpr (show _ = _ ++ [] by rfl)]
  | false =>
    have : strip (" (".toList ++ (kind true ++ ")\n".toList)) (' ' :: ('(' :: (kind false ++ ")\n".toList))) = none := by decide
    rw [this, strip_iff.mpr (show _ = _ ++ [] by rfl)]

theorem matchInfo_newline {l : List Char} {r : Nat × Bool} (h : matchInfo l = some r) : '\n' ∈ l := by
  unfold matchInfo at h
  split at h
  · simp at h
  · rename_i l' hl
    rw [strip_iff] at hl
    have key : '\n' ∈ l'.dropWhile isDigit := by
      split at h
      · simp at h
      · split at h
        · rename_i x hx
          rw [strip_iff] at hx
          rw [hx]
          exact List.mem_append_left _ (by decide)
        · split at h
          · rename_i x hx
            rw [strip_iff] at hx
            rw [hx]
            exact List.mem_append_left _ (by decide)
          · simp at h
    rw [hl]
    exact List.mem_append_right _ ((List.dropWhile_sublist isDigit).subset key)

theorem matchInfo_paren (l : List Char) : matchInfo ('(' :: l) = none := by
  have : strip "; cost = ".toList ('(' :: l) = none := by
    show strip (';' :: " cost = ".toList) ('(' :: l) = none
    simp [strip]
  simp only [matchInfo, this]

theorem lastLineAux_line {line : List Char} (h : '\n' ∉ line) : ∀ (rest cur last : List Char), lastLineAux (line ++ '\n' :: rest) cur last = lastLineAux rest [] (cur ++ line ++ ['\n']) := by
  induction line with
  | nil => intro rest cur last; simp [lastLineAux]
  | cons c line ih =>
    intro rest cur last
    have hc : c ≠ '\n' := fun e => h (by simp [e])
    simp only [List.cons_append, lastLineAux, if_neg hc]
    rw [ih (fun h' => h (by simp [h']))]
    simp

theorem lastLineAux_open {line : List Char} (h : '\n' ∉ line) : ∀ (cur last : List Char), lastLineAux line cur last = if cur ++ line = [] then last else cur ++ line := by
  induction line with
  | nil => intro cur last; simp [lastLineAux]
  | cons c line ih =>
    intro cur last
    have hc : c ≠ '\n' := fun e => h (by simp [e])
    simp only [lastLineAux, if_neg hc]
    rw [ih (fun h' => h (by simp [h']))]
    simp

theorem kind_newline (unit : Bool) : '\n' ∉ kind unit := by cases unit <;> decide

theorem digits_newline (n : Nat) : '\n' ∉ digits n := by
  intro h
  have := digits_isDigit n _ h
  exact absurd this (by decide)

theorem costLine_split (cost : Nat) (unit : Bool) : ∃ x, '\n' ∉ x ∧ x ≠ [] ∧ costLine cost unit = x ++ ['\n'] := by
  refine ⟨"; cost = ".toList ++ (digits cost ++ (" (".toList ++ (kind unit ++ [')']))), ?_, by simp, ?_⟩
  · simp only [List.mem_append, not_or]
    exact ⟨by decide, digits_newline cost, by decide, kind_newline unit, by decide⟩
  · unfold costLine
    simp only [List.append_assoc]
    rfl

theorem opLine_eq (name : List Char) : opLine name = ('(' :: (name ++ [')'])) ++ ['\n'] := by simp [opLine]

theorem lastLine_planFile (names : List (List Char)) (cost : Nat) (unit : Bool) (h : ∀ n ∈ names, '\n' ∉ n) : ∀ last, lastLineAux (planFile names cost unit) [] last = costLine cost unit := by
  unfold planFile
  induction names with
  | nil =>
    intro last
    obtain ⟨x, h1, h2, h3⟩ := costLine_split cost unit
    simp only [List.map_nil, List.flatten_nil, List.nil_append, h3]
    have := lastLineAux_line h1 [] [] last
    rw [show x ++ ['\n'] = x ++ '\n' :: [] from rfl, this]
    simp [lastLineAux]
  | cons n names ih =>
    intro last
    have hn : '\n' ∉ '(' :: (n ++ [')']) := by
      have := h n (by simp)
      simp [this]
    have := lastLineAux_line hn ((names.map opLine).flatten ++ costLine cost unit) [] last
    rw [List.map_cons, List.flatten_cons, opLine_eq]
    rw [List.append_assoc, List.append_assoc, List.singleton_append, this]
    exact ih (fun m hm => h m (by simp [hm])) _

/-- C47: reading a plan file gives the cost and the type that were written, for all plans and costs. -/
theorem C47_roundtrip {p : SavedPlan} (hp : p.Ok) (unit : Bool) : parsePlan (p.file unit) = some (p.cost, unit) := by
  unfold parsePlan lastLine SavedPlan.file
  rw [lastLine_planFile _ _ _ hp]
  exact matchInfo_costLine p.cost unit

theorem prefix_cases {α : Type} {a b p q : List α} (h : a ++ b = p ++ q) (hne : b ≠ []) : (∃ r, r ≠ [] ∧ a = p ++ r) ∨ ∃ r, p = a ++ r ∧ b = r ++ q := by
  rcases List.append_eq_append_iff.mp h with ⟨r, h1, h2⟩ | ⟨r, h1, h2⟩
  · exact Or.inr ⟨r, h1, h2⟩
  · by_cases hr : r = []
    · subst hr
      right
      exact ⟨[], by simpa using h1.symm, by simpa using h2.symm⟩
    · exact Or.inl ⟨r, hr, h1⟩

theorem prefix_newline {x w r : List Char} (hx : '\n' ∉ x) (h : x ++ ['\n'] = w ++ r) (hr : r ≠ []) : '\n' ∉ w := by
  intro hw
  have h1 : w.IsPrefix x := by
    have hlen := congrArg List.length h
    simp only [List.length_append, List.length_cons, List.length_nil] at hlen
    have : 0 < r.length := List.length_pos_of_ne_nil hr
    have h2 : w.IsPrefix (x ++ ['\n']) := ⟨r, h.symm⟩
    exact List.prefix_of_prefix_length_le h2 (List.prefix_append x ['\n']) (by omega)
  exact hx (h1.subset hw)

/-- a line that is empty or begins with a parenthesis -/
def Harmless (l : List Char) : Prop := l = [] ∨ ∃ l', l = '(' :: l'

theorem Harmless.noMatch {l : List Char} (h : Harmless l) : matchInfo l = none := by
  rcases h with rfl | ⟨l', rfl⟩
  · decide
  · exact matchInfo_paren l'

theorem parse_prefix (names : List (List Char)) (cost : Nat) (unit : Bool) (h : ∀ n ∈ names, '\n' ∉ n) : ∀ {w r : List Char}, r ≠ [] → planFile names cost unit = w ++ r → ∀ last, Harmless last → matchInfo (lastLineAux w [] last) = none := by
  induction names with
  | nil =>
    intro w r hr he last hl
    obtain ⟨x, h1, h2, h3⟩ := costLine_split cost unit
    have hw : '\n' ∉ w := by
      refine prefix_newline h1 ?_ hr
      rw [← h3, ← he]
      rfl
    rw [lastLineAux_open hw]
    split
    · exact hl.noMatch
    · cases hm : matchInfo ([] ++ w) with
      | none => rfl
      | some v => exact absurd (matchInfo_newline hm) (by simpa using hw)
  | cons n names ih =>
    intro w r hr he last hl
    have e : opLine n ++ planFile names cost unit = w ++ r := by rw [← he]; simp [planFile]
    have hn : '\n' ∉ '(' :: (n ++ [')']) := by
      have := h n (by simp)
      simp [this]
    rcases prefix_cases e (by obtain ⟨x, _, _, h3⟩ := costLine_split cost unit; simp [planFile, h3]) with ⟨s, hs, h1⟩ | ⟨s, h1, h2⟩
    · have hw : '\n' ∉ w := prefix_newline hn (by rw [← opLine_eq]; exact h1) hs
      rw [lastLineAux_open hw]
      split
      · exact hl.noMatch
      · rename_i hne
        refine Harmless.noMatch (Or.inr ?_)
        cases w with
        | nil => simp at hne
        | cons c w =>
          rw [opLine_eq] at h1
          simp only [List.cons_append, List.cons.injEq] at h1
          exact ⟨w, by simp [← h1.1]⟩
    · subst h1
      rw [opLine_eq, List.append_assoc, List.singleton_append, lastLineAux_line hn]
      exact ih (fun m hm => h m (by simp [hm])) hr h2 _ (Or.inr ⟨_, rfl⟩)

/-- C47: a plan file that has not been written to the end is never taken for a plan. -/
theorem C47_incomplete {p : SavedPlan} (hp : p.Ok) (unit : Bool) {written rest : List Char} (hr : rest ≠ []) (h : p.file unit = written ++ rest) : parsePlan written = none :=
  parse_prefix p.names p.cost unit hp hr h [] (Or.inl rfl)

theorem line_injective {a b x y : List Char} (ha : '\n' ∉ a) (hb : '\n' ∉ b) (h : a ++ '\n' :: x = b ++ '\n' :: y) : a = b ∧ x = y := by
  induction a generalizing b with
  | nil =>
    cases b with
    | nil => exact ⟨rfl, by simpa using h⟩
    | cons c b =>
      simp only [List.nil_append, List.cons_append, List.cons.injEq] at h
      exact absurd (by rw [← h.1]; simp) hb
  | cons d a ih =>
    cases b with
    | nil =>
      simp only [List.nil_append, List.cons_append, List.cons.injEq] at h
      exact absurd (by rw [h.1]; simp) ha
    | cons c b =>
      simp only [List.cons_append, List.cons.injEq] at h
      obtain ⟨h1, h2⟩ := ih (fun e => ha (by simp [e])) (fun e => hb (by simp [e])) h.2
      exact ⟨by rw [h.1, h1], h2⟩

theorem opLine_flat_injective {a b : List (List Char)} (ha : ∀ n ∈ a, '\n' ∉ n) (hb : ∀ n ∈ b, '\n' ∉ n) (h : (a.map opLine).flatten = (b.map opLine).flatten) : a = b := by
  induction a generalizing b with
  | nil =>
    cases b with
    | nil => rfl
    | cons n b => simp [opLine] at h
  | cons m a ih =>
    cases b with
    | nil => simp [opLine] at h
    | cons n b =>
      simp only [List.map_cons, List.flatten_cons, opLine_eq, List.append_assoc, List.singleton_append] at h
      have hm := ha m (by simp)
      have hn := hb n (by simp)
      obtain ⟨h1, h2⟩ := line_injective (by simp [hm]) (by simp [hn]) h
      simp only [List.cons.injEq, List.append_cancel_right_eq, true_and] at h1
      rw [h1, ih (fun x hx => ha x (by simp [hx])) (fun x hx => hb x (by simp [hx])) h2]

/-- C47: the file determines the plan: the names of the operators in their order, the cost and the type. -/
theorem C47_injective {p q : SavedPlan} (hp : p.Ok) (hq : q.Ok) {u v : Bool} (h : p.file u = q.file v) : p = q ∧ u = v := by
  have h1 := C47_roundtrip hp u
  rw [h, C47_roundtrip hq v] at h1
  simp only [Option.some.injEq, Prod.mk.injEq] at h1
  obtain ⟨hc, rfl⟩ := h1
  refine ⟨?_, rfl⟩
  obtain ⟨a, c⟩ := p
  obtain ⟨b, d⟩ := q
  simp only at hc
  subst hc
  unfold SavedPlan.file planFile at h
  exact congrArg (fun l => SavedPlan.mk l _) (opLine_flat_injective hp hq (List.append_cancel_right h))

/-- C47: the cost in the file is the sum of the operator costs (if this is an int). -/
theorem C47_cost {cs : List Nat} {n : Nat} (h : planCost cs 0 = some n) : n = cs.sum ∧ (cs ≠ [] → n < 2 ^ 31) := by
  have key : ∀ {cs : List Nat} {acc n : Nat}, planCost cs acc = some n → n = acc + cs.sum ∧ (cs ≠ [] → n < 2 ^ 31) := by
    intro cs
    induction cs with
    | nil => intro acc n h; simp only [planCost, Option.some.injEq] at h; simp [h]
    | cons c cs ih =>
      intro acc n h
      simp only [planCost] at h
      split at h
      · rename_i hlt
        obtain ⟨h1, h2⟩ := ih h
        refine ⟨by simp only [List.sum_cons]; omega, fun _ => ?_⟩
        by_cases e : cs = []
        · subst e; simp only [List.sum_nil] at h1; omega
        · exact h2 e
      · simp at h
  have := key h
  simpa using this

theorem C47_cost_defined {cs : List Nat} (h : cs.sum < 2 ^ 31) : planCost cs 0 = some cs.sum := by
  have key : ∀ (cs : List Nat) (acc : Nat), acc + cs.sum < 2 ^ 31 → planCost cs acc = some (acc + cs.sum) := by
    intro cs
    induction cs with
    | nil => intro acc _; simp [planCost]
    | cons c cs ih =>
      intro acc hlt
      simp only [List.sum_cons] at hlt ⊢
      simp only [planCost, if_pos (show acc + c < 2 ^ 31 by omega)]
      rw [ih _ (by omega)]
      congr 1
      omega
  simpa using key cs 0 (by simpa using h)

/-! Portfolios -/

/-- what holds between planner runs -/
structure Inv (unit : Bool) (bound : Option Nat) (m : Manager) (fs : Files) : Prop where
  decreasing : m.costs.Pairwise (fun a b => b < a)
  below : ∀ c ∈ m.costs, ∀ b, bound = some b → c < b
  unitOk : m.unit = if m.costs = [] then none else some unit
  files : ∀ (k c : Nat), m.costs[k]? = some c → ∃ p : SavedPlan, p.Ok ∧ p.cost = c ∧ fs (k + 1) = some (p.file unit)
  none : ∀ k, m.costs.length < k → fs k = Option.none

theorem add_ok {unit : Bool} {bound : Option Nat} {m : Manager} {fs : Files} (h : Inv unit bound m fs) {p : SavedPlan} (hp : p.Ok) (hb : ∀ c, nextBound m bound = some c → p.cost < c) :
    ∃ m', m.add p.cost unit = some m' ∧ m'.costs = m.costs ++ [p.cost] ∧ Inv unit bound m' (fs.write (m.costs.length + 1) (p.file unit)) := by
  have hlast : ∀ l, m.costs.getLast? = some l → ∀ c ∈ m.costs, l ≤ c := by
    intro l hl c hc
    rw [List.getLast?_eq_some_iff] at hl
    obtain ⟨ys, hys⟩ := hl
    have hd := h.decreasing
    rw [hys] at hd hc
    obtain ⟨_, _, h3⟩ := List.pairwise_append.mp hd
    rcases List.mem_append.mp hc with hc | hc
    · exact Nat.le_of_lt (h3 c hc l (by simp))
    · simp only [List.mem_singleton] at hc
      omega
  have hlt : ∀ c ∈ m.costs, p.cost < c := by
    intro c hc
    cases hl : m.costs.getLast? with
    | none => rw [List.getLast?_eq_none_iff] at hl; rw [hl] at hc; simp at hc
    | some l =>
      have h1 := hb l (by simp [nextBound, hl])
      have h2 := hlast l hl c hc
      omega
  have hbel : ∀ b, bound = some b → p.cost < b := by
    intro b hbd
    cases hl : m.costs.getLast? with
    | none => exact hb b (by simp [nextBound, hl, hbd])
    | some l =>
      have h1 := hb l (by simp [nextBound, hl])
      have h2 := h.below l (List.mem_of_getLast? hl) b hbd
      omega
  have hinv : ∀ u, u = some unit → Inv unit bound ⟨m.costs ++ [p.cost], u⟩ (fs.write (m.costs.length + 1) (p.file unit)) := by
    intro u hu
    refine ⟨?_, ?_, by simp [hu], ?_, ?_⟩
    · exact List.pairwise_append.mpr ⟨h.decreasing, by simp, fun a ha b hb => by simp only [List.mem_singleton] at hb; subst hb; exact hlt a ha⟩
    · intro c hc b hb'
      rcases List.mem_append.mp hc with hc | hc
      · exact h.below c hc b hb'
      · simp only [List.mem_singleton] at hc
        subst hc
        exact hbel b hb'
    · intro k c hk
      simp only at hk
      by_cases hlen : k < m.costs.length
      · rw [List.getElem?_append_left hlen] at hk
        obtain ⟨q, h1, h2, h3⟩ := h.files k c hk
        exact ⟨q, h1, h2, by simp only [Files.write]; rw [if_neg (by omega)]; exact h3⟩
      · rw [List.getElem?_append_right (by omega)] at hk
        have hk0 : k - m.costs.length = 0 := by
          by_contra hne
          rw [List.getElem?_eq_none (by simp; omega)] at hk
          simp at hk
        rw [hk0] at hk
        simp only [List.getElem?_cons_zero, Option.some.injEq] at hk
        have : k = m.costs.length := by omega
        subst this
        exact ⟨p, hp, hk, by simp [Files.write]⟩
    · intro k hk
      simp only [List.length_append, List.length_cons, List.length_nil] at hk
      simp only [Files.write]
      rw [if_neg (by omega)]
      exact h.none k (by omega)
  unfold Manager.add
  by_cases he : m.costs = []
  · have hu : m.unit = Option.none := by rw [h.unitOk, if_pos he]
    rw [hu]
    exact ⟨_, rfl, rfl, hinv _ rfl⟩
  · have hu : m.unit = some unit := by rw [h.unitOk, if_neg he]
    obtain ⟨l, hl⟩ := (⟨_, List.getLast?_eq_some_getLast he⟩ : ∃ l, m.costs.getLast? = some l)
    have := hlt l (List.mem_of_getLast? hl)
    simp only [hu, ne_eq, not_true_eq_false, if_false, hl, if_neg (show ¬p.cost ≥ l by omega)]
    exact ⟨_, rfl, rfl, hinv _ rfl⟩

theorem unlink_write {fs : Files} {n : Nat} {c : List Char} (h : fs n = none) : (fs.write n c).unlink n = fs := by
  funext k
  simp only [Files.unlink, Files.write]
  split
  · rename_i e; rw [e, h]
  · rfl

/-- the files after writing the plans completely -/
def writeAll (unit : Bool) : Nat → List SavedPlan → Files → Files
  | _, [], fs => fs
  | previous, p :: ps, fs => writeAll unit (previous + 1) ps (fs.write (previous + 1) (p.file unit))

/-- C47: a run that is not killed writes its plans to the files with the next numbers, one after the other; no file is written twice, and no other file is changed. -/
theorem C47_numbers (unit : Bool) (plans : List SavedPlan) : ∀ (previous : Nat) (fs : Files),
    Run unit previous plans fs (writeAll unit previous plans fs) plans.length ∧
    (∀ (i : Nat) (p : SavedPlan), plans[i]? = some p → writeAll unit previous plans fs (previous + 1 + i) = some (p.file unit)) ∧
    ∀ k, k ≤ previous ∨ previous + plans.length < k → writeAll unit previous plans fs k = fs k := by
  induction plans with
  | nil => intro previous fs; exact ⟨.stop _ _ _, by simp, fun _ _ => rfl⟩
  | cons p plans ih =>
    intro previous fs
    obtain ⟨h1, h2, h3⟩ := ih (previous + 1) (fs.write (previous + 1) (p.file unit))
    refine ⟨.saved _ _ _ _ _ _ h1, ?_, ?_⟩
    · intro i q hi
      cases i with
      | zero =>
        simp only [List.getElem?_cons_zero, Option.some.injEq] at hi
        subst hi
        rw [writeAll, Nat.add_zero, h3 _ (Or.inl (Nat.le_refl _))]
        simp [Files.write]
      | succ i =>
        rw [writeAll, show previous + 1 + (i + 1) = previous + 1 + 1 + i by omega]
        exact h2 i q (by simpa using hi)
    · intro k hk
      simp only [List.length_cons] at hk
      rw [writeAll, h3 k (by omega)]
      simp only [Files.write]
      rw [if_neg (by omega)]

/-- files with smaller numbers are not touched by a run -/
theorem run_before {unit : Bool} {previous : Nat} {plans : List SavedPlan} {fs fs' : Files} {done : Nat} (h : Run unit previous plans fs fs' done) : ∀ k ≤ previous, fs' k = fs k := by
  induction h with
  | stop => intro k _; rfl
  | killed previous p plans fs w r _ _ =>
    intro k hk
    exact if_neg (by simp only [fileNumber]; omega)
  | saved previous p plans fs fs' done _ ih =>
    intro k hk
    rw [ih k (by simp only [fileNumber]; omega)]
    exact if_neg (by simp only [fileNumber]; omega)

theorem process_run {unit : Bool} {bound : Option Nat} {n : Nat} {plans : List SavedPlan} {fs fs' : Files} {done : Nat} (hr : Run unit n plans fs fs' done) : ∀ {m : Manager}, Inv unit bound m fs → n = m.costs.length → Improving (nextBound m bound) plans →
    ∃ m', processLoop (n + 1) false m fs' = some (.ok m' (writeAll unit n (plans.take done) fs)) ∧ m'.costs = m.costs ++ (plans.take done).map (·.cost) ∧ Inv unit bound m' (writeAll unit n (plans.take done) fs) := by
  induction hr with
  | stop n plans fs =>
    intro m hI hn _
    refine ⟨m, ?_, by simp, by simpa [writeAll] using hI⟩
    rw [processLoop, hI.none _ (by omega)]
    rfl
  | killed n p plans fs w r hne he =>
    intro m hI hn himp
    have hnone := hI.none (n + 1) (by omega)
    refine ⟨m, ?_, by simp, by simpa [writeAll] using hI⟩
    rw [processLoop]
    have e : (fs.write (fileNumber n) w) (n + 1) = some w := by simp [Files.write, fileNumber]
    rw [e]
    simp only [if_false, C47_incomplete himp.1 unit hne he, Bool.false_eq_true]
    rw [processLoop]
    have e2 : (fs.write (fileNumber n) w).unlink (n + 1) = fs := unlink_write hnone
    rw [e2, hI.none _ (by omega)]
    rfl
  | saved n p plans fs fs' done hrun ih =>
    intro m hI hn himp
    obtain ⟨hp, hb, himp'⟩ := himp
    obtain ⟨m1, h1, h2, h3⟩ := add_ok hI hp hb
    have hlen : m1.costs.length = n + 1 := by rw [h2]; simp [hn]
    have hnb : nextBound m1 bound = some p.cost := by simp [nextBound, h2]
    rw [← hn] at h3
    obtain ⟨m2, k1, k2, k3⟩ := ih (m := m1) h3 (by simp only [fileNumber]; omega) (by rw [hnb]; exact himp')
    refine ⟨m2, ?_, ?_, ?_⟩
    · rw [processLoop]
      have e : fs' (n + 1) = some (p.file unit) := by
        rw [run_before hrun (n + 1) (by simp [fileNumber])]
        simp [Files.write, fileNumber]
      rw [e]
      simp only [if_false, C47_roundtrip hp, h1, Bool.false_eq_true]
      simpa [writeAll, fileNumber] using k1
    · rw [k2, h2]; simp
    · simpa [writeAll, fileNumber] using k3

theorem reach_inv {unit : Bool} {bound : Option Nat} {m : Manager} {fs : Files} (h : Reach unit bound m fs) : Inv unit bound m fs := by
  induction h with
  | start => exact ⟨by simp, by simp, by simp, by simp, fun _ _ => rfl⟩
  | run m fs plans fs' done m' fs'' _ himp hrun hproc ih =>
    obtain ⟨m2, h1, h2, h3⟩ := process_run hrun ih rfl himp
    unfold processNewPlans at hproc
    rw [h1] at hproc
    simp only [Option.some.injEq, Outcome.ok.injEq] at hproc
    obtain ⟨rfl, rfl⟩ := hproc
    exact h3

/-- C59: After any number of planner runs, each killed at any point: the recorded costs decrease strictly and are below the bound of the user, so the bound for the next run is the lowest cost; there is one file for each recorded plan, numbered from 1, which contains the
complete plan with this cost; there are no other numbered files. -/
theorem C59_portfolio {unit : Bool} {bound : Option Nat} {m : Manager} {fs : Files} (h : Reach unit bound m fs) :
    m.costs.Pairwise (fun a b => b < a) ∧ (∀ c ∈ m.costs, ∀ b, bound = some b → c < b) ∧ (∀ b, nextBound m bound = some b → ∀ c ∈ m.costs, b ≤ c) ∧
    (∀ (k c : Nat), m.costs[k]? = some c → ∃ p : SavedPlan, p.Ok ∧ p.cost = c ∧ fs (k + 1) = some (p.file unit)) ∧ ∀ k, m.costs.length < k → fs k = none := by
  have hI := reach_inv h
  refine ⟨hI.decreasing, hI.below, fun b hb c hc => ?_, hI.files, hI.none⟩
  unfold nextBound at hb
  split at hb
  · rename_i l hl
    simp only [Option.some.injEq] at hb
    subst hb
    rw [List.getLast?_eq_some_iff] at hl
    obtain ⟨ys, hys⟩ := hl
    have hd := hI.decreasing
    rw [hys] at hd hc
    obtain ⟨_, _, h3⟩ := List.pairwise_append.mp hd
    rcases List.mem_append.mp hc with hc | hc
    · exact Nat.le_of_lt (h3 c hc l (by simp))
    · simp only [List.mem_singleton] at hc
      omega
  · rename_i hl
    rw [List.getLast?_eq_none_iff] at hl
    rw [hl] at hc
    simp at hc

/-- C59: Processing the files after a run never ends with an error, and records exactly the plans that were written completely; the incomplete file is deleted. -/
theorem C59_run {unit : Bool} {bound : Option Nat} {m : Manager} {fs fs' : Files} {plans : List SavedPlan} {done : Nat} (h : Reach unit bound m fs) (himp : Improving (nextBound m bound) plans) (hrun : Run unit m.costs.length plans fs fs' done) :
    ∃ m', processNewPlans m fs' = some (.ok m' (writeAll unit m.costs.length (plans.take done) fs)) ∧ m'.costs = m.costs ++ (plans.take done).map (·.cost) := by
  obtain ⟨m', h1, h2, _⟩ := process_run hrun (reach_inv h) rfl himp
  exact ⟨m', h1, h2⟩

theorem digits_5 : digits 5 = ['5'] := by rw [digits]; decide

theorem digits_12 : digits 12 = ['1', '2'] := by
  rw [digits, if_neg (by decide), show 12 / 10 = 1 from rfl, digits]
  decide

def exFirst : SavedPlan := ⟨["move a".toList, "move b".toList], 12⟩
def exSecond : SavedPlan := ⟨["jump".toList], 5⟩

theorem exFirst_file : exFirst.file false = "(move a)\n(move b)\n; cost = 12 (general cost)\n".toList := by
  unfold exFirst SavedPlan.file planFile costLine
  rw [digits_12]
  decide

theorem exSecond_file : exSecond.file false = "(jump)\n; cost = 5 (general".toList ++ " cost)\n".toList := by
  unfold exSecond SavedPlan.file planFile costLine
  rw [digits_5]
  decide

/-- a run that saves one plan, and is killed while it writes the second one -/
example : ∃ m fs, Reach false none m fs ∧ m.costs = [12] ∧ fs 1 = some "(move a)\n(move b)\n; cost = 12 (general cost)\n".toList ∧ fs 2 = none := by
  have himp : Improving (nextBound ⟨[], none⟩ none) [exFirst, exSecond] := by
    refine ⟨?_, by simp [nextBound], ?_, ?_, trivial⟩
    · unfold SavedPlan.Ok exFirst; decide
    · unfold SavedPlan.Ok exSecond; decide
    · intro c hc; simp only [Option.some.injEq] at hc; subst hc; decide
  have hr : Run false 0 [exFirst, exSecond] (fun _ => none) _ 1 := .saved 0 exFirst [exSecond] _ _ 0 (.killed 1 exSecond [] _ "(jump)\n; cost = 5 (general".toList " cost)\n".toList (by decide) exSecond_file)
  obtain ⟨m', h1, h2⟩ := C59_run .start himp hr
  refine ⟨m', _, .run _ _ _ _ _ _ _ .start himp hr h1, by simpa [exFirst] using h2, ?_, ?_⟩
  · simp only [writeAll, List.take, Files.write, List.length_nil, Nat.zero_add, if_true, exFirst_file]
  · simp [writeAll, Files.write]

end Verif.PlanFiles
