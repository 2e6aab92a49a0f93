import Verif.Lemmas.TaskReader
import Verif.Model.SasWriter
import Verif.Props.PlanFiles

/-
What the translator writes, the reader reads back.
-/
namespace Verif.SasFile
open Verif.PlanFiles (digits isDigit toInt toInt_digits digits_isDigit digits_ne)

/-! ### Lines and words -/

theorem getline_line : ∀ {s : List Char} (_ : '\n' ∉ s) (rest : List Char), getline (line s ++ rest) = (s, some rest)
  | [], _, rest => by simp [line, getline]
  | c :: cs, h, rest => by
    have hc : c ≠ '\n' := fun e => h (by simp [e])
    have := getline_line (s := cs) (fun h' => h (by simp [h'])) rest
    simp only [line, List.cons_append, getline, if_neg hc] at this ⊢
    rw [this]

theorem nameOk_blank {s : List Char} (h : NameOk s) : blank s = false := by
  obtain ⟨_, c, hc, hs⟩ := h
  unfold blank
  simp only [List.all_eq_false]
  exact ⟨c, hc, by simp [hs]⟩

theorem nameOk_ne {s : List Char} (h : NameOk s) : s ≠ [] := by
  obtain ⟨_, c, hc, _⟩ := h
  intro e
  simp [e] at hc

theorem nextLine_line {s : List Char} (h : NameOk s) (rest : List Char) : nextLine (some (line s ++ rest)) = (s, some rest) := by
  rw [nextLine.eq_def]
  simp only [getline_line h.1, nameOk_blank h]
  rfl

/-- the lexer at the beginning of a line -/
abbrev at' (rest : List Char) : Lexer := ⟨some rest, none⟩

theorem readLine_line {s : List Char} (h : NameOk s) (rest : List Char) : readLine (at' (line s ++ rest)) = .ok (s, at' rest) := by
  simp only [readLine, nextLine_line h, nameOk_ne h, if_false]

/-- a word: characters that are not white space -/
def Word (w : List Char) : Prop := w ≠ [] ∧ ∀ c ∈ w, isSpace c = false

theorem wordsAux_word : ∀ {w : List Char} (_ : ∀ c ∈ w, isSpace c = false) (s cur : List Char), wordsAux (w ++ s) cur = wordsAux s (cur ++ w)
  | [], _, s, cur => by simp
  | c :: w, h, s, cur => by
    have hc := h c (by simp)
    simp only [List.cons_append, wordsAux, hc, Bool.false_eq_true, if_false]
    rw [wordsAux_word (fun d hd => h d (by simp [hd]))]
    simp

theorem words_cons {w : List Char} (h : Word w) (s : List Char) : words (w ++ ' ' :: s) = w :: words s := by
  unfold words
  rw [wordsAux_word h.2]
  simp [wordsAux, isSpace, h.1]

theorem words_single {w : List Char} (h : Word w) : words w = [w] := by
  have := wordsAux_word h.2 [] []
  simp only [List.append_nil] at this
  unfold words
  rw [this]
  simp [wordsAux, h.1]

theorem isSpace_digit {c : Char} (h : isDigit c = true) : isSpace c = false := by
  unfold isDigit at h
  simp only [decide_eq_true_eq] at h
  unfold isSpace
  have key : ∀ d : Char, d.toNat < 48 → (decide (c = d)) = false := by
    intro d hd
    simp only [decide_eq_false_iff_not]
    intro e
    subst e
    omega
  simp [key ' ' (by decide), key '\t' (by decide), key '\n' (by decide), key '\x0b' (by decide), key '\x0c' (by decide), key '\x0d' (by decide)]

theorem word_digits (n : Nat) : Word (digits n) := ⟨digits_ne n, fun c hc => isSpace_digit (digits_isDigit n c hc)⟩

theorem word_opt (n : Option Nat) : Word (optDigits n) := by
  cases n with
  | none => exact ⟨by decide, by decide⟩
  | some n => exact word_digits n

theorem nameOk_word {w : List Char} (h : Word w) : NameOk w := by
  refine ⟨fun hn => ?_, ?_⟩
  · have := h.2 _ hn
    simp [isSpace] at this
  · cases w with
    | nil => exact absurd rfl h.1
    | cons c w => exact ⟨c, by simp, h.2 c (by simp)⟩

theorem nameOk_append {w s : List Char} (h : Word w) (hs : '\n' ∉ s) : NameOk (w ++ s) := by
  obtain ⟨h1, c, hc, h2⟩ := nameOk_word h
  exact ⟨by simp [h1, hs], c, by simp [hc], h2⟩

/-! ### Reading numbers -/

/-- the first word of a line -/
theorem read_first {s w : List Char} {ws : List (List Char)} (h : NameOk s) (hw : words s = w :: ws) (rest : List Char) :
    read (at' (line s ++ rest)) = .ok (w, ⟨some rest, some ws⟩) := by
  simp only [read, nextLine_line h, nameOk_ne h, if_false, hw]

/-- the next word -/
theorem read_next {w : List Char} {ws : List (List Char)} (st : Option (List Char)) : read ⟨st, some (w :: ws)⟩ = .ok (w, ⟨st, some ws⟩) := rfl

theorem eol_ok (st : Option (List Char)) : confirmEol ⟨st, some []⟩ = .ok ((), ⟨st, none⟩) := rfl

theorem eolUnless_ok (st : Option (List Char)) : eolUnless false ⟨st, some []⟩ = .ok ((), ⟨st, none⟩) := rfl

theorem parseInt_digits {n : Nat} (h : n ≤ IntMax) : parseInt (digits n) = some (n : Int) := by
  have h1 := digits_ne n
  have h2 := digits_isDigit n
  have h3 := toInt_digits n
  generalize digits n = ds at h1 h2 h3
  have hall : ds.all isDigit = true := by simpa using h2
  have hle : toInt ds ≤ 2147483647 := by rw [h3]; exact h
  unfold parseInt
  split
  · exact absurd (h2 '-' (by simp)) (by decide)
  · exact absurd (h2 '+' (by simp)) (by decide)
  · rw [if_pos ⟨h1, hall, hle⟩, h3]

theorem bind_ok {α β : Type} {p : Read α} {f : α → Read β} {l l' : Lexer} {a : α} (h : p l = .ok (a, l')) : (p >>= f) l = f a l' := by
  show Read.bind p f l = _
  unfold Read.bind
  rw [h]

theorem pure_ok {α : Type} (a : α) (l : Lexer) : (pure a : Read α) l = .ok (a, l) := rfl

/-- the lexer that returns a word next -/
def NextWord (l : Lexer) (w : List Char) (l' : Lexer) : Prop := read l = .ok (w, l')

theorem readInt_ok {l l' : Lexer} {w : List Char} {n : Int} (h : read l = .ok (w, l')) (hn : parseInt w = some n) : readInt l = .ok (n, l') := by
  unfold readInt
  rw [bind_ok h]
  simp only [parse, hn]
  rfl

theorem readNat_ok {l l' : Lexer} {n : Nat} (h : read l = .ok (digits n, l')) (hn : n ≤ IntMax) : readNat l = .ok (n, l') := by
  unfold readNat
  rw [bind_ok (readInt_ok h (parseInt_digits hn))]
  simp only [checkNat, Int.natCast_nonneg, if_true, Int.toNat_natCast]
  rfl

theorem require_ok {b : Bool} (h : b = true) (l : Lexer) : require b l = .ok ((), l) := by
  subst h
  rfl

/-- a number on a line of its own -/
theorem readNat_line {n : Nat} (hn : n ≤ IntMax) (rest : List Char) : readNat (at' (line (digits n) ++ rest)) = .ok (n, ⟨some rest, some []⟩) :=
  readNat_ok (read_first (nameOk_word (word_digits n)) (words_single (word_digits n)) rest) hn

theorem magic_ok {s : List Char} (h : NameOk s) (rest : List Char) : readMagic s (at' (line s ++ rest)) = .ok ((), at' rest) := by
  unfold readMagic
  rw [bind_ok (readLine_line h rest)]
  exact require_ok (by simp) _

/-! ### Lists -/

/-- a loop reads the entries that have been written one after the other -/
theorem many_ok {α β : Type} {p : Nat → Read α} {out : β → Nat → List Char} {val : β → Nat → α} :
    ∀ (bs : List β) (i : Nat) (_ : ∀ (k : Nat) (b : β), bs[k]? = some b → ∀ rest, p (i + k) (at' (out b (i + k) ++ rest)) = .ok (val b (i + k), at' rest)) (rest : List Char),
      many bs.length i p (at' (((bs.zipIdx i).map (fun b => out b.1 b.2)).flatten ++ rest)) = .ok ((bs.zipIdx i).map (fun b => val b.1 b.2), at' rest)
  | [], i, _, rest => rfl
  | b :: bs, i, h, rest => by
    have h0 := h 0 b rfl
    simp only [Nat.add_zero] at h0
    have ih := many_ok bs (i + 1) (fun k c hc rest => by
      have := h (k + 1) c hc rest
      rw [show i + (k + 1) = i + 1 + k by omega] at this
      exact this) rest
    simp only [List.length_cons, many, List.zipIdx_cons, List.map_cons, List.flatten_cons, List.append_assoc]
    rw [bind_ok (h0 _), bind_ok ih]
    rfl

theorem map_zipIdx_fst {β γ : Type} (f : β → γ) (bs : List β) (i : Nat) : (bs.zipIdx i).map (fun b => f b.1) = bs.map f := by
  have h1 : (bs.zipIdx i).map Prod.fst = bs := List.zipIdx_map_fst ..
  conv_rhs => rw [← h1]
  rw [List.map_map]
  rfl

theorem many_ok' {α β : Type} {p : Read α} {out : β → List Char} {val : β → α} (bs : List β) (i : Nat)
    (h : ∀ b ∈ bs, ∀ rest, p (at' (out b ++ rest)) = .ok (val b, at' rest)) (rest : List Char) :
    many bs.length i (fun _ => p) (at' ((bs.map out).flatten ++ rest)) = .ok (bs.map val, at' rest) := by
  have := many_ok (p := fun _ => p) (out := fun b _ => out b) (val := fun b _ => val b) bs i (fun k b hb rest => h b (List.mem_of_getElem? hb) rest) rest
  rw [map_zipIdx_fst, map_zipIdx_fst] at this
  exact this

/-! ### Facts -/

variable {T : SasTask} {vars : List ExplicitVariable}

/-- the variables that have been read are those of the translator -/
def Same (T : SasTask) (vars : List ExplicitVariable) : Prop :=
  vars.length = T.variables.length ∧ ∀ (i : Nat) (v : SasVariable), T.variables[i]? = some v → ∃ w, vars[i]? = some w ∧ w.domain = v.valueNames.length ∧ w.layer = v.layer

theorem checkFact_ok (hs : Same T vars) {f : Fact} (hf : FactOk T f) (l : Lexer) : checkFact vars f l = .ok ((), l) := by
  obtain ⟨v, h1, h2⟩ := hf
  obtain ⟨w, h3, h4, _⟩ := hs.2 _ v h1
  simp only [checkFact, h3]
  exact require_ok (by simp [h4, h2]) l

theorem factOk_int (hT : T.Valid) {f : Fact} (hf : FactOk T f) : f.var ≤ IntMax ∧ f.val ≤ IntMax := by
  obtain ⟨v, h1, h2⟩ := hf
  have := (List.getElem?_eq_some_iff.mp h1).1
  have h3 := hT.fewVariables
  have h4 := (hT.domain v (List.mem_of_getElem? h1)).2
  exact ⟨by omega, by omega⟩

theorem readFact_line (hT : T.Valid) (hs : Same T vars) {f : Fact} (hf : FactOk T f) (rest : List Char) : readFact false vars (at' (factLine f ++ rest)) = .ok (f, at' rest) := by
  have hi := factOk_int hT hf
  have hw : words (digits f.var ++ ' ' :: digits f.val) = [digits f.var, digits f.val] := by
    rw [words_cons (word_digits _), words_single (word_digits _)]
  have hn : NameOk (digits f.var ++ ' ' :: digits f.val) := by
    apply nameOk_append (word_digits _)
    have := (nameOk_word (word_digits f.val)).1
    simp [this]
  unfold readFact factLine
  rw [bind_ok (readNat_ok (read_first hn hw rest) hi.1), bind_ok (readNat_ok (read_next _) hi.2), bind_ok (checkFact_ok hs hf _)]
  rw [bind_ok (eolUnless_ok _)]
  rfl

theorem readFacts_lines (hT : T.Valid) (hs : Same T vars) {fs : List Fact} (hf : CondOk T fs) (rest : List Char) :
    readFacts false vars (at' (line (digits fs.length) ++ ((fs.map factLine).flatten ++ rest))) = .ok (fs, at' rest) := by
  unfold readFacts
  rw [bind_ok (readNat_line hf.2 _), bind_ok (eolUnless_ok _)]
  have := many_ok' (p := readFact false vars) (out := factLine) (val := id) fs 0 (fun f h rest => readFact_line hT hs (hf.1 f h) rest) rest
  simpa using this

/-! ### Facts within a line -/

/-- the words of conditions -/
def condWords (fs : List Fact) : List (List Char) := fs.flatMap (fun f => [digits f.var, digits f.val])

theorem words_conds : ∀ (fs : List Fact) (s : List Char), words ((fs.map (fun (c : Fact) => digits c.var ++ (' ' :: (digits c.val ++ [' '])))).flatten ++ s) = condWords fs ++ words s
  | [], s => rfl
  | f :: fs, s => by
    simp only [List.map_cons, List.flatten_cons, List.append_assoc, List.cons_append, List.nil_append]
    rw [words_cons (word_digits _), words_cons (word_digits _), words_conds fs s]
    rfl

theorem readFact_single (hT : T.Valid) (hs : Same T vars) {f : Fact} (hf : FactOk T f) (st : Option (List Char)) (ws : List (List Char)) :
    readFact true vars ⟨st, some (digits f.var :: digits f.val :: ws)⟩ = .ok (f, ⟨st, some ws⟩) := by
  have hi := factOk_int hT hf
  unfold readFact
  rw [bind_ok (readNat_ok (read_next _) hi.1), bind_ok (readNat_ok (read_next _) hi.2), bind_ok (checkFact_ok hs hf _)]
  rfl

theorem many_single (hT : T.Valid) (hs : Same T vars) (st : Option (List Char)) (ws : List (List Char)) : ∀ (fs : List Fact) (i : Nat) (_ : ∀ f ∈ fs, FactOk T f),
    many fs.length i (fun _ => readFact true vars) ⟨st, some (condWords fs ++ ws)⟩ = .ok (fs, ⟨st, some ws⟩)
  | [], i, _ => rfl
  | f :: fs, i, h => by
    simp only [List.length_cons, many]
    rw [bind_ok (show readFact true vars ⟨st, some (condWords (f :: fs) ++ ws)⟩ = .ok (f, ⟨st, some (condWords fs ++ ws)⟩) from readFact_single hT hs (h f (by simp)) st _),
      bind_ok (many_single hT hs st ws fs (i + 1) (fun g hg => h g (by simp [hg])))]
    rfl

/-! ### Effects and operators -/

theorem digits_newline (n : Nat) : '\n' ∉ digits n := (nameOk_word (word_digits n)).1

theorem opt_newline (n : Option Nat) : '\n' ∉ optDigits n := (nameOk_word (word_opt n)).1

theorem parseInt_neg : parseInt "-1".toList = some (-1) := by decide

theorem variableAt_ok {var : Nat} {w : ExplicitVariable} (h : vars[var]? = some w) (l : Lexer) : variableAt vars var l = .ok (w, l) := by
  simp only [variableAt, h]

/-- what has been read for an effect -/
def effectOf (e : PrePost) : List Fact × Effect := ((e.pre.map (fun x => (⟨e.var, x⟩ : Fact))).toList, ⟨e.conds, ⟨e.var, e.post⟩⟩)

theorem readEffect_line (hT : T.Valid) (hs : Same T vars) {e : PrePost} (hpre : ∀ x, e.pre = some x → FactOk T ⟨e.var, x⟩) (hpost : FactOk T ⟨e.var, e.post⟩)
    (hc : CondOk T e.conds) (hb : layerOf T e.var = none) (rest : List Char) : readConditionalEffect vars (at' (outPrePost e ++ rest)) = .ok (effectOf e, at' rest) := by
  have hi := factOk_int hT hpost
  obtain ⟨v, hv1, hv2⟩ := id hpost
  obtain ⟨w, hw1, hw2, hw3⟩ := hs.2 _ v hv1
  have hl : w.layer = none := by
    simp only at hv1
    rw [hw3]
    simpa [layerOf, hv1] using hb
  let tail : List Char := digits e.var ++ ' ' :: (optDigits e.pre ++ ' ' :: digits e.post)
  let mid : List Char := (e.conds.map (fun (c : Fact) => digits c.var ++ (' ' :: (digits c.val ++ [' '])))).flatten
  have hout : outPrePost e ++ rest = line (digits e.conds.length ++ ' ' :: (mid ++ tail)) ++ rest := by
    simp only [outPrePost, line, mid, tail, List.append_assoc, List.cons_append]
  have hwords : words (digits e.conds.length ++ ' ' :: (mid ++ tail)) = digits e.conds.length :: (condWords e.conds ++ [digits e.var, optDigits e.pre, digits e.post]) := by
    rw [words_cons (word_digits _), words_conds, words_cons (word_digits _), words_cons (word_opt _), words_single (word_digits _)]
  have hmid : '\n' ∉ mid := by
    simp only [mid, List.mem_flatten, List.mem_map, not_exists, not_and]
    rintro s ⟨c, hc, rfl⟩
    have h1 := digits_newline c.var
    have h2 := digits_newline c.val
    simp [h1, h2]
  have hname : NameOk (digits e.conds.length ++ ' ' :: (mid ++ tail)) := by
    apply nameOk_append (word_digits _)
    have h1 := digits_newline e.var
    have h2 := opt_newline e.pre
    have h3 := digits_newline e.post
    simp [hmid, tail, h1, h2, h3]
  rw [hout]
  unfold readConditionalEffect readFacts
  have h1 : (readNat >>= fun count => eolUnless true >>= fun _ => many count 0 (fun _ => readFact true vars)) (at' (line (digits e.conds.length ++ ' ' :: (mid ++ tail)) ++ rest))
      = .ok (e.conds, ⟨some rest, some [digits e.var, optDigits e.pre, digits e.post]⟩) := by
    rw [bind_ok (readNat_ok (read_first hname hwords rest) hc.2), bind_ok (show eolUnless true _ = _ from pure_ok () _)]
    exact many_single hT hs _ _ _ _ hc.1
  rw [bind_ok h1, bind_ok (readNat_ok (read_next _) hi.1), bind_ok (variableAt_ok hw1 _), bind_ok (require_ok (by simp [hl]) _)]
  have h2 : ∃ n, readInt ⟨some rest, some [optDigits e.pre, digits e.post]⟩ = .ok (n, ⟨some rest, some [digits e.post]⟩) ∧
      ∀ l, checkPre vars e.var n l = .ok ((e.pre.map (fun x => (⟨e.var, x⟩ : Fact))).toList, l) := by
    cases he : e.pre with
    | none => exact ⟨-1, readInt_ok (read_next _) parseInt_neg, fun l => rfl⟩
    | some x =>
      have hx := hpre x he
      have hxi := (factOk_int hT hx).2
      refine ⟨x, readInt_ok (read_next _) (parseInt_digits hxi), fun l => ?_⟩
      unfold checkPre
      rw [if_neg (by omega), if_pos (by omega)]
      simp only [Int.toNat_natCast]
      rw [bind_ok (checkFact_ok hs hx _)]
      rfl
  obtain ⟨n, h3, h4⟩ := h2
  rw [bind_ok h3, bind_ok (h4 _), bind_ok (readNat_ok (read_next _) hi.2), bind_ok (checkFact_ok hs hpost _), bind_ok (eol_ok _)]
  rfl

/-- what has been read for an operator -/
def operatorOf (metric : Bool) (o : SasOperator) : ExplicitOperator :=
  ⟨o.prevail ++ o.prePost.filterMap (fun e => e.pre.map (fun x => ⟨e.var, x⟩)), o.prePost.map (fun e => ⟨e.conds, ⟨e.var, e.post⟩⟩), if metric then o.cost else 1, o.name⟩

theorem effects_pre : ∀ (es : List PrePost), (es.map effectOf).flatMap (·.1) = es.filterMap (fun e => e.pre.map (fun x => (⟨e.var, x⟩ : Fact)))
  | [] => rfl
  | e :: es => by
    rw [List.map_cons, List.flatMap_cons, effects_pre es, List.filterMap_cons]
    cases he : e.pre with
    | none => simp [effectOf, he]
    | some x => simp [effectOf, he]

theorem readOperator_ok (hT : T.Valid) (hs : Same T vars) {o : SasOperator} (ho : o.Valid T) (metric : Bool) (rest : List Char) :
    readOperator metric vars (at' (outOperator o ++ rest)) = .ok (operatorOf metric o, at' rest) := by
  unfold readOperator outOperator
  simp only [List.append_assoc]
  have hcount : 1 ≤ o.prePost.length := by
    cases h : o.prePost with
    | nil => exact absurd h ho.someEffect
    | cons e es => simp
  rw [bind_ok (magic_ok ⟨by decide, by decide⟩ _), bind_ok (readLine_line ho.name _), bind_ok (readFacts_lines hT hs ho.prevail _), bind_ok (readNat_line ho.fewEffects _),
    bind_ok (require_ok (by simpa using hcount) _), bind_ok (eol_ok _),
    bind_ok (many_ok' (out := outPrePost) (val := effectOf) o.prePost 0 (fun e he rest => readEffect_line hT hs (ho.pre e he) (ho.post e he) (ho.conds e he) (ho.basic e he) rest) _),
    bind_ok (readInt_ok (read_first (nameOk_word (word_digits _)) (words_single (word_digits _)) _) (parseInt_digits ho.cost))]
  have hcost : ∀ l, operatorCost metric (o.cost : Int) l = .ok (if metric then o.cost else 1, l) := by
    intro l
    cases metric with
    | true =>
      simp only [operatorCost, checkNat, Int.natCast_nonneg, if_true, Int.toNat_natCast]
      rfl
    | false => rfl
  rw [bind_ok (hcost _), bind_ok (eol_ok _), bind_ok (magic_ok ⟨by decide, by decide⟩ _), pure_ok, effects_pre]
  simp only [operatorOf, List.map_map]
  rfl

/-! ### Axioms -/

/-- the default values are the initial values -/
def Defaults (T : SasTask) (vars : List ExplicitVariable) : Prop := ∀ (i : Nat) (w : ExplicitVariable), vars[i]? = some w → T.init[i]? = some w.default

theorem layering_ok (hs : Same T vars) (hd : Defaults T vars) {head : Nat} : ∀ {conds : List Fact} (_ : ∀ f ∈ conds, FactOk T f)
    (_ : ∀ c ∈ conds, ∀ lc, layerOf T c.var = some lc → lc ≤ head ∧ (lc = head → T.init[c.var]? ≠ some c.val)) (l : Lexer), checkLayering head conds vars l = .ok ((), l)
  | [], _, _, l => rfl
  | f :: fs, hf, hc, l => by
    obtain ⟨v, hv1, hv2⟩ := hf f (by simp)
    obtain ⟨w, hw1, hw2, hw3⟩ := hs.2 _ v hv1
    have ih := layering_ok hs hd (conds := fs) (fun g hg => hf g (by simp [hg])) (fun c hcm => hc c (by simp [hcm])) l
    unfold checkLayering
    rw [bind_ok (variableAt_ok hw1 _)]
    have : layerAllowed head w f.val = true := by
      unfold layerAllowed
      cases hl : w.layer with
      | none => rfl
      | some lc =>
        have hlc : layerOf T f.var = some lc := by
          simp only [layerOf, hv1, Option.bind_some, ← hw3, hl]
        have h1 := hc f (by simp) lc hlc
        simp only [Bool.and_eq_true, decide_eq_true_eq, Bool.not_eq_true', Bool.and_eq_false_iff, decide_eq_false_iff_not]
        refine ⟨h1.1, ?_⟩
        by_cases e : lc = head
        · right
          intro e'
          exact h1.2 e (by rw [hd _ _ hw1, e'])
        · exact Or.inl e
    rw [bind_ok (require_ok this _)]
    exact ih

/-- what has been read for an axiom -/
def axiomOf (a : SasAxiom) : ExplicitOperator := ⟨[⟨a.effect.var, 1 - a.effect.val⟩], [⟨a.conds, a.effect⟩], 0, "<axiom>".toList⟩

theorem readAxiom_ok (hT : T.Valid) (hs : Same T vars) (hd : Defaults T vars) {a : SasAxiom} (ha : a.Valid T) (rest : List Char) :
    readAxiom vars (at' (outAxiom a ++ rest)) = .ok (axiomOf a, at' rest) := by
  have hi := factOk_int hT ha.effect
  obtain ⟨v, hv1, hv2⟩ := id ha.effect
  obtain ⟨w, hw1, hw2, hw3⟩ := hs.2 _ v hv1
  obtain ⟨l, hl1, hl2⟩ := ha.derived
  have hlw : w.layer = some l := by
    rw [hw3]
    simpa [layerOf, hv1] using hl1
  have h2 : v.valueNames.length = 2 := hT.derived v (List.mem_of_getElem? hv1) (by rw [← hw3, hlw]; simp)
  have hdef := hd _ _ hw1
  have hdd := hT.initOk _ _ hdef
  obtain ⟨v', hv3, hv4⟩ := hdd
  simp only at hv3 hv4
  rw [hv1] at hv3
  simp only [Option.some.injEq] at hv3
  subst hv3
  have hne : a.effect.val ≠ w.default := by
    intro e
    exact ha.nonInit (by rw [hdef, e])
  have hpre : 1 - a.effect.val = w.default := by omega
  have hpf : FactOk T ⟨a.effect.var, 1 - a.effect.val⟩ := ⟨v, hv1, by simp only; omega⟩
  have hname : NameOk (digits a.effect.var ++ ' ' :: (digits (1 - a.effect.val) ++ ' ' :: digits a.effect.val)) := by
    apply nameOk_append (word_digits _)
    have h1 := digits_newline (1 - a.effect.val)
    have h2 := digits_newline a.effect.val
    simp [h1, h2]
  have hwords : words (digits a.effect.var ++ ' ' :: (digits (1 - a.effect.val) ++ ' ' :: digits a.effect.val)) = [digits a.effect.var, digits (1 - a.effect.val), digits a.effect.val] := by
    rw [words_cons (word_digits _), words_cons (word_digits _), words_single (word_digits _)]
  have hhead : ∀ l', headLayer w l' = .ok (l, l') := by
    intro l'
    simp only [headLayer, hlw]
    rfl
  have hcp : ∀ l', checkAxiomPre vars a.effect.var ((1 - a.effect.val : Nat) : Int) l' = .ok (1 - a.effect.val, l') := by
    intro l'
    unfold checkAxiomPre
    rw [if_neg (by omega)]
    simp only [Int.toNat_natCast]
    rw [bind_ok (checkFact_ok hs hpf _)]
    rfl
  unfold readAxiom outAxiom
  simp only [List.append_assoc]
  rw [bind_ok (magic_ok ⟨by decide, by decide⟩ _), bind_ok (readFacts_lines hT hs ha.conds _), bind_ok (readNat_ok (read_first hname hwords _) hi.1), bind_ok (variableAt_ok hw1 _),
    bind_ok (hhead _), bind_ok (readInt_ok (read_next _) (parseInt_digits (by unfold IntMax; omega))), bind_ok (hcp _), bind_ok (readNat_ok (read_next _) hi.2),
    bind_ok (checkFact_ok hs ha.effect _), bind_ok (require_ok (by simpa using hpre) _), bind_ok (require_ok (by simpa using hne) _),
    bind_ok (layering_ok hs hd ha.conds.1 hl2 _), bind_ok (eol_ok _), bind_ok (magic_ok ⟨by decide, by decide⟩ _)]
  rfl

/-! ### The other sections -/

/-- what has been read for a variable -/
def variableOf (v : SasVariable) (i : Nat) : ExplicitVariable := ⟨v.valueNames.length, "var".toList ++ digits i, v.valueNames, v.layer, 0⟩

theorem word_var (i : Nat) : Word ("var".toList ++ digits i) := by
  refine ⟨by simp, fun c hc => ?_⟩
  rcases List.mem_append.mp hc with h | h
  · clear hc; revert h; revert c; decide
  · exact (word_digits i).2 c h

theorem readVariable_ok (hT : T.Valid) {v : SasVariable} (hv : v ∈ T.variables) (i : Nat) (rest : List Char) :
    readVariable (at' (outVariable v i ++ rest)) = .ok (variableOf v i, at' rest) := by
  have hd := hT.domain v hv
  have hlayer : ∃ n, (∀ rest', readInt (at' (line (optDigits v.layer) ++ rest')) = .ok (n, ⟨some rest', some []⟩)) ∧ ∀ l, layerOfInt n l = .ok (v.layer, l) := by
    cases hl : v.layer with
    | none =>
      exact ⟨-1, fun rest' => readInt_ok (read_first (nameOk_word (word_opt none)) (words_single (word_opt none)) _) parseInt_neg, fun l => rfl⟩
    | some k =>
      refine ⟨k, fun rest' => readInt_ok (read_first (nameOk_word (word_digits k)) (words_single (word_digits k)) _) (parseInt_digits (hT.layers v hv k hl)), fun l => ?_⟩
      unfold layerOfInt
      rw [if_neg (by omega), if_neg (by omega)]
      rfl
  obtain ⟨n, h1, h2⟩ := hlayer
  unfold readVariable outVariable
  simp only [List.append_assoc]
  rw [bind_ok (magic_ok ⟨by decide, by decide⟩ _), bind_ok (readLine_line (nameOk_word (word_var i)) _), bind_ok (h1 _), bind_ok (h2 _), bind_ok (eol_ok _), bind_ok (readNat_line hd.2 _),
    bind_ok (require_ok (by simpa using hd.1) _), bind_ok (require_ok (by
      cases hl : v.layer with
      | none => rfl
      | some k => simpa using hT.derived v hv (by simp [hl])) _), bind_ok (eol_ok _),
    bind_ok (many_ok' (p := readLine) (out := line) (val := id) v.valueNames 0 (fun s hs rest => readLine_line (hT.names v hv s hs) rest) _),
    bind_ok (magic_ok ⟨by decide, by decide⟩ _)]
  simp only [List.map_id]
  rfl

theorem readVariables_ok (hT : T.Valid) (rest : List Char) : readVariables (at' (outVariables T.variables ++ rest)) = .ok (T.variables.zipIdx.map (fun v => variableOf v.1 v.2), at' rest) := by
  have hpos : 1 ≤ T.variables.length := by
    cases h : T.variables with
    | nil => exact absurd h hT.someVariable
    | cons e es => simp
  unfold readVariables outVariables
  simp only [List.append_assoc]
  rw [bind_ok (readNat_line hT.fewVariables _), bind_ok (require_ok (by simpa using hpos) _), bind_ok (eol_ok _)]
  exact many_ok (p := fun _ => readVariable) (out := outVariable) (val := variableOf) T.variables 0 (fun k v hv rest => readVariable_ok hT (List.mem_of_getElem? hv) _ rest) rest

theorem same_variables : Same T (T.variables.zipIdx.map (fun v => variableOf v.1 v.2)) := by
  refine ⟨by simp, fun i v hv => ?_⟩
  refine ⟨variableOf v i, ?_, rfl, rfl⟩
  rw [List.getElem?_map, List.getElem?_zipIdx, hv]
  simp

theorem same_defaults {vs : List ExplicitVariable} (hs : Same T vs) (hinit : T.init.length = T.variables.length) : Same T (setDefaults vs T.init) ∧ Defaults T (setDefaults vs T.init) := by
  refine ⟨⟨by simp [setDefaults, hs.1, hinit], fun i v hv => ?_⟩, fun i w hw => ?_⟩
  · obtain ⟨w, h1, h2, h3⟩ := hs.2 i v hv
    obtain ⟨x, _, h4⟩ := setDefaults_some (by rw [hs.1, hinit]) h1
    exact ⟨_, h4, h2, h3⟩
  · obtain ⟨_, _, h, _⟩ := setDefaults_get hw
    exact h

theorem readMutexes_ok (hT : T.Valid) (hs : Same T vars) (rest : List Char) :
    readMutexes vars (at' (line (digits T.mutexes.length) ++ ((T.mutexes.map outMutex).flatten ++ rest))) = .ok (T.mutexes.flatMap mutexPairs, at' rest) := by
  have h1 : ∀ g ∈ T.mutexes, ∀ rest, readMutex vars (at' (outMutex g ++ rest)) = .ok (g, at' rest) := by
    intro g hg rest
    have hc := hT.mutexes g hg
    unfold readMutex outMutex
    simp only [List.append_assoc]
    rw [bind_ok (magic_ok ⟨by decide, by decide⟩ _), bind_ok (readNat_line hc.2 _), bind_ok (eol_ok _),
      bind_ok (many_ok' (p := readFact false vars) (out := factLine) (val := id) g 0 (fun f h rest => readFact_line hT hs (hc.1 f h) rest) _), bind_ok (magic_ok ⟨by decide, by decide⟩ _)]
    simp only [List.map_id]
    rfl
  unfold readMutexes
  rw [bind_ok (readNat_line hT.fewMutexes _), bind_ok (eol_ok _), bind_ok (many_ok' (out := outMutex) (val := id) T.mutexes 0 h1 _)]
  simp only [List.map_id]
  rfl

theorem readInit_ok (hT : T.Valid) (hs : Same T vars) (rest : List Char) : readInit vars (at' (outInit T.init ++ rest)) = .ok (T.init, at' rest) := by
  unfold readInit outInit
  simp only [List.append_assoc]
  have key := many_ok (p := readInitValue vars) (out := fun (x : Nat) _ => line (digits x)) (val := fun x _ => x) T.init 0 (fun k x hx rest => by
    have hf := hT.initOk k x hx
    unfold readInitValue
    rw [bind_ok (readNat_line (factOk_int hT hf).2 _), bind_ok (eol_ok _), Nat.zero_add, bind_ok (checkFact_ok hs hf _)]
    rfl) (line "end_state".toList ++ rest)
  rw [map_zipIdx_fst (fun (x : Nat) => line (digits x)), map_zipIdx_fst (fun (x : Nat) => x), List.map_id'] at key
  rw [bind_ok (magic_ok ⟨by decide, by decide⟩ _), hs.1, ← hT.init, bind_ok key, bind_ok (magic_ok ⟨by decide, by decide⟩ _)]
  rfl

theorem readGoal_ok (hT : T.Valid) (hs : Same T vars) (rest : List Char) : readGoal vars (at' (outGoal T.goal ++ rest)) = .ok (T.goal, at' rest) := by
  unfold readGoal outGoal
  simp only [List.append_assoc]
  have hg : (!T.goal.isEmpty) = true := by
    cases h : T.goal with
    | nil => exact absurd h hT.someGoal
    | cons => rfl
  rw [bind_ok (magic_ok ⟨by decide, by decide⟩ _), bind_ok (readFacts_lines hT hs hT.goal _), bind_ok (magic_ok ⟨by decide, by decide⟩ _), bind_ok (require_ok hg _),
    bind_ok (require_ok (by simpa using hT.goalOnce) _)]
  rfl

theorem readActions_ok {β : Type} {p : Read ExplicitOperator} {out : β → List Char} {val : β → ExplicitOperator} (bs : List β) (hn : bs.length ≤ IntMax)
    (h : ∀ b ∈ bs, ∀ rest, p (at' (out b ++ rest)) = .ok (val b, at' rest)) (rest : List Char) :
    readActions p (at' (line (digits bs.length) ++ ((bs.map out).flatten ++ rest))) = .ok (bs.map val, at' rest) := by
  unfold readActions
  rw [bind_ok (readNat_line hn _), bind_ok (eol_ok _)]
  exact many_ok' bs 0 h rest

theorem readVersion_ok (rest : List Char) : readVersion (at' (line "begin_version".toList ++ (line (digits 3) ++ (line "end_version".toList ++ rest)))) = .ok ((), at' rest) := by
  unfold readVersion
  rw [bind_ok (magic_ok ⟨by decide, by decide⟩ _), bind_ok (readNat_line (by decide) _), bind_ok (require_ok (by decide) _), bind_ok (eol_ok _)]
  exact magic_ok ⟨by decide, by decide⟩ _

theorem readMetric_ok (b : Bool) (rest : List Char) :
    readMetric (at' (line "begin_metric".toList ++ (line (digits (if b then 1 else 0)) ++ (line "end_metric".toList ++ rest)))) = .ok (b, at' rest) := by
  have h1 : ∀ n : Nat, n ≤ IntMax → ∀ rest', readInt (at' (line (digits n) ++ rest')) = .ok ((n : Int), ⟨some rest', some []⟩) := fun n hn rest' =>
    readInt_ok (read_first (nameOk_word (word_digits _)) (words_single (word_digits _)) _) (parseInt_digits hn)
  have h2 : ∀ l, metricOf (((if b then 1 else 0 : Nat)) : Int) l = .ok (b, l) := by
    intro l
    cases b <;> rfl
  unfold readMetric
  rw [bind_ok (magic_ok ⟨by decide, by decide⟩ _), bind_ok (h1 _ (by cases b <;> decide) _), bind_ok (h2 _), bind_ok (eol_ok _), bind_ok (magic_ok ⟨by decide, by decide⟩ _)]
  rfl

/-- what has been read for a task, before the axioms are evaluated -/
def rootOf (T : SasTask) : Root :=
  ⟨setDefaults (T.variables.zipIdx.map (fun v => variableOf v.1 v.2)) T.init, T.mutexes.flatMap mutexPairs, T.operators.map (operatorOf T.metric), T.axioms.map axiomOf, T.init, T.goal⟩

theorem nextLine_nil : nextLine (some []) = ([], none) := by
  rw [nextLine.eq_def]
  simp only [getline, blank_nil, if_true]
  rw [nextLine.eq_def]

/-- the sections after the variables -/
def sectionsAfter (metric : Bool) (vars : List ExplicitVariable) : Read Root := do
  let mutexes ← readMutexes vars
  let init ← readInit vars
  let goal ← readGoal (setDefaults vars init)
  let ops ← readActions (readOperator metric (setDefaults vars init))
  let axioms ← readActions (readAxiom (setDefaults vars init))
  confirmEnd
  pure ⟨setDefaults vars init, mutexes, ops, axioms, init, goal⟩

theorem readSections_eq : readSections = (readVersion >>= fun _ => readMetric >>= fun metric => readVariables >>= fun vars => sectionsAfter metric vars) := rfl

theorem end_ok : confirmEnd (at' []) = .ok ((), ⟨none, none⟩) := by
  simp only [confirmEnd, nextLine_nil, if_true]

theorem sectionsAfter_ok (hT : T.Valid) {vs : List ExplicitVariable} (hs : Same T vs) : 
    sectionsAfter T.metric vs (at' (line (digits T.mutexes.length) ++ ((T.mutexes.map outMutex).flatten ++ (outInit T.init ++
      (outGoal T.goal ++ (line (digits T.operators.length) ++ ((T.operators.map outOperator).flatten ++ (line (digits T.axioms.length) ++
        ((T.axioms.map outAxiom).flatten ++ []))))))))) =
      .ok (⟨setDefaults vs T.init, T.mutexes.flatMap mutexPairs, T.operators.map (operatorOf T.metric), T.axioms.map axiomOf, T.init, T.goal⟩, ⟨none, none⟩) := by
  obtain ⟨hs', hd⟩ := same_defaults hs hT.init
  unfold sectionsAfter
  exact (bind_ok (readMutexes_ok hT hs _)).trans ((bind_ok (readInit_ok hT hs _)).trans ((bind_ok (readGoal_ok hT hs' _)).trans
    ((bind_ok (readActions_ok T.operators hT.fewOperators (fun o ho rest => readOperator_ok hT hs' (hT.operators o ho) _ rest) _)).trans
      ((bind_ok (readActions_ok T.axioms hT.fewAxioms (fun a ha rest => readAxiom_ok hT hs' hd (hT.axioms a ha) rest) _)).trans ((bind_ok end_ok).trans (pure_ok _ _))))))

/-- what is written after the variables -/
def outAfter (T : SasTask) : List Char :=
  line (digits T.mutexes.length) ++ ((T.mutexes.map outMutex).flatten ++ (outInit T.init ++
    (outGoal T.goal ++ (line (digits T.operators.length) ++ ((T.operators.map outOperator).flatten ++ (line (digits T.axioms.length) ++
      ((T.axioms.map outAxiom).flatten ++ [])))))))

theorem output_eq : output T = line "begin_version".toList ++ (line (digits 3) ++ (line "end_version".toList ++ (line "begin_metric".toList ++
    (line (digits (if T.metric then 1 else 0)) ++ (line "end_metric".toList ++ (outVariables T.variables ++ outAfter T)))))) := by
  unfold output outAfter
  rw [List.append_nil]

theorem readSections_ok (hT : T.Valid) : readSections (at' (output T)) = .ok (rootOf T, ⟨none, none⟩) := by
  have h := sectionsAfter_ok hT (same_variables (T := T))
  rw [output_eq, readSections_eq]
  exact (bind_ok (readVersion_ok _)).trans ((bind_ok (readMetric_ok _ _)).trans ((bind_ok (readVariables_ok hT _)).trans h))

end Verif.SasFile
