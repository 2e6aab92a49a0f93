import Verif.Model.TypedList
import Mathlib.Data.List.Basic

/-
C89: typed lists.
-/
namespace Verif.TypedList
open Verif.Lisp

theorem isDash_iff {t : Tree} : isDash t = true ↔ t = dash := by
  cases t <;> simp [isDash, dash]

theorem splitDash_none {l : List Tree} : splitDash l = none ↔ dash ∉ l := by
  induction l with
  | nil => simp [splitDash]
  | cons t ts ih =>
    unfold splitDash
    by_cases h : isDash t
    · simp only [h, if_true]
      simp [isDash_iff.mp h]
    · have h' : ¬dash = t := fun e => h (isDash_iff.mpr e.symm)
      simp [h, ih, h']

theorem splitDash_some {l items rest : List Tree} : splitDash l = some (items, rest) ↔ l = items ++ dash :: rest ∧ dash ∉ items := by
  induction l generalizing items with
  | nil => simp [splitDash]
  | cons t ts ih =>
    unfold splitDash
    by_cases h : isDash t
    · obtain rfl := isDash_iff.mp h
      simp only [h, if_true, Option.some.injEq, Prod.mk.injEq]
      constructor
      · rintro ⟨rfl, rfl⟩
        simp
      · rintro ⟨h1, h2⟩
        cases items with
        | nil => simpa using h1
        | cons a as =>
          simp only [List.cons_append, List.cons.injEq] at h1
          exact absurd (h1.1 ▸ List.mem_cons_self) h2
    · have h' : ¬dash = t := fun e => h (isDash_iff.mpr e.symm)
      simp only [h, Bool.false_eq_true, if_false, Option.map_eq_some_iff, Prod.mk.injEq, Prod.exists]
      constructor
      · rintro ⟨a, b, h1, rfl, rfl⟩
        obtain ⟨rfl, h3⟩ := ih.mp h1
        simp [h', h3]
      · rintro ⟨h1, h2⟩
        cases items with
        | nil => exact absurd (by simpa using h1.symm : dash = t ∧ _).1 h'
        | cons a as =>
          simp only [List.cons_append, List.cons.injEq] at h1
          obtain ⟨rfl, h1⟩ := h1
          exact ⟨as, rest, ih.mpr ⟨h1, fun h3 => h2 (List.mem_cons_of_mem _ h3)⟩, rfl, rfl⟩

theorem typeOk_iff {e : Bool} {t : Tree} : typeOk e t = true ↔ IsType e t := by
  cases t with
  | word w => simp [typeOk, IsType]
  | list ts =>
    simp only [typeOk, IsType, Bool.and_eq_true]
    refine and_congr Iff.rfl ?_
    cases ts with
    | nil => simp
    | cons a as => cases a <;> simp

theorem entries_ok {v : Bool} {type : Tree} {items : List Tree} {r : List (Word × Tree)} : entries v type items = .ok r ↔ ∃ ws : List Word, items = ws.map .word ∧ r = ws.map (·, type) ∧ ∀ w ∈ ws, IsName v w := by
  induction items generalizing r with
  | nil =>
    constructor
    · intro h
      simp only [entries, Outcome.ok.injEq] at h
      exact ⟨[], rfl, h.symm, by simp⟩
    · rintro ⟨ws, h1, h2, _⟩
      obtain rfl : ws = [] := by simpa using h1.symm
      simp [entries, h2]
  | cons t ts ih =>
    cases t with
    | list us =>
      constructor
      · intro h
        simp only [entries] at h
        split at h <;> cases h
      · rintro ⟨ws, h1, _⟩
        cases ws <;> simp at h1
    | word w =>
      have hw : (v && w.head? != some '?') = false ↔ IsName v w := by
        cases v <;> simp [IsName]
      by_cases hn : IsName v w
      · simp only [entries, hw.mpr hn, Bool.false_eq_true, if_false]
        constructor
        · intro h
          split at h
          · rename_i r' hr
            obtain ⟨ws, h1, h2, h3⟩ := ih.mp hr
            cases h
            exact ⟨w :: ws, by simp [h1], by simp [h2], by simpa using ⟨hn, h3⟩⟩
          · rename_i hne
            exact absurd h (hne r)
        · rintro ⟨ws, h1, h2, h3⟩
          cases ws with
          | nil => simp at h1
          | cons x xs =>
            simp only [List.map_cons, List.cons.injEq, Tree.word.injEq] at h1
            obtain ⟨rfl, h1⟩ := h1
            have := ih.mpr ⟨xs, h1, rfl, fun y hy => h3 y (List.mem_cons_of_mem _ hy)⟩
            simp [this, h2]
      · have hf : (v && w.head? != some '?') = true := by
          rw [← Bool.not_eq_false]
          exact fun h => hn (hw.mp h)
        constructor
        · intro h
          simp [entries, hf] at h
        · rintro ⟨ws, h1, h2, h3⟩
          cases ws with
          | nil => simp at h1
          | cons x xs =>
            simp only [List.map_cons, List.cons.injEq, Tree.word.injEq] at h1
            exact absurd (h1.1 ▸ h3 x List.mem_cons_self) hn

theorem dash_words {ws : List Word} : dash ∉ ws.map Tree.word ↔ ∀ w ∈ ws, w ≠ ['-'] := by
  simp only [dash, List.mem_map, Tree.word.injEq, not_exists, not_and]

/-- C89: the parser of typed lists returns entries exactly if the list consists of groups of names with types, and then they are the names with their types, in the order of the list. -/
theorem C89_typed_lists (v e : Bool) (d : Tree) (alist : List Tree) (r : List (Word × Tree)) : parseTypedList v e d alist = .ok r ↔ Denotes v e d alist r := by
  constructor
  · intro h
    induction hl : alist.length using Nat.strongRecOn generalizing alist r with
    | _ n ih =>
    unfold parseTypedList at h
    split at h
    · rename_i hs
      obtain ⟨ws, rfl, rfl, h3⟩ := entries_ok.mp h
      exact .last ws fun w hw => ⟨h3 w hw, dash_words.mp (splitDash_none.mp hs) w hw⟩
    · cases h
    · rename_i items type rest hs
      split at h
      · rename_i ht
        split at h
        · rename_i r1 h1
          split at h
          · rename_i r2 h2
            cases h
            have hlen := splitDash_length hs
            obtain ⟨rfl, hd⟩ := splitDash_some.mp hs
            obtain ⟨ws, rfl, rfl, h3⟩ := entries_ok.mp h1
            simp only [List.length_cons] at hlen
            exact .group ws type rest r2 (fun w hw => ⟨h3 w hw, dash_words.mp hd w hw⟩) (typeOk_iff.mp ht) (ih rest.length (by omega) rest r2 h2 rfl)
          · rename_i hne
            exact absurd h (hne r)
        · rename_i hne
          exact absurd h (hne r)
      · cases h
  · intro h
    induction h with
    | last ws h1 =>
      have hs : splitDash (ws.map Tree.word) = none := splitDash_none.mpr (dash_words.mpr fun w hw => (h1 w hw).2)
      unfold parseTypedList
      split
      · exact entries_ok.mpr ⟨ws, rfl, rfl, fun w hw => (h1 w hw).1⟩
      · simp_all
      · simp_all
    | group ws t rest r h1 h2 _ ih =>
      have hs : splitDash (ws.map Tree.word ++ dash :: t :: rest) = some (ws.map Tree.word, t :: rest) := splitDash_some.mpr ⟨rfl, dash_words.mpr fun w hw => (h1 w hw).2⟩
      have he := (entries_ok (v := v) (type := t)).mpr ⟨ws, rfl, rfl, fun w hw => (h1 w hw).1⟩
      unfold parseTypedList
      split
      · simp_all
      · simp_all
      · rename_i items type rest' hs'
        rw [hs] at hs'
        simp only [Option.some.injEq, Prod.mk.injEq, List.cons.injEq] at hs'
        obtain ⟨rfl, rfl, rfl⟩ := hs'
        simp only [typeOk_iff.mpr h2, if_true, he, ih]

/-- C89: a list has at most one meaning -/
theorem C89_unique {v e : Bool} {d : Tree} {alist : List Tree} {r r' : List (Word × Tree)} (h : Denotes v e d alist r) (h' : Denotes v e d alist r') : r = r' := by
  have h1 := (C89_typed_lists v e d alist r).mpr h
  rw [(C89_typed_lists v e d alist r').mpr h'] at h1
  exact (Outcome.ok.inj h1).symm

theorem entries_crash {v : Bool} {type : Tree} {items : List Tree} (h : entries v type items = .crash) : v = true ∧ ∃ ts, Tree.list ts ∈ items := by
  induction items with
  | nil => simp [entries] at h
  | cons t ts ih =>
    cases t with
    | list us =>
      simp only [entries] at h
      split at h
      · rename_i hv
        exact ⟨hv, us, List.mem_cons_self⟩
      · cases h
    | word w =>
      simp only [entries] at h
      split at h
      · cases h
      · split at h
        · cases h
        · obtain ⟨h1, us, h2⟩ := ih h
          exact ⟨h1, us, List.mem_cons_of_mem _ h2⟩

/-- C89: all other lists are reported as errors, except that a list instead of a variable can lead to an exception that is not caught. -/
theorem C89_errors (v e : Bool) (d : Tree) (alist : List Tree) (h : ∀ r, ¬Denotes v e d alist r) : parseTypedList v e d alist = .error ∨ (parseTypedList v e d alist = .crash ∧ v = true ∧ ∃ ts, Tree.list ts ∈ alist) := by
  have hcrash : ∀ n (alist : List Tree), alist.length = n → parseTypedList v e d alist = .crash → v = true ∧ ∃ ts, Tree.list ts ∈ alist := by
    intro n
    induction n using Nat.strongRecOn with
    | _ n ih =>
    intro alist hl h
    unfold parseTypedList at h
    split at h
    · exact entries_crash h
    · cases h
    · rename_i items type rest hs
      have hlen := splitDash_length hs
      simp only [List.length_cons] at hlen
      obtain ⟨rfl, -⟩ := splitDash_some.mp hs
      split at h
      · split at h
        · split at h
          · cases h
          · obtain ⟨h1, ts, h2⟩ := ih rest.length (by omega) rest rfl h
            exact ⟨h1, ts, by simp [h2]⟩
        · obtain ⟨h1, ts, h2⟩ := entries_crash h
          exact ⟨h1, ts, by simp [h2]⟩
      · cases h
  cases hp : parseTypedList v e d alist with
  | ok r => exact absurd ((C89_typed_lists v e d alist r).mp hp) (h r)
  | error => exact .inl rfl
  | crash => exact .inr ⟨rfl, hcrash _ alist rfl hp⟩

/-! ### Examples -/

def wd (s : String) : Tree := .word s.toList

/-- (?x ?y - block ?z - (either a b) ?u) -/
example : Denotes true true (wd "object") [wd "?x", wd "?y", dash, wd "block", wd "?z", dash, .list [wd "either", wd "a", wd "b"], wd "?u"]
    [("?x".toList, wd "block"), ("?y".toList, wd "block"), ("?z".toList, .list [wd "either", wd "a", wd "b"]), ("?u".toList, wd "object")] := by
  refine .group ["?x".toList, "?y".toList] (wd "block") _ _ ?_ trivial (.group ["?z".toList] _ _ _ ?_ ⟨rfl, rfl⟩ (.last ["?u".toList] ?_)) <;> simp [IsName]

/-- (a - - b): the second separator is a type -/
example : Denotes false false (wd "object") [wd "a", dash, dash, wd "b"] [("a".toList, dash), ("b".toList, wd "object")] := by
  refine .group ["a".toList] dash _ _ ?_ trivial (.last ["b".toList] ?_) <;> simp [IsName]

/-- C89: a list instead of a variable leads to an exception that is not caught, and without restriction to variables to a reported error -/
theorem C89_exception (e : Bool) (d : Tree) (us : List Tree) : parseTypedList true e d [.list us] = .crash ∧ parseTypedList false e d [.list us] = .error := by
  have hs : splitDash [Tree.list us] = none := by simp [splitDash, isDash]
  constructor
  all_goals
    unfold parseTypedList
    split
    · simp [entries]
    · simp_all
    · simp_all

end Verif.TypedList
