import Mathlib.Algebra.BigOperators.Group.List.Basic
import Mathlib.Tactic.Ring
import Mathlib.Tactic.Linarith

/-
Mixed radix numbers.
-/
namespace Verif.Pdb

/-- the number with digits `xs` (least significant first) for the bases `ds` -/
def enc : List Nat → List Nat → Nat
  | d :: ds, x :: xs => x + d * enc ds xs
  | _, _ => 0

/-- the digits of a number -/
def digits : List Nat → Nat → List Nat
  | [], _ => []
  | d :: ds, i => i % d :: digits ds (i / d)

/-- the values of the digits -/
def weights (m : Nat) : List Nat → List Nat
  | [] => []
  | d :: ds => m :: weights (m * d) ds

/-- valid digits -/
def Valid (ds xs : List Nat) : Prop := List.Forall₂ (fun d x => x < d) ds xs

theorem enc_lt {ds xs : List Nat} (h : Valid ds xs) : enc ds xs < ds.prod := by
  induction h with
  | nil => simp [enc]
  | @cons d x ds xs h1 _ ih =>
    simp only [enc, List.prod_cons]
    calc x + d * enc ds xs < d + d * enc ds xs := by omega
      _ = d * (enc ds xs + 1) := by ring
      _ ≤ d * ds.prod := Nat.mul_le_mul_left _ ih

theorem digits_enc {ds xs : List Nat} (h : Valid ds xs) : digits ds (enc ds xs) = xs := by
  induction h with
  | nil => rfl
  | @cons d x ds xs h1 _ ih =>
    simp only [enc, digits]
    rw [Nat.add_mul_mod_self_left, Nat.mod_eq_of_lt h1, Nat.add_mul_div_left _ _ (by omega : 0 < d), Nat.div_eq_of_lt h1, Nat.zero_add, ih]

theorem enc_digits : ∀ {ds : List Nat} {i : Nat}, i < ds.prod → enc ds (digits ds i) = i
  | [], i, h => by simp at h; simp [enc, h]
  | d :: ds, i, h => by
    simp only [List.prod_cons] at h
    simp only [enc, digits]
    rw [enc_digits (Nat.div_lt_of_lt_mul h)]
    exact Nat.mod_add_div i d

theorem digits_valid : ∀ {ds : List Nat} {i : Nat}, i < ds.prod → Valid ds (digits ds i)
  | [], _, _ => .nil
  | d :: ds, i, h => by
    simp only [List.prod_cons] at h
    have hd : 0 < d := by
      rcases Nat.eq_zero_or_pos d with e | e
      · subst e; simp at h
      · exact e
    exact .cons (Nat.mod_lt _ hd) (digits_valid (Nat.div_lt_of_lt_mul h))

theorem digits_getElem? : ∀ (ds : List Nat) (i j : Nat), (digits ds i)[j]? = (ds[j]?).map (fun d => i / (ds.take j).prod % d)
  | [], i, j => by simp [digits]
  | d :: ds, i, 0 => by simp [digits]
  | d :: ds, i, j + 1 => by
    simp only [digits, List.getElem?_cons_succ, List.take_succ_cons, List.prod_cons]
    rw [digits_getElem?, Nat.div_div_eq_div_mul]

theorem weights_getElem? : ∀ (ds : List Nat) (m j : Nat), (weights m ds)[j]? = (ds[j]?).map (fun _ => m * (ds.take j).prod)
  | [], m, j => by simp [weights]
  | d :: ds, m, 0 => by simp [weights]
  | d :: ds, m, j + 1 => by
    simp only [weights, List.getElem?_cons_succ, List.take_succ_cons, List.prod_cons]
    rw [weights_getElem?, Nat.mul_assoc]

theorem enc_set : ∀ {ds xs : List Nat} {j y x : Nat}, xs[j]? = some y → ds.length = xs.length → (enc ds (xs.set j x) : Int) = enc ds xs + ((x : Int) - y) * ((ds.take j).prod : Nat)
  | [], xs, j, y, x, h, hl => by
    cases xs with
    | nil => simp at h
    | cons _ _ => simp at hl
  | d :: ds, [], j, y, x, h, hl => by simp at h
  | d :: ds, z :: xs, 0, y, x, h, hl => by
    simp only [List.getElem?_cons_zero, Option.some.injEq] at h
    subst h
    simp only [List.set_cons_zero, enc, List.take_zero, List.prod_nil]
    push_cast
    ring
  | d :: ds, z :: xs, j + 1, y, x, h, hl => by
    simp only [List.getElem?_cons_succ] at h
    simp only [List.length_cons, Nat.add_right_cancel_iff] at hl
    have ih := enc_set (x := x) h hl
    simp only [List.set_cons_succ, enc, List.take_succ_cons, List.prod_cons]
    push_cast at ih ⊢
    rw [ih]
    ring

theorem Valid.length {ds xs : List Nat} (h : Valid ds xs) : ds.length = xs.length := List.Forall₂.length_eq h

theorem valid_iff {ds xs : List Nat} : Valid ds xs ↔ ds.length = xs.length ∧ ∀ (j d x : Nat), ds[j]? = some d → xs[j]? = some x → x < d := by
  constructor
  · intro h
    refine ⟨h.length, ?_⟩
    induction h with
    | nil => simp
    | cons h1 _ ih =>
      intro j d x hd hx
      cases j with
      | zero => simp at hd hx; omega
      | succ j => exact ih j d x (by simpa using hd) (by simpa using hx)
  · rintro ⟨hl, h⟩
    induction ds generalizing xs with
    | nil => cases xs with
      | nil => exact .nil
      | cons _ _ => simp at hl
    | cons d ds ih =>
      cases xs with
      | nil => simp at hl
      | cons x xs => exact .cons (h 0 d x (by simp) (by simp)) (ih (by simpa using hl) (fun j d x hd hx => h (j + 1) d x (by simpa using hd) (by simpa using hx)))

theorem Valid.set {ds xs : List Nat} (h : Valid ds xs) {j x : Nat} (hx : ∀ d, ds[j]? = some d → x < d) : Valid ds (xs.set j x) := by
  rw [valid_iff] at h ⊢
  refine ⟨by simpa using h.1, fun j' d x' hd hx' => ?_⟩
  rw [List.getElem?_set] at hx'
  split at hx'
  · rename_i e
    subst e
    split at hx'
    · simp only [Option.some.injEq] at hx'; subst hx'; exact hx d hd
    · simp at hx'
  · exact h.2 j' d x' hd hx'

theorem prod_pos_of {ds : List Nat} (h : ∀ d ∈ ds, 1 ≤ d) : 1 ≤ ds.prod := by
  induction ds with
  | nil => simp
  | cons d ds ih =>
    rw [List.prod_cons]
    exact Nat.mul_le_mul (h d (by simp)) (ih (fun x hx => h x (by simp [hx])))

end Verif.Pdb
