import Mathlib.Data.Int.Basic

/-
Model of src/search/utils/math.cc: tests on products that are safe against overflow.  The type int has 32 bits; `none` is undefined behaviour (overflow or division by zero).
-/
namespace Verif.Products

/-- the values of an int -/
def IsInt (x : Int) : Prop := -2147483648 ≤ x ∧ x ≤ 2147483647

instance (x : Int) : Decidable (IsInt x) := inferInstanceAs (Decidable (_ ∧ _))

/-- a result of type int: overflow is undefined -/
def int (x : Int) : Option Int := if IsInt x then some x else none

/-- conversion from int to unsigned int -/
def toUnsigned (x : Int) : Nat := (x % 4294967296).toNat

/-- math.cc:10-15; division rounds towards zero -/
def isProductWithinLimit (factor1 factor2 limit : Int) : Option Bool :=
  if factor2 = 0 then some true
  else
    match int (limit.tdiv factor2) with
    | none => none
    | some q => some (decide (factor1 ≤ q))

/-- math.cc:17-20; the arguments are unsigned ints -/
def isProductWithinLimitUnsigned (factor1 factor2 limit : Nat) : Bool := factor2 == 0 || decide (factor1 ≤ limit / factor2)

/-- math.cc:22-28; abs() is undefined if the result is not an int; the sum of unsigned ints is computed modulo 2^32 -/
def safeAbs (x : Int) : Option Nat :=
  if x = -2147483648 then
    match int (x + 1) with
    | none => none
    | some y =>
      match int (-y) with
      | none => none
      | some y => some ((toUnsigned y + 1) % 4294967296)
  else
    match int (x.natAbs : Int) with
    | none => none
    | some y => some (toUnsigned y)

/-- math.cc:30-44 -/
def isProductWithinLimits (factor1 factor2 lower upper : Int) : Option Bool :=
  if factor1 ≥ 0 ∧ factor2 ≥ 0 then isProductWithinLimit factor1 factor2 upper
  else if factor1 < 0 ∧ factor2 < 0 then
    match safeAbs factor1, safeAbs factor2 with
    | some a, some b => some (isProductWithinLimitUnsigned a b (toUnsigned upper))
    | _, _ => none
  else
    match safeAbs factor1, safeAbs factor2, safeAbs lower with
    | some a, some b, some l => some (isProductWithinLimitUnsigned a b l)
    | _, _, _ => none

end Verif.Products
