import Verif.Model.Products
import Mathlib.Algebra.Order.Ring.Int

/-
C58: tests on products.
-/
namespace Verif.Products

/-- C58: for ints that are not negative the test is defined and true exactly if the product, as a mathematical integer, is at most the limit. -/
theorem C58_limit {a b limit : Int} (_ha : 0 ≤ a ∧ IsInt a) (hb : 0 ≤ b ∧ IsInt b) (hl : 0 ≤ limit ∧ IsInt limit) : isProductWithinLimit a b limit = some (decide (a * b ≤ limit)) := by
  unfold isProductWithinLimit
  split
  · rename_i h
    subst h
    simp [hl.1]
  · rename_i h
    have hb0 : 0 < b := by omega
    rw [Int.tdiv_eq_ediv_of_nonneg hl.1]
    have h1 : 0 ≤ limit / b := Int.ediv_nonneg hl.1 hb.1
    have h2 : limit / b ≤ limit := Int.ediv_le_self _ hl.1
    have h3 : IsInt (limit / b) := by unfold IsInt at *; omega
    simp only [int, if_pos h3, Option.some.injEq, decide_eq_decide]
    exact Int.le_ediv_iff_mul_le hb0

theorem unsigned_spec (a b l : Nat) : isProductWithinLimitUnsigned a b l = decide (a * b ≤ l) := by
  unfold isProductWithinLimitUnsigned
  by_cases h : b = 0
  · subst h; simp
  · have : (b == 0) = false := by simpa using h
    rw [this, Bool.false_or, decide_eq_decide]
    exact Nat.le_div_iff_mul_le (by omega)

theorem safeAbs_spec {x : Int} (h : IsInt x) : safeAbs x = some x.natAbs := by
  unfold safeAbs
  split
  · rename_i e; subst e; decide
  · rename_i e
    unfold IsInt at h
    have h2 : IsInt (x.natAbs : Int) := by unfold IsInt; omega
    simp only [int, if_pos h2, toUnsigned, Option.some.injEq]
    omega

/-- C58: for all ints, of any sign, and limits with `lower < 0 ≤ upper` the test is defined and true exactly if the product, as a mathematical integer, lies between the limits. -/
theorem C58_limits {a b lower upper : Int} (ha : IsInt a) (hb : IsInt b) (hlo : lower < 0 ∧ IsInt lower) (hup : 0 ≤ upper ∧ IsInt upper) :
    isProductWithinLimits a b lower upper = some (decide (lower ≤ a * b ∧ a * b ≤ upper)) := by
  unfold isProductWithinLimits
  split
  · rename_i h
    rw [C58_limit ⟨h.1, ha⟩ ⟨h.2, hb⟩ hup, Option.some.injEq, decide_eq_decide]
    have : 0 ≤ a * b := Int.mul_nonneg h.1 h.2
    omega
  · rename_i h
    have habs : ((a.natAbs * b.natAbs : Nat) : Int) = |a * b| := by rw [← Int.natAbs_mul, Int.natCast_natAbs]
    split
    · rename_i h2
      rw [safeAbs_spec ha, safeAbs_spec hb]
      simp only [unsigned_spec, Option.some.injEq, decide_eq_decide]
      have hpos : 0 < a * b := Int.mul_pos_of_neg_of_neg h2.1 h2.2
      rw [abs_of_pos hpos] at habs
      have : (toUnsigned upper : Int) = upper := by unfold toUnsigned; unfold IsInt at hup; omega
      omega
    · rename_i h2
      rw [safeAbs_spec ha, safeAbs_spec hb, safeAbs_spec hlo.2]
      simp only [unsigned_spec, Option.some.injEq, decide_eq_decide]
      have hneg : a * b ≤ 0 := by
        rcases Int.lt_or_le a 0 with h3 | h3
        · exact Int.mul_nonpos_of_nonpos_of_nonneg (by omega) (by omega)
        · exact Int.mul_nonpos_of_nonneg_of_nonpos h3 (by omega)
      rw [abs_of_nonpos hneg] at habs
      omega

/-- the products are not ints -/
example : isProductWithinLimits 65536 (-65536) (-2147483648) 2147483647 = some false := by decide
example : isProductWithinLimits (-2147483648) 1 (-2147483648) 2147483647 = some true := by decide
example : isProductWithinLimits (-2147483648) (-1) (-2147483648) 2147483647 = some false := by decide

end Verif.Products
