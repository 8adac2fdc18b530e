import Mathlib.Data.Rat.Floor
import Mathlib.Algebra.Order.Field.Basic
import Mathlib.Tactic.Positivity
import Mathlib.Tactic.FieldSimp

/-!
# Binary scaling

Specification of a shift by an exponent: the product with a power of two, rounded down.
-/

namespace Verif

/-- `x · 2 ^ e` rounded down, for any integer exponent. -/
def scaled (e x : Int) : Int := ⌊(x : ℚ) * (2 : ℚ) ^ e⌋

theorem scaled_nonneg (e x : Int) (h : 0 ≤ e) : scaled e x = x * 2 ^ e.toNat := by
  obtain ⟨k, rfl⟩ := Int.eq_ofNat_of_zero_le h
  unfold scaled
  have : (x : ℚ) * (2 : ℚ) ^ (k : Int) = ((x * 2 ^ k : Int) : ℚ) := by push_cast; rw [zpow_natCast]
  simp only [this, Int.floor_intCast, Int.toNat_natCast]

theorem scaled_nonpos (e x : Int) (h : e ≤ 0) : scaled e x = x / 2 ^ (-e).toNat := by
  obtain ⟨k, hk⟩ := Int.eq_ofNat_of_zero_le (show 0 ≤ -e by omega)
  have he : e = -(k : Int) := by omega
  subst he
  unfold scaled
  have : (x : ℚ) * (2 : ℚ) ^ (-(k : Int)) = (x : ℚ) / ((2 ^ k : Nat) : ℚ) := by
    rw [zpow_neg, zpow_natCast]; push_cast; rfl
  rw [this, Rat.floor_intCast_div_natCast]
  simp

end Verif
