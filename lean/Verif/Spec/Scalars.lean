import Verif.Model.Generate
import Verif.Model.Debug
import Mathlib.Algebra.Order.Ring.Rat
import Mathlib.Data.Rat.Floor
import Mathlib.Analysis.SpecialFunctions.Pow.NNReal

/-!
# Exact versions of `x as usize` and `sqrt`

The model takes truncation and square root as uninterpreted operations. The laws that the theorems
on values use, and instances over `ℚ` and `ℝ` which show that the laws can be met.
-/

namespace BSpline

/-- truncation of a non-negative number is its integer part -/
class LawfulTrunc (K : Type) [Field K] [LinearOrder K] [Trunc K] : Prop where
  le : ∀ x : K, 0 ≤ x → ((Trunc.trunc x : ℕ) : K) ≤ x
  lt : ∀ x : K, 0 ≤ x → x < ((Trunc.trunc x : ℕ) : K) + 1

/-- the square root of a non-negative number -/
class LawfulSqrt (K : Type) [Field K] [LinearOrder K] [Sqrt K] : Prop where
  nonneg : ∀ x : K, 0 ≤ x → 0 ≤ Sqrt.sqrt x
  mul_self : ∀ x : K, 0 ≤ x → Sqrt.sqrt x * Sqrt.sqrt x = x

instance : Trunc ℚ := ⟨fun x => ⌊x⌋.toNat⟩

instance : LawfulTrunc ℚ where
  le x hx := by
    have h : (0 : ℤ) ≤ ⌊x⌋ := Int.floor_nonneg.mpr hx
    have h2 : ((⌊x⌋.toNat : ℕ) : ℤ) = ⌊x⌋ := Int.toNat_of_nonneg h
    have h3 : ((⌊x⌋.toNat : ℕ) : ℚ) = ((⌊x⌋ : ℤ) : ℚ) := by exact_mod_cast congrArg (Int.cast : ℤ → ℚ) h2
    simp only [Trunc.trunc]
    rw [h3]; exact Int.floor_le x
  lt x hx := by
    have h : (0 : ℤ) ≤ ⌊x⌋ := Int.floor_nonneg.mpr hx
    have h2 : ((⌊x⌋.toNat : ℕ) : ℤ) = ⌊x⌋ := Int.toNat_of_nonneg h
    have h3 : ((⌊x⌋.toNat : ℕ) : ℚ) = ((⌊x⌋ : ℤ) : ℚ) := by exact_mod_cast congrArg (Int.cast : ℤ → ℚ) h2
    simp only [Trunc.trunc]
    rw [h3]; exact Int.lt_floor_add_one x

noncomputable instance : Trunc ℝ := ⟨fun x => ⌊x⌋₊⟩

instance : LawfulTrunc ℝ where
  le _ hx := Nat.floor_le hx
  lt x _ := Nat.lt_floor_add_one x

noncomputable instance : Sqrt ℝ := ⟨Real.sqrt⟩

instance : LawfulSqrt ℝ where
  nonneg x _ := Real.sqrt_nonneg x
  mul_self _ hx := Real.mul_self_sqrt hx

end BSpline
