/-
Amplitudes.  Python uses floats and complex numbers; the model uses any
commutative star ring `R` (star = complex conjugation) together with the map
`|x|^2` into a linearly ordered commutative ring `F`.  Arithmetic is exact.
-/
import Mathlib.Algebra.Star.Basic
import Mathlib.Algebra.Order.Ring.Int
import Mathlib.Algebra.Order.Ring.Rat
import Mathlib.Analysis.Complex.Basic

namespace Verif

/-- `abs(x)**2` for amplitudes. -/
class Amp (R : Type) (F : outParam Type) [CommRing R] [StarRing R] [CommRing F] [LinearOrder F]
    [IsStrictOrderedRing F] where
  /-- `abs(x)**2` -/
  abs2 : R → F
  abs2_zero : abs2 0 = 0
  abs2_one : abs2 1 = 1
  abs2_mul : ∀ x y, abs2 (x * y) = abs2 x * abs2 y
  abs2_star : ∀ x, abs2 (star x) = abs2 x
  abs2_neg : ∀ x, abs2 (-x) = abs2 x
  abs2_nonneg : ∀ x, 0 ≤ abs2 x
  abs2_eq_zero : ∀ x, abs2 x = 0 → x = 0

export Amp (abs2)

noncomputable instance : Amp ℂ ℝ where
  abs2 := Complex.normSq
  abs2_zero := Complex.normSq_zero
  abs2_one := Complex.normSq_one
  abs2_mul := Complex.normSq_mul
  abs2_star := Complex.normSq_conj
  abs2_neg := Complex.normSq_neg
  abs2_nonneg := Complex.normSq_nonneg
  abs2_eq_zero := fun _ => Complex.normSq_eq_zero.1

instance : Amp ℚ ℚ where
  abs2 x := x * x
  abs2_zero := by simp
  abs2_one := by simp
  abs2_mul := by intros; ring
  abs2_star := by intros; rfl
  abs2_neg := by intros; ring
  abs2_nonneg := mul_self_nonneg
  abs2_eq_zero := fun _ => mul_self_eq_zero.1

instance : Amp ℤ ℤ where
  abs2 x := x * x
  abs2_zero := by simp
  abs2_one := by simp
  abs2_mul := by intros; ring
  abs2_star := by intros; rfl
  abs2_neg := by intros; ring
  abs2_nonneg := mul_self_nonneg
  abs2_eq_zero := fun _ => mul_self_eq_zero.1

end Verif
