/-
Model of sympy's gaunt, which finite.py:10, 476-482 uses for the integrals of three spherical
harmonics.  sympy is not part of the repository; this is the formula that
sympy/physics/wigner.py evaluates (with exact integers, then `sqrt`).  Most theorems hold for any
table of Gaunt coefficients with certain symmetries; this model shows which table is meant.
-/
import Verif.Model.Operators
import Mathlib.Data.Nat.Factorial.Basic

namespace Verif

open Finset

/-- sympy's `_Factlist[n]`; the indices that are used are not negative. -/
def factList (n : ℤ) : ℚ := (n.toNat.factorial : ℚ)

/-- The argument of the square root, without the factor `1/(4π)`. -/
def gauntArg (l1 l2 l3 m1 m2 m3 : ℤ) : ℚ :=
  (2 * l1 + 1) * (2 * l2 + 1) * (2 * l3 + 1) * factList (l1 - m1) * factList (l1 + m1) * factList (l2 - m2)
    * factList (l2 + m2) * factList (l3 - m3) * factList (l3 + m3)

/-- `prefac`. -/
def gauntPrefac (l1 l2 l3 : ℤ) : ℚ :=
  let bigL := (l1 + l2 + l3) / 2
  factList bigL * factList (l2 - l1 + l3) * factList (l1 - l2 + l3) * factList (l1 + l2 - l3)
    / factList (2 * bigL + 1) / (factList (bigL - l1) * factList (bigL - l2) * factList (bigL - l3))

/-- `sumres`: the loop over `ii`. -/
def gauntSum (l1 l2 l3 m1 m2 : ℤ) : ℚ :=
  let imin := Max.max (Max.max (-l3 + l1 + m2) (-l3 + l2 - m1)) 0
  let imax := Min.min (Min.min (l2 + m2) (l1 - m1)) (l1 + l2 - l3)
  ((pyRange imin (imax + 1)).map fun ii => (-1) ^ ii / (factList ii * factList (ii + l3 - l1 - m2)
    * factList (l2 + m2 - ii) * factList (l1 - ii - m1) * factList (ii + l3 - l2 + m1)
    * factList (l1 + l2 - l3 - ii))).sum

/-- The tests after which `gaunt` returns 0. -/
def gauntZero (l1 l2 l3 m1 m2 m3 : ℤ) : Bool :=
  decide (l1 + l2 - l3 < 0) || decide (l1 - l2 + l3 < 0) || decide (-l1 + l2 + l3 < 0)
    || decide ((l1 + l2 + l3) % 2 = 1) || decide (m1 + m2 + m3 ≠ 0)
    || decide (l1 < |m1|) || decide (l2 < |m2|) || decide (l3 < |m3|)

/-- The rational factor of the result. -/
def gauntRational (l1 l2 l3 m1 m2 : ℤ) : ℚ :=
  gauntPrefac l1 l2 l3 * gauntSum l1 l2 l3 m1 m2 * (-1) ^ ((l1 + l2 + l3) / 2 + l3 + m1 - m2)

/-- sympy's `gaunt(l1, l2, l3, m1, m2, m3)`. -/
noncomputable def sympyGaunt : GauntFun := fun l1 l2 l3 m1 m2 m3 =>
  if gauntZero l1 l2 l3 m1 m2 m3 then 0
  else Real.sqrt ((gauntArg l1 l2 l3 m1 m2 m3 : ℝ) / (4 * Real.pi)) * (gauntRational l1 l2 l3 m1 m2 : ℝ)

end Verif
