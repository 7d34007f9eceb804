/-
Specification for C84: spectra without cutoffs.
-/
import Verif.Spec.Simulate
import Verif.Spec.Observables

namespace Verif.Spec

open Finset

noncomputable section

/-- The part of `T x` with allowed occupations.  No amplitude is dropped because it is small. -/
def allowedPart (n : ℕ) (r : Option Restrictions) (T : Vec ℂ → Vec ℂ) (x : Vec ℂ) : Vec ℂ :=
  fun S => if S ⊆ range n ∧ AllowedOpt r S then T x S else 0

/-- `g = ⟨T x| (z - H)⁻¹ |T x⟩` for the operators `H` and `T` between the product states with allowed occupations, without
cutoffs. -/
def IsUncut (n : ℕ) (r : Option Restrictions) (H T : Vec ℂ → Vec ℂ) (x : Vec ℂ) (z g : ℂ) : Prop :=
  IsGreen n (allowedPart n r H) z (allowedPart n r T x) g

/-- `T` is linear and makes vectors longer by at most the factor `t`. -/
structure BoundedBy (n : ℕ) (T : Vec ℂ → Vec ℂ) (t : ℝ) : Prop where
  linear : IsLinearMap ℂ T
  nonneg : 0 ≤ t
  bound : ∀ v : Vec ℂ, (∀ S, ¬ S ⊆ range n → v S = 0) → normSq n (T v) ≤ t ^ 2 * normSq n v

open Classical in
/-- The number of product states in `T x` with a weight below the cutoff. -/
def dropped (n : ℕ) (T : Vec ℂ → Vec ℂ) (weight : ℝ) (x : Vec ℂ) : ℕ :=
  #{S ∈ (range n).powerset | T x S ≠ 0 ∧ Complex.normSq (T x S) < weight}

/-- How far `T psi` without the `k` product states of weight below `weight` can be from `T x`, if the distance between `psi`
and `x` is `eta`. -/
def vectorError (t eta weight : ℝ) (k : ℕ) : ℝ := t * eta + Real.sqrt (k * weight)

/-- The error of a response `⟨T x| (z - H)⁻¹ |T x⟩` of a vector `x` of length up to 1, at the distance `delta` from the real
axis: from an error `rho` of `T x` and from matrix elements below `√cut` of an operator `H` with `m` terms. -/
def cutoffError (t rho cut : ℝ) (m : ℕ) (delta : ℝ) : ℝ :=
  rho * (2 * t + rho) / |delta| + m * Real.sqrt cut * t ^ 2 / delta ^ 2

/-- `g = ⟨T' y| (z₂ - H)⁻¹ |T' y⟩` with `y = (z₁ - H)⁻¹ T x` without cutoffs. -/
def IsUncutRixs (n : ℕ) (r : Option Restrictions) (H T T' : Vec ℂ → Vec ℂ) (x : Vec ℂ) (z₁ z₂ g : ℂ) : Prop :=
  IsRixs n (allowedPart n r H) z₁ z₂ (allowedPart n r T x) (allowedPart n r T') g

/-- The error of `y = (z - H)⁻¹ T x`, from an error `rho` of `T x` and from matrix elements below `√cut` of an operator `H` with
`m` terms. -/
def solutionError (t rho cut : ℝ) (m : ℕ) (delta : ℝ) : ℝ := rho / |delta| + m * Real.sqrt cut * t / delta ^ 2

end

end Verif.Spec
