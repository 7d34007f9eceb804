/-
Specification of rotations about the z axis.
-/
import Verif.Spec.Degenerate

namespace Verif.Spec

open Finset

/-- Every electron in spin-orbital `i` contributes the phase `χ i`. -/
noncomputable def turn (χ : ℕ → ℂ) (v : Vec ℂ) : Vec ℂ := fun F => (∏ i ∈ F, χ i) * v F

/-- A rotation by 90 degrees about the z axis, up to one phase per electron: a p or d electron with orbital momentum
projection `m` and spin projection `s - 1/2` gets the phase `i^(m + s)`.  The bath states may have any phases. -/
structure QuarterTurn (b : ℕ → ℕ) (χ : ℕ → ℂ) : Prop where
  shell : ∀ l ∈ [1, 2], ∀ s ∈ ({0, 1} : Finset ℤ), ∀ m ∈ mRange l,
    χ (position (pdSystem b) (.imp l s m)) = Complex.I ^ (m + s)
  unit : ∀ i, ‖χ i‖ = 1

end Verif.Spec
