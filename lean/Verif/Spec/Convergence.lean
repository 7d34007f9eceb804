/-
Specification for C82: how far a spectrum from a few Lanczos vectors is from the exact one.
-/
import Verif.Spec.Green
import Mathlib.Analysis.SpecialFunctions.Arsinh

namespace Verif.Spec

open Finset

/-- The product states of `b` belong to `X`, and `H` does not lead out of `X`. -/
structure ClosedAround (n : ℕ) (H : Vec ℂ → Vec ℂ) (b : Vec ℂ) (X : Set (Finset ℕ)) : Prop where
  contains : ∀ S, b S ≠ 0 → S ∈ X
  closed : ∀ T ∈ X, T ⊆ range n → ∀ S ⊆ range n, H (single T 1) S ≠ 0 → S ∈ X

/-- The energies of all normalised states that are made of product states in `X` lie between `c - w` and `c + w`. -/
def EnergiesWithin (n : ℕ) (H : Vec ℂ → Vec ℂ) (X : Set (Finset ℕ)) (c w : ℝ) : Prop :=
  ∀ v : Vec ℂ, (∀ S, ¬ (S ∈ X ∧ S ⊆ range n) → v S = 0) → innerProduct n v v = 1 →
    |(innerProduct n v (H v)).re - c| ≤ w

/-- The error of `K` Lanczos vectors for the broadening `delta` and energies within `w`. -/
noncomputable def lanczosError (w delta : ℝ) (K : ℕ) : ℝ :=
  2 / (|delta| * Real.sinh (2 * K * Real.arsinh (|delta| / w)))

end Verif.Spec
