/-
Specification of a change of the spin-orbitals: every electron in spin-orbital `j` is moved to the one-electron state with
the coefficients `u · j`.
-/
import Verif.Spec.Observables
import Verif.Spec.CrystalField

namespace Verif.Spec

open Finset

noncomputable section

/-- Creates an electron in the one-electron state with the coefficients `u · j`. -/
def createOrb (n : ℕ) (u : ℕ → ℕ → ℂ) (j : ℕ) (v : Vec ℂ) : Vec ℂ := fun F => ∑ i ∈ range n, u i j * create i v F

/-- Removes an electron from the one-electron state with the coefficients `u · j`. -/
def annihilateOrb (n : ℕ) (u : ℕ → ℕ → ℂ) (j : ℕ) (v : Vec ℂ) : Vec ℂ :=
  fun F => ∑ i ∈ range n, star (u i j) * annihilate i v F

/-- The Slater determinant with one electron in the state `u · j` for each `j ∈ T`. -/
def slater (n : ℕ) (u : ℕ → ℕ → ℂ) (T : Finset ℕ) : Vec ℂ := (T.sort (· ≤ ·)).foldr (createOrb n u) (single ∅ 1)

/-- Moves every electron in `j` to the state `u · j`: the product state `T` becomes the Slater determinant of `T`. -/
def changeOrbitals (n : ℕ) (u : ℕ → ℕ → ℂ) (v : Vec ℂ) : Vec ℂ := fun F => ∑ T ∈ (range n).powerset, v T * slater n u T F

/-- The states `u · j` are orthonormal and complete. -/
structure UnitaryOn (n : ℕ) (u : ℕ → ℕ → ℂ) : Prop where
  cols : ∀ j < n, ∀ k < n, ∑ i ∈ range n, star (u i j) * u i k = if j = k then 1 else 0
  rows : ∀ j < n, ∀ k < n, ∑ i ∈ range n, u j i * star (u k i) = if j = k then 1 else 0

end

end Verif.Spec
