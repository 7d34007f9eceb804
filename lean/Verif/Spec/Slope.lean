/-
Specification for C95.
-/
import Verif.Spec.Main

namespace Verif.Spec

open Finset

noncomputable section

/-- The number of product states of the ground-state basis. -/
def numberOfConfigurations (b : ℕ → ℕ) (P : BasisParams) : ℕ :=
  Set.ncard {F : Finset ℕ | F ⊆ range (nTotal (pdSystem b)) ∧ IsConfiguration [(1, b 1), (2, b 2)] (pdSystem b) P F}

/-- The accuracy of the response of a run of main to a change `dhz` of the magnetic field and `ed` of the d level: `1e-6` for
each process of the two Hamiltonians, whose matrix elements are dropped if smaller, and `1e-7` for the weight of each product
state, which is dropped if smaller. -/
def slopeAccuracy (processes configurations : ℕ) (dhz ed : ℝ) : ℝ :=
  processes * 1e-6 + (5 * |dhz| + 10 * |ed|) * 1e-7 * configurations

end

end Verif.Spec
