/-
Specification: spectra as sums of Lorentzians.
-/
import Mathlib.Analysis.Complex.Basic

namespace Verif.Spec

/-- The function `z ↦ ∑ weight/(z - energy)`; the list has pairs of energy and weight. -/
noncomputable def lehmann (L : List (ℝ × ℝ)) (z : ℂ) : ℂ := (L.map fun p => (p.2 : ℂ) / (z - (p.1 : ℂ))).sum

/-- The sum of the weights. -/
def totalWeight (L : List (ℝ × ℝ)) : ℝ := (L.map Prod.snd).sum

end Verif.Spec
