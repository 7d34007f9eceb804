/-
Specification for C104: photoemission counts electrons and holes.
-/
import Verif.Spec.SumRules
import Verif.Spec.Lehmann

namespace Verif.Spec

noncomputable section

/-- The part of a state with at least `n` electrons in the d shell. -/
def atLeast (sys : NBaths) (n : ℤ) (v : Vec ℂ) : Vec ℂ := fun F =>
  if n ≤ ((F ∩ impOrbs sys 2).card : ℤ) then v F else 0

/-- The sum of the weights of the first `k` spectra. -/
def weights (k : ℕ) (L : ℕ → List (ℝ × ℝ)) : ℝ := ∑ j ∈ Finset.range k, totalWeight (L j)

end

end Verif.Spec
