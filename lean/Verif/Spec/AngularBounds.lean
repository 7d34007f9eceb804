/-
Specification for C105: the limits of spin and orbital moments.
-/
import Verif.Spec.RoundedStates

namespace Verif.Spec

noncomputable section

/-- The square of an angular momentum of length `j`. -/
def square (j : ℝ) : ℝ := j * (j + 1)

/-- The largest spin of `N` electrons in a d shell: 0, 1/2, 1, 3/2, 2, 5/2, 2, 3/2, 1, 1/2, 0. -/
def sMax (N : ℝ) : ℝ := min N (10 - N) / 2

/-- The largest orbital momentum of `N` electrons in a d shell: 0, 2, 4, 5, 6, 6, 6, 5, 4, 2, 0. -/
def lMax (N : ℝ) : ℝ := min (min (2 * N) (N + 2)) (min 6 (min (12 - N) (20 - 2 * N)))

/-- `sq` and `z` are possible values of the square and the z component of an angular momentum for a state with `N` d
electrons in its product states, if the largest is `max N`; `weight` averages over the product states. -/
structure Possible (max : ℝ → ℝ) (weight : (Finset ℕ → ℝ) → ℝ) (count : Finset ℕ → ℝ) (sq z : ℝ) : Prop where
  /-- the z component is never longer than the vector -/
  component : |z| * (|z| + weight fun _ => 1) ≤ sq * weight fun _ => 1
  /-- the vector is never too long -/
  square : sq ≤ weight fun F => Spec.square (max (count F))
  nonneg : 0 ≤ sq
  limit : |z| ≤ weight fun F => max (count F)

/-- The same for a state of length at most one, whatever its electrons: the square is at most `j (j + 1)`. -/
def AllowedMoment (j sq z : ℝ) : Prop := |z| * (|z| + 1) ≤ sq ∧ sq ≤ Spec.square j

end

end Verif.Spec
