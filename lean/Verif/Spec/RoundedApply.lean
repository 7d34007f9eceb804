/-
Specification for C102: sizes of the terms of an operator.
-/
import Verif.Spec.RoundedStates
import Verif.Spec.State
import Verif.Spec.Eigen
import Verif.Spec.Cache

namespace Verif.Spec

/-- What the terms of an operator contribute to a product state, without cancellation. -/
noncomputable def absoluteAction (op : Op ℕ ℂ) (v : Vec ℂ) (S : Finset ℕ) : ℝ :=
  (op.map fun q => ‖q.2‖ * ‖product (processSpec q.1) v S‖).sum

/-- The sum of the absolute values of the coefficients of an operator. -/
noncomputable def absoluteSum (op : Op ℕ ℂ) : ℝ := (op.map fun q => ‖q.2‖).sum

/-- The largest amplitude whose computed square is below the cutoff. -/
noncomputable def cutAmplitude (u cut : ℝ) : ℝ := Real.sqrt (cut / (2 - (1 + u) ^ 3))

/-- `M` is a Hermitian matrix made from the elements of `h`: each element lies between `h i j` and the conjugate of
`h j i`.  The lower triangle that `numpy.linalg.eigh` reads is an example, with real parts on the diagonal. -/
structure Symmetrised (d : ℕ) (h M : Mat ℂ) : Prop where
  hermitian : ∀ i j, M i j = star (M j i)
  between : ∀ i < d, ∀ j < d, ∃ t : ℝ, 0 ≤ t ∧ t ≤ 1 ∧ M i j = t * h i j + (1 - t) * star (h j i)

/-- What `numpy.linalg.eigh` reads. -/
noncomputable def lowerTriangle (h : Mat ℂ) : Mat ℂ := fun i j =>
  if j < i then h i j else if i < j then star (h j i) else ((h i i).re : ℂ)

/-- The sizes of the terms that lead from the product state `T` to `S`. -/
noncomputable def linkSize (op : Op ℕ ℂ) (S T : Finset ℕ) : ℝ := absoluteAction op (single T 1) S

open Classical in
/-- The largest error of a matrix element; without a term there is none. -/
noncomputable def elementError (u cut : ℝ) (op : Op ℕ ℂ) (S T : Finset ℕ) : ℝ :=
  2 * relError u (op.length + 2) * linkSize op S T + if linkSize op S T = 0 then 0 else cutAmplitude u cut

/-- The largest error of the elements of a row or column of a computed matrix. -/
noncomputable def lineError (u cut : ℝ) (op : Op ℕ ℂ) : ℝ :=
  2 * relError u (op.length + 2) * absoluteSum op + op.length * cutAmplitude u cut

end Verif.Spec
