/-
Specification for C101: an accurate absolute value and the error of a sum.
-/
import Verif.Spec.Rounded
import Verif.Model.RoundedStates
import Verif.Spec.Observables

namespace Verif.Spec

/-- The computed absolute value of a complex number is right up to a relative error `u`. -/
def AccurateAbs (u : ℝ) (absC : ℂ → ℝ) : Prop := ∀ z, |absC z - ‖z‖| ≤ u * ‖z‖

/-- The relative error of `k` accurate operations, one on top of the other: about `k * u`. -/
noncomputable def relError (u : ℝ) (k : ℕ) : ℝ := (1 + u) ^ k - 1

/-- The electrons that a product state has in a shell: the number of the shell's spin-orbitals that are occupied. -/
noncomputable def shellCount (nBaths : Dict ℕ ℕ) (l : ℕ) (S : Finset ℕ) : ℝ :=
  ∑ x ∈ shell l, if position (intKeys nBaths) (.imp l x.1 x.2) ∈ S then 1 else 0

/-- The sum of the magnetic quantum numbers of the occupied d spin-orbitals. -/
noncomputable def orbitalMoment (nBaths : Dict ℕ ℕ) (S : Finset ℕ) : ℝ :=
  ∑ x ∈ shell 2, if position (intKeys nBaths) (.imp 2 x.1 x.2) ∈ S then (x.2 : ℝ) else 0

/-- The sum of the spins of the occupied d spin-orbitals. -/
noncomputable def spinMoment (nBaths : Dict ℕ ℕ) (S : Finset ℕ) : ℝ :=
  ∑ x ∈ shell 2, if position (intKeys nBaths) (.imp 2 x.1 x.2) ∈ S then (if x.1 = 0 then -1 / 2 else 1 / 2) else 0

/-- The expectation value of an operator that is diagonal in product states. -/
noncomputable def diagonalValue (n : ℕ) (f : Finset ℕ → ℝ) (v : Vec ℂ) : ℝ :=
  ∑ S ∈ (Finset.range n).powerset, f S * Complex.normSq (v S)

end Verif.Spec
