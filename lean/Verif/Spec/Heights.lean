/-
Specification for C108: how high and how steep a spectrum can be.
-/
import Mathlib.Data.Real.Basic

namespace Verif.Spec

/-- A text file with a spectrum of broadening `delta`.  Each row has the energy, the sum of the columns, and `n` columns.
No column is negative or higher than `top/delta`, and the sum is not higher than `total/delta`.  Between two rows with the energies `w`
and `w'` a column changes by at most `top·|w - w'|/delta²`, and the sum by at most `total·|w - w'|/delta²`. -/
structure BoundedTable (n : ℕ) (delta top total : ℝ) (table : List (List ℝ)) : Prop where
  height : ∀ r ∈ table, ∃ w sum columns, r = w :: sum :: columns ∧ columns.length = n ∧ 0 ≤ sum ∧ sum ≤ total / delta ∧
    ∀ x ∈ columns, 0 ≤ x ∧ x ≤ top / delta
  slope : ∀ w sum columns w' sum' columns', w :: sum :: columns ∈ table → w' :: sum' :: columns' ∈ table →
    |sum - sum'| ≤ total * |w - w'| / delta ^ 2 ∧
    ∀ j < n, |columns.getD j 0 - columns'.getD j 0| ≤ top * |w - w'| / delta ^ 2

end Verif.Spec
