/-
Specification for C83: inexact Lanczos coefficients.
-/
import Mathlib.Data.Real.Basic
import Mathlib.Algebra.Order.Group.Abs

namespace Verif.Spec

/-- `K` Lanczos coefficients that agree up to `ε` with the `k ≤ K` coefficients of a chain that ends after `k` steps: the
first ones are within `ε` of these, and the coupling where the chain ends is at most `ε`.  Nothing is said about
the coefficients after that. -/
structure CloseChain (ε : ℝ) (k K : ℕ) (alpha beta alpha' beta' : List ℝ) : Prop where
  le : k ≤ K
  lengths : alpha.length = k ∧ beta.length = k - 1 ∧ alpha'.length = K ∧ beta'.length = K - 1
  alpha : ∀ i < k, |alpha.getD i 0 - alpha'.getD i 0| ≤ ε
  beta : ∀ i, i + 1 < k → |beta.getD i 0 - beta'.getD i 0| ≤ ε
  stops : k < K → |beta'.getD (k - 1) 0| ≤ ε

end Verif.Spec
