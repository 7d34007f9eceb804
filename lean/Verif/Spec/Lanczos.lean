/-
Specification for C40–C43: tridiagonal matrices, resolvents, orthonormal families.
-/
import Mathlib.LinearAlgebra.Matrix.Hermitian
import Mathlib.LinearAlgebra.Matrix.NonsingularInverse
import Mathlib.Analysis.Complex.Basic

namespace Verif.Spec

open Matrix

/-- The real symmetric tridiagonal matrix with diagonal `alpha` and off-diagonal
`beta`. -/
def tridiagonal (alpha beta : List ℝ) (k : ℕ) : Matrix (Fin k) (Fin k) ℂ := fun i j =>
  if i = j then (alpha.getD i 0 : ℝ)
  else if i.val + 1 = j.val then (beta.getD i 0 : ℝ)
  else if j.val + 1 = i.val then (beta.getD j 0 : ℝ)
  else 0

/-- `⟨v| (z - H)⁻¹ |v⟩`. -/
noncomputable def resolvent {n : ℕ} (H : Matrix (Fin n) (Fin n) ℂ) (v : Fin n → ℂ) (z : ℂ) : ℂ :=
  star v ⬝ᵥ ((z • (1 : Matrix (Fin n) (Fin n) ℂ) - H)⁻¹ *ᵥ v)

/-- The first `k` vectors are orthonormal. -/
def OrthonormalUpTo {n : ℕ} (V : ℕ → Fin n → ℂ) (k : ℕ) : Prop :=
  ∀ i < k, ∀ j < k, star (V i) ⬝ᵥ V j = if i = j then 1 else 0

end Verif.Spec
