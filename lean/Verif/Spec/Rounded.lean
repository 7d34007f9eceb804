/-
Specification for C94: accurate floating-point operations and the size of the numbers.
-/
import Verif.Model.Rounded

namespace Verif.Spec

/-- The standard model of floating-point arithmetic: the result of each operation is the exact one up to a relative
error `u` (for double precision `2 ^ (-53)`; for the exponential function a small multiple). -/
structure Accurate (u : ℝ) (fl : FloatOps) : Prop where
  add : ∀ x y, |fl.add x y - (x + y)| ≤ u * |x + y|
  sub : ∀ x y, |fl.sub x y - (x - y)| ≤ u * |x - y|
  mul : ∀ x y, |fl.mul x y - x * y| ≤ u * |x * y|
  div : ∀ x y, y ≠ 0 → |fl.div x y - x / y| ≤ u * |x / y|
  exp : ∀ x, |fl.exp x - Real.exp x| ≤ u * Real.exp x

/-- The numbers of a Green's function are at most `S`: energies, broadening and coefficients. -/
structure Scale (S : ℝ) (alpha beta omega : List ℝ) (delta e : ℝ) : Prop where
  energy : ∀ w ∈ omega, ∀ a ∈ alpha, |w| + delta + |e| + |a| ≤ S
  coupling : ∀ b ∈ beta, |b| ≤ S

end Verif.Spec
