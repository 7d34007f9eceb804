/-
Specification: the position of a label, spin and orbital momentum matrices of a
shell, density matrix elements.
-/
import Verif.Spec.Index
import Verif.Spec.Shell

namespace Verif.Spec

open Finset

/-- The number of a spin-orbital: impurity shells in the order of the dict, spin
by spin, `m` increasing; then the bath states key by key. -/
def position (nBaths : NBaths) : Label → ℕ
  | .imp l s m => impStart nBaths l + (s.toNat * (2 * l + 1) + (m + l).toNat)
  | .bath lp b => bathStart nBaths lp + b.toNat

/-- A spin matrix, acting as the identity on the orbital part. -/
noncomputable def spinOp (A : ℤ → ℤ → ℂ) (x y : ℤ × ℤ) : ℂ := A x.1 y.1 * delta x.2 y.2

/-- An orbital matrix, acting as the identity on the spin part. -/
noncomputable def orbOp (B : ℤ → ℤ → ℂ) (x y : ℤ × ℤ) : ℂ := delta x.1 y.1 * B x.2 y.2

/-- `⟨v| c†_j c_i |v⟩`. -/
noncomputable def correl (n : ℕ) (v : Vec ℂ) (i j : ℕ) : ℂ := innerProduct n v (create j (annihilate i v))

/-- Squared norm of a vector. -/
noncomputable def normSq (n : ℕ) (v : Vec ℂ) : ℝ := ∑ S ∈ (range n).powerset, Complex.normSq (v S)

/-- Annihilation in the orbital `∑_k u_k |k⟩`, `k` ranging over positions `p k`. -/
noncomputable def annihilateIn {κ : Type*} (K : Finset κ) (p : κ → ℕ) (u : κ → ℂ) (v : Vec ℂ) : Vec ℂ :=
  fun S => ∑ k ∈ K, star (u k) * annihilate (p k) v S

end Verif.Spec

namespace Verif.Spec

/-- The solid harmonics `r Y_{1m}` up to the common factor `½√(3/2π)`. -/
noncomputable def solidP (x y z : ℝ) : ℤ → ℂ
  | -1 => x - Complex.I * y
  | 0 => (Real.sqrt 2 : ℝ) * z
  | 1 => -(x + Complex.I * y)
  | _ => 0

/-- The solid harmonics `r² Y_{2m}` up to the common factor `¼√(15/2π)`. -/
noncomputable def solidD (x y z : ℝ) : ℤ → ℂ
  | -2 => (x - Complex.I * y) ^ 2
  | -1 => 2 * (x - Complex.I * y) * z
  | 0 => (Real.sqrt (2 / 3) : ℝ) * (2 * z ^ 2 - x ^ 2 - y ^ 2)
  | 1 => -(2 * (x + Complex.I * y) * z)
  | 2 => (x + Complex.I * y) ^ 2
  | _ => 0

end Verif.Spec
