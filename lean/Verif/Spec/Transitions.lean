/-
Specification of transition operators: one-particle operators between two
shells, the dipole operator `n · r/|r|`, the plane wave `exp(i q·r)`.
-/
import Verif.Spec.Observables
import Mathlib.Analysis.SpecialFunctions.Complex.Arg

namespace Verif.Spec

open Finset

/-- The spin-orbitals of shell `l`: `2(2l+1)` consecutive numbers. -/
def shellSet (nBaths : NBaths) (l : ℕ) : Finset ℕ :=
  Ico (impStart nBaths l) (impStart nBaths l + 2 * (2 * l + 1))

/-- Spin conserving one-particle operator from shell `lj` to shell `li`:
`∑ M m m' c†_{li s m} c_{lj s m'}`. -/
noncomputable def between (f : Label → ℕ) (li lj : ℕ) (M : ℤ → ℤ → ℂ) (v : Vec ℂ) : Vec ℂ :=
  fun S => ∑ s ∈ ({0, 1} : Finset ℤ), ∑ m ∈ mRange li, ∑ m' ∈ mRange lj,
    M m m' * create (f (.imp li s m)) (annihilate (f (.imp lj s m')) v) S

variable (gaunt : ℕ → ℕ → ℕ → ℤ → ℤ → ℤ → ℝ)

/-- `⟨l m| C¹_q |l' m'⟩`. -/
noncomputable def c1 (l : ℕ) (m : ℤ) (l' : ℕ) (m' q : ℤ) : ℂ :=
  if m - m' = q then (ck gaunt 1 l m l' m' : ℂ) else 0

/-- `⟨l m| n·r/|r| |l' m'⟩`, from `x/r = (C¹₋₁ - C¹₁)/√2`, `y/r = i (C¹₋₁ + C¹₁)/√2`, `z/r = C¹₀`. -/
noncomputable def dipole (nx ny nz : ℂ) (l : ℕ) (m : ℤ) (l' : ℕ) (m' : ℤ) : ℂ :=
  nx * ((c1 gaunt l m l' m' (-1) - c1 gaunt l m l' m' 1) / (Real.sqrt 2 : ℝ))
  + ny * (Complex.I * (c1 gaunt l m l' m' (-1) + c1 gaunt l m l' m' 1) / (Real.sqrt 2 : ℝ))
  + nz * c1 gaunt l m l' m' 0

/-- The integrals of three spherical harmonics vanish for odd `a+b+c`, for
`|β| > b` and outside the triangle `b ≤ a + c`. -/
structure GauntRules : Prop where
  odd : ∀ a b c α β γ, (a + b + c) % 2 = 1 → gaunt a b c α β γ = 0
  large : ∀ (a b c : ℕ) (α β γ : ℤ), (b : ℤ) < |β| → gaunt a b c α β γ = 0
  triangle : ∀ a b c α β γ, a + c < b → gaunt a b c α β γ = 0

/-- `⟨l m| Y_{k q} |l' m'⟩` with `q = m - m'`. -/
noncomputable def yElement (k l : ℕ) (m : ℤ) (l' : ℕ) (m' : ℤ) : ℝ := (-1) ^ m * gaunt l k l' (-m) (m - m') m'

/-- The trapezoidal rule for the values `y` at the points `x`. -/
noncomputable def trapezoid (N : ℕ) (y : ℕ → ℂ) (x : ℕ → ℝ) : ℂ :=
  ∑ i ∈ range (N - 1), ((x (i + 1) - x i : ℝ) : ℂ) * (y i + y (i + 1)) / 2

/-- `⟨li mi| exp(i q·r) |lj mj⟩` from the expansion
`exp(i q·r) = 4π ∑_k i^k j_k(qr) ∑_m Y*_{km}(q) Y_{km}(r)`, the terms `kmin ≤ k ≤ K`.
`R k` is the radial integral of `j_k(qr)`; `Y m k φ θ` the spherical harmonics. -/
noncomputable def planeWave (Y : ℤ → ℕ → ℝ → ℝ → ℂ) (R : ℕ → ℂ) (θ φ : ℝ) (kmin K li : ℕ) (mi : ℤ)
    (lj : ℕ) (mj : ℤ) : ℂ :=
  ∑ k ∈ Icc kmin K, 4 * (Real.pi : ℂ) * Complex.I ^ k * R k * star (Y (mi - mj) k φ θ)
    * (yElement gaunt k li mi lj mj : ℂ)

/-- The radial integrals of the plane wave expansion: trapezoidal rule for
`∫ Ri* j_k(q r) Rj r² dr`. -/
noncomputable def radialIntegral (jn : ℕ → ℝ → ℝ) (Ri Rj : List ℂ) (r : List ℝ) (qn : ℝ) (k : ℕ) : ℂ :=
  trapezoid r.length (fun i => star (Ri.getD i 0) * (jn k (qn * r.getD i 0) : ℝ) * Rj.getD i 0
    * ((r.getD i 0 ^ 2 : ℝ) : ℂ)) (fun i => r.getD i 0)

end Verif.Spec
