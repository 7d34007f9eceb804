/-
Specification for C103: the sum rules of x-ray absorption.
-/
import Verif.Spec.Main
import Verif.Spec.RoundedStates

namespace Verif.Spec

noncomputable section

/-- The shell `l` is full: every product state with an amplitude has all its spin-orbitals. -/
def FullShell (f : Label → ℕ) (l : ℕ) (v : Vec ℂ) : Prop :=
  ∀ S, v S ≠ 0 → ∀ x ∈ shell l, f (.imp l x.1 x.2) ∈ S

/-- The squares of the matrix elements `⟨2 m| C¹_q |1 m'⟩` with `m = m' + q`. -/
structure DipoleTable (gaunt : ℕ → ℕ → ℕ → ℤ → ℤ → ℤ → ℝ) : Prop where
  up : ∀ m : ℤ, |m| ≤ 1 → ck gaunt 1 2 (m + 1) 1 m ^ 2 = (m + 2) * (m + 3) / 30
  same : ∀ m : ℤ, |m| ≤ 1 → ck gaunt 1 2 m 1 m ^ 2 = (4 - m ^ 2) / 15
  down : ∀ m : ℤ, |m| ≤ 1 → ck gaunt 1 2 (m - 1) 1 m ^ 2 = (2 - m) * (3 - m) / 30

/-- Light that is polarised along x, y and z. -/
def alongX : Vec3 ℂ := ⟨1, 0, 0⟩
def alongY : Vec3 ℂ := ⟨0, 1, 0⟩
def alongZ : Vec3 ℂ := ⟨0, 0, 1⟩

/-- Circularly polarised light that travels along z: `(x + i y)/√2` and `(x - i y)/√2`. -/
def circularPlus : Vec3 ℂ := ⟨((Real.sqrt 2 : ℝ) : ℂ)⁻¹, Complex.I / ((Real.sqrt 2 : ℝ) : ℂ), 0⟩
def circularMinus : Vec3 ℂ := ⟨((Real.sqrt 2 : ℝ) : ℂ)⁻¹, -Complex.I / ((Real.sqrt 2 : ℝ) : ℂ), 0⟩

/-- The sum of the squares of the magnetic quantum numbers of the occupied d spin-orbitals. -/
def squaredMoment (nBaths : Dict ℕ ℕ) (S : Finset ℕ) : ℝ :=
  ∑ x ∈ shell 2, if position (intKeys nBaths) (.imp 2 x.1 x.2) ∈ S then (x.2 : ℝ) ^ 2 else 0

/-- `w` is the weight that `psi` absorbs: the dipole operator of the polarisation `ε` acts on `psi`, and `w` is the
squared norm of the result. -/
def Absorbs (gaunt : ℕ → ℕ → ℕ → ℤ → ℤ → ℤ → ℝ) (nBaths : Dict ℕ ℕ) (psi : Psi ℂ) (cut : ℝ) (ε : Vec3 ℂ) (w : ℝ) : Prop :=
  ∃ tOp phi, getDipoleOperator gaunt (intKeys nBaths) ε = .ok tOp ∧
    applyOp (nSpinOrbitals nBaths) tOp psi cut none none = .ok (phi, none) ∧ norm2 phi = w

/-- The number of product states in which `T v` has an amplitude. -/
def reached (n : ℕ) (T : Vec ℂ → Vec ℂ) (v : Vec ℂ) : ℕ := by
  classical exact {F ∈ (Finset.range n).powerset | T v F ≠ 0}.card

end

end Verif.Spec
