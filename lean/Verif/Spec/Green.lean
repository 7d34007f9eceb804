/-
Specification: resolvents in Fock space.
-/
import Verif.Spec.Expand
import Mathlib.Analysis.Complex.Basic

namespace Verif.Spec

open Finset

/-- The Hamiltonian between the product states of `n` spin-orbitals: matrix
elements into product states that fulfil the restrictions, if their weight
reaches the cutoff `1e-12`. -/
noncomputable def hamiltonian (n : ℕ) (op : Op ℕ ℂ) (cut : ℝ) (r : Option Restrictions) (x : Vec ℂ) : Vec ℂ :=
  fun S => if S ⊆ range n then ∑ T ∈ (range n).powerset, column op cut r T S * x T else 0

/-- `(z - H) x = b` in the Fock space of `n` spin-orbitals. -/
structure Solves (n : ℕ) (H : Vec ℂ → Vec ℂ) (z : ℂ) (b x : Vec ℂ) : Prop where
  inside : ∀ S ⊆ range n, z * x S - H x S = b S
  outside : ∀ S, ¬ S ⊆ range n → x S = 0

/-- `g = ⟨b| (z - H)⁻¹ |b⟩`: the equation `(z - H) x = b` has exactly one solution `x`,
and `g = ⟨b|x⟩`. -/
def IsGreen (n : ℕ) (H : Vec ℂ → Vec ℂ) (z : ℂ) (b : Vec ℂ) (g : ℂ) : Prop :=
  ∃ x, Solves n H z b x ∧ (∀ y, Solves n H z b y → y = x) ∧ g = innerProduct n b x

/-- The amplitudes of `T |psi⟩`: those of product states that fulfil the restrictions, if
their weight reaches the cutoff. -/
noncomputable def excitation (n : ℕ) (tOp : Op ℕ ℂ) (cut : ℝ) (r : Option Restrictions) (psi : Psi ℂ) : Vec ℂ :=
  fun S => if S ⊆ range n ∧ AllowedOpt r S ∧ cut ≤ abs2 (operator (opSpec tOp) (ampl n psi) S)
    then operator (opSpec tOp) (ampl n psi) S else 0

/-- The amplitudes of `T x` for a vector `x`, with the same cutoff. -/
noncomputable def transition (n : ℕ) (tOp : Op ℕ ℂ) (cut : ℝ) (r : Option Restrictions) (x : Vec ℂ) : Vec ℂ :=
  fun S => if S ⊆ range n ∧ AllowedOpt r S ∧ cut ≤ abs2 (operator (opSpec tOp) x S)
    then operator (opSpec tOp) x S else 0

/-- `g = ⟨T x| (z₂ - H)⁻¹ |T x⟩` with `x = (z₁ - H)⁻¹ b`. -/
def IsRixs (n : ℕ) (H : Vec ℂ → Vec ℂ) (z₁ z₂ : ℂ) (b : Vec ℂ) (T : Vec ℂ → Vec ℂ) (g : ℂ) : Prop :=
  ∃ x, Solves n H z₁ b x ∧ (∀ y, Solves n H z₁ b y → y = x) ∧ IsGreen n H z₂ (T x) g

/-- Every amplitude of `x` is zero, or its weight in the normalised vector reaches the
cutoff. -/
def NoneDropped (n : ℕ) (cut : ℝ) (x : Vec ℂ) : Prop :=
  ∀ S ⊆ range n, x S = 0 ∨ cut * ∑ T ∈ (range n).powerset, Complex.normSq (x T) ≤ Complex.normSq (x S)

end Verif.Spec
