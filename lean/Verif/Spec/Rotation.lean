/-
Specification: total angular momenta of several shells, and the rotational invariance of the
integrals of three spherical harmonics.
-/
import Verif.Spec.Observables

namespace Verif.Spec

open Finset

noncomputable section

/-- The sum over the shells of one-particle operators with matrices `M l`. -/
def totalOneBody (f : Label → ℕ) (ls : Finset ℕ) (M : ℕ → ℤ × ℤ → ℤ × ℤ → ℂ) (v : Vec ℂ) : Vec ℂ :=
  fun S => ∑ l ∈ ls, oneBody f l (M l) v S

/-- Rotational invariance of the integrals `∫ Y_{a α} Y_{b β} Y_{c γ}`: the integral of
`l₊ (Y Y Y)` vanishes. -/
def GauntInvariant (gaunt : ℕ → ℕ → ℕ → ℤ → ℤ → ℤ → ℝ) : Prop := ∀ (a b c : ℕ) (α β γ : ℤ),
  Real.sqrt ((a - α) * (a + α + 1)) * gaunt a b c (α + 1) β γ
    + Real.sqrt ((b - β) * (b + β + 1)) * gaunt a b c α (β + 1) γ
    + Real.sqrt ((c - γ) * (c + γ + 1)) * gaunt a b c α β (γ + 1) = 0

/-- The matrices of the components `l₊`, `l₋`, `l_z` of the orbital momentum and `s₊`, `s₋`, `s_z` of
the spin, for every shell `l`. -/
def orbitalMatrices : List (ℕ → ℤ × ℤ → ℤ × ℤ → ℂ) :=
  [fun l => orbOp (lPlus l), fun l => orbOp (lMinus l), fun _ => orbOp lZ]

def spinMatrices : List (ℕ → ℤ × ℤ → ℤ × ℤ → ℂ) :=
  [fun _ => spinOp sPlus, fun _ => spinOp sMinus, fun _ => spinOp sZ]

/-- The matrices of the components of `j = l + s`. -/
def totalMatrices : List (ℕ → ℤ × ℤ → ℤ × ℤ → ℂ) :=
  List.zipWith (fun A B l x y => A l x y + B l x y) orbitalMatrices spinMatrices

/-- Two operators commute. -/
def Commutes (A B : Vec ℂ → Vec ℂ) : Prop := ∀ v, A (B v) = B (A v)

end

end Verif.Spec
