/-
Specification: the angular momentum algebra of functions on states, and the occupations of
cubic orbitals.
-/
import Verif.Spec.Observables
import Verif.Spec.State
import Verif.Model.Observables

namespace Verif

open Finset Spec

/-- The angular momentum algebra of three functions acting on states:
`[J₊, J₋] = 2 Jz`, `[Jz, J₊] = J₊` and `[Jz, J₋] = -J₋`, amplitude by amplitude. -/
def AngularMomentumAlgebra (n : ℕ) (Jz Jp Jm : Psi ℂ → Py (Psi ℂ)) : Prop :=
  ∀ psi, IsState n psi → ∃ z p m pm mp zp pz zm mz,
    Jz psi = .ok z ∧ Jp psi = .ok p ∧ Jm psi = .ok m ∧
    Jp m = .ok pm ∧ Jm p = .ok mp ∧ Jz p = .ok zp ∧ Jp z = .ok pz ∧ Jz m = .ok zm ∧ Jm z = .ok mz ∧
    ∀ S, ampl n pm S - ampl n mp S = 2 * ampl n z S ∧
      ampl n zp S - ampl n pz S = ampl n p S ∧
      ampl n zm S - ampl n mz S = - ampl n m S

/-- Annihilation of an electron of spin `s` in cubic orbital number `i`. -/
noncomputable def annihilateCubic (nBaths : Dict ℕ ℕ) (u : CMat) (s : ℤ) (i : ℕ) (v : Vec ℂ) : Vec ℂ :=
  annihilateIn (range 5) (fun k => position (intKeys nBaths) (.imp 2 s ((k : ℤ) - 2))) (fun k => u.val k i) v

/-- The occupation of cubic orbital number `i` with spin `s`. -/
noncomputable def cubicOccupation (nBaths : Dict ℕ ℕ) (psi : Psi ℂ) (u : CMat) (s : ℤ) (i : ℕ) : ℝ :=
  normSq (nSpinOrbitals nBaths) (annihilateCubic nBaths u s i (ampl (nSpinOrbitals nBaths) psi))

end Verif
