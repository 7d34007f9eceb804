/-
Specification of time reversal.
-/
import Verif.Spec.OrbitalChange
import Verif.Spec.Main

namespace Verif.Spec

open Finset

noncomputable section

/-- Time reversal of `n` spin-orbitals, of which `i` and `π i` are partners: amplitudes are conjugated, and an electron in
`i` is moved to `π i` with the phase `φ i`. -/
def reverse (n : ℕ) (π : ℕ → ℕ) (φ : ℕ → ℂ) (v : Vec ℂ) : Vec ℂ :=
  changeOrbitals n (fun i j => if i = π j then φ j else 0) fun F => star (v F)

/-- Time reversal of a p and a d shell: the spin and the orbital momentum of each electron are reversed.  The bath states
may be partners of each other in any way, as long as the partner of a valence bath state is a valence bath state of the
same shell. -/
structure TimeReversal (b : ℕ → ℕ) (P : BasisParams) (π : ℕ → ℕ) (φ : ℕ → ℂ) : Prop where
  shell : ∀ l ∈ [1, 2], ∀ s ∈ ({0, 1} : Finset ℤ), ∀ m ∈ mRange l,
    π (position (pdSystem b) (.imp l s m)) = position (pdSystem b) (.imp l (1 - s) (-m)) ∧
    φ (position (pdSystem b) (.imp l s m)) = (-1) ^ (m + s)
  partner : ∀ i < nTotal (pdSystem b), π i < nTotal (pdSystem b) ∧ π (π i) = i
  unit : ∀ i, ‖φ i‖ = 1
  bath : ∀ l ∈ [1, 2], ∀ i < nTotal (pdSystem b),
    (π i ∈ valOrbs (pdSystem b) l (P.val l) ↔ i ∈ valOrbs (pdSystem b) l (P.val l)) ∧
    (π i ∈ conOrbs (pdSystem b) l (b l) (P.val l) ↔ i ∈ conOrbs (pdSystem b) l (b l) (P.val l))

end

end Verif.Spec
