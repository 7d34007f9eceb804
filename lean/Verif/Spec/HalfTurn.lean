/-
Specification of a half turn of the magnetic field.
-/
import Verif.Spec.TimeReversal
import Verif.Model.Main

namespace Verif.Spec

open Finset

noncomputable section

/-- A half turn of a p and a d shell about the x axis: the components along z of the spin and of the orbital momentum of each
electron are reversed.  The bath states may be exchanged in any way, as long as a valence bath state is exchanged with a
valence bath state of the same shell.  The phases are those of `Y_{lm}` with the parity of the shell; the phase of the spin is the same for all states. -/
structure HalfTurn (b : ℕ → ℕ) (P : BasisParams) (π : ℕ → ℕ) (φ : ℕ → ℂ) : Prop where
  shell : ∀ l ∈ [1, 2], ∀ s ∈ ({0, 1} : Finset ℤ), ∀ m ∈ mRange l,
    π (position (pdSystem b) (.imp l s m)) = position (pdSystem b) (.imp l (1 - s) (-m)) ∧
    φ (position (pdSystem b) (.imp l s m)) = (-1) ^ l
  partner : ∀ i < nTotal (pdSystem b), π i < nTotal (pdSystem b) ∧ π (π i) = i
  unit : ∀ i, ‖φ i‖ = 1
  bath : ∀ l ∈ [1, 2], ∀ i < nTotal (pdSystem b),
    (π i ∈ valOrbs (pdSystem b) l (P.val l) ↔ i ∈ valOrbs (pdSystem b) l (P.val l)) ∧
    (π i ∈ conOrbs (pdSystem b) l (b l) (P.val l) ↔ i ∈ conOrbs (pdSystem b) l (b l) (P.val l))

/-- An electron in `i` is moved to `π i` with the phase `φ i`. -/
def moveElectrons (n : ℕ) (π : ℕ → ℕ) (φ : ℕ → ℂ) (v : Vec ℂ) : Vec ℂ :=
  changeOrbitals n (fun i j => if i = π j then φ j else 0) v

/-- The averaged spectra in fields that differ by a half turn about the x or the y axis. -/
structure HalfTurnSpectra (s s' : Simulated) : Prop where
  ps : ∀ j < 10, ∀ k < 3000, s'.ps.thermal (9 - j) k = s.ps.thermal j k
  xps : ∀ j < 6, ∀ k < 3000, s'.xps.thermal (5 - j) k = s.xps.thermal j k
  xas : ∀ t < 3, ∀ k < 3000, s'.xas.thermal t k = s.xas.thermal t k
  rixs : ∀ t < 3, ∀ c < 3, ∀ d < 50, ∀ k < 4000, s'.rixs.thermal t c d k = s.rixs.thermal t c d k

end

end Verif.Spec
