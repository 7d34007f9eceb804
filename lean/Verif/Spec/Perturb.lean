/-
Specification for C86: how far two Hamiltonians are from each other.
-/
import Verif.Spec.Main

namespace Verif.Spec

open Finset

noncomputable section

/-- The sum of the magnitudes of the changes of the strengths of all processes. -/
def strengthChange {ι : Type} [DecidableEq ι] (op op' : Op ι ℂ) : ℝ :=
  ∑ p ∈ (Dict.keys op).toFinset ∪ (Dict.keys op').toFinset, ‖strength op p - strength op' p‖

/-- The Hamiltonian `H'` is `H` plus the energy `q F` for each product state `F`. -/
def ShiftedBy (H H' : Vec ℂ → Vec ℂ) (q : Finset ℕ → ℝ) : Prop := ∀ v F, H' v F = H v F + (q F : ℂ) * v F

/-- `F⁰` is raised by `u`. -/
def raiseMonopole (F : List ℝ) (u : ℝ) : List ℝ := F.modifyHead (· + u)

/-- The arguments of main with the monopole Slater-Condon parameters `F⁰` raised by `udd`, `upp` and `upd` and the
charge-transfer correction by `c`. -/
def raiseMonopoles (A : MainArgs) (udd upp upd c : ℝ) : MainArgs :=
  { A with
    Fdd := raiseMonopole A.Fdd udd
    Fpp := raiseMonopole A.Fpp upp
    Fpd := raiseMonopole A.Fpd upd
    chargeTransferCorrection := A.chargeTransferCorrection + c }

/-- What this costs a product state with `nd` d and `np` p electrons: one `F⁰` for each pair of electrons, less the double
counting for `n3d` d electrons and a full p shell. -/
def monopoleEnergy (udd upp upd c : ℝ) (n3d : ℤ) (nd np : ℕ) : ℝ :=
  udd * (nd.choose 2 - n3d * nd) + upp * np.choose 2 + upd * (nd * np - 6 * nd - (n3d + 1) * np) + c * (nd + np)

/-- The non-interacting operator `h0'` is `h0` with the d levels raised by `ed` and the p levels by `ep`. -/
def LevelsRaised (b : ℕ → ℕ) (h0 h0' : Op Label ℂ) (ed ep : ℝ) : Prop :=
  ShiftedBy (operator (labelSpec (position (pdSystem b)) h0)) (operator (labelSpec (position (pdSystem b)) h0')) fun F =>
    ed * (F ∩ impOrbs (pdSystem b) 2).card + ep * (F ∩ impOrbs (pdSystem b) 1).card

/-- The sum of the magnitudes of the matrix elements of `l·s`. -/
def spinOrbitSize (l : ℕ) : ℝ := ∑ x ∈ shell l, ∑ y ∈ shell l, ‖lDotS l x y‖

/-- How far two Hamiltonians of main with different fields `(hx, hy, hz)`, spin-orbit couplings and non-interacting operators
can be from each other. -/
def oneBodyChange (hx hy hz hx' hy' hz' xi2p xi3d xi2p' xi3d' : ℝ) (h0 h0' : Op Label ℂ) : ℝ :=
  5 / 2 * (|hz - hz'| + Real.sqrt ((hx - hx') ^ 2 + (hy - hy') ^ 2)) + |xi2p - xi2p'| * spinOrbitSize 1
    + |xi3d - xi3d'| * spinOrbitSize 2 + strengthChange h0 h0'

/-- The parameters `Fm` lie between `F` and `F'`. -/
def Between (t : ℝ) (F F' Fm : List ℝ) : Prop :=
  Fm.length = F.length ∧ Fm.length = F'.length ∧ ∀ k, Fm.getD k 0 = t * F.getD k 0 + (1 - t) * F'.getD k 0

/-- All parameters of the interaction of the arguments `Am` lie between those of `A` and `A'`. -/
structure InteractionBetween (t : ℝ) (A A' Am : MainArgs) : Prop where
  Fdd : Between t A.Fdd A'.Fdd Am.Fdd
  Fpp : Between t A.Fpp A'.Fpp Am.Fpp
  Fpd : Between t A.Fpd A'.Fpd Am.Fpd
  Gpd : Between t A.Gpd A'.Gpd Am.Gpd
  xi2p : Am.xi2p = t * A.xi2p + (1 - t) * A'.xi2p
  xi3d : Am.xi3d = t * A.xi3d + (1 - t) * A'.xi3d
  chargeTransferCorrection : Am.chargeTransferCorrection = t * A.chargeTransferCorrection + (1 - t) * A'.chargeTransferCorrection

/-- The operator `Hm` lies between `H` and `H'`. -/
def OperatorBetween (t : ℝ) (H H' Hm : Vec ℂ → Vec ℂ) : Prop := ∀ v F, Hm v F = t * H v F + (1 - t) * H' v F

end

end Verif.Spec
