/-
Specification of a common shift of the energies of some spin-orbitals.
-/
import Verif.Spec.Degenerate

namespace Verif.Spec

open Finset

/-- The number of electrons in the spin-orbitals `O` is `k`. -/
def InSector (O : Finset ℕ) (k : ℤ) (v : Vec ℂ) : Prop := ∀ F, v F ≠ 0 → ((F ∩ O).card : ℤ) = k

/-- The spin-orbitals `O` contain all (`q = 1`) or none (`q = 0`) of `X`. -/
def Contains (O X : Finset ℕ) (q : ℤ) : Prop := (q = 1 ∧ X ⊆ O) ∨ (q = 0 ∧ Disjoint X O)

/-- The non-interacting operator `h0'` is `h0` with the energies of the spin-orbitals `O` raised by `c`.  The number of
electrons in `O` is conserved by `h0` and is `m` in all configurations of main.  `O` contains all or none of the p shell
(`p` = 1 or 0), and all or none of the d shell (`d` = 1 or 0). -/
structure LevelShift (b : ℕ → ℕ) (P : BasisParams) (h0 h0' : Op Label ℂ) (O : Finset ℕ) (c : ℝ) (m p d : ℤ) : Prop where
  core : Contains O (impOrbs (pdSystem b) 1) p
  valence : Contains O (impOrbs (pdSystem b) 2) d
  conserved : ∀ k v, InSector O k v → InSector O k (operator (labelSpec (position (pdSystem b)) h0) v)
  filling : ∀ F ⊆ range (nTotal (pdSystem b)), IsConfiguration [(1, b 1), (2, b 2)] (pdSystem b) P F →
    ((F ∩ O).card : ℤ) = m
  raised : ∀ v F, operator (labelSpec (position (pdSystem b)) h0') v F
    = operator (labelSpec (position (pdSystem b)) h0) v F + (c : ℂ) * ((F ∩ O).card : ℂ) * v F

/-- No diagonal matrix element of the Hamiltonian is dropped by the cutoff. -/
def DiagonalKept (S : SimulateArgs) : Prop :=
  ∀ F ⊆ range (size S), matrixElement S.hOp F F = 0 ∨ S.cut ≤ abs2 (matrixElement S.hOp F F)

/-- The averages of the second run are those of the first one, on energy axes moved by `c` for every electron
that the excitation adds to the raised spin-orbitals. -/
structure ShiftedThermal (w wIn : List ℝ) (c : ℝ) (p d : ℤ) (s s' : Simulated) : Prop where
  ps : ∀ j < 10, ∀ k k' (hk : k < w.length) (hk' : k' < w.length), w[k] = w[k'] + c * d →
    s'.ps.thermal j k = s.ps.thermal j k'
  xps : ∀ j < 6, ∀ k k' (hk : k < w.length) (hk' : k' < w.length), w[k] = w[k'] + c * p →
    s'.xps.thermal j k = s.xps.thermal j k'
  xas : ∀ t < 3, ∀ k k' (hk : k < w.length) (hk' : k' < w.length), w[k] = w[k'] + c * (d - p) →
    s'.xas.thermal t k = s.xas.thermal t k'
  nixs : ∀ t < 2, ∀ k < 4000, s'.nixs.thermal t k = s.nixs.thermal t k
  rixs : ∀ a < 3, ∀ u < 3, ∀ i i' (hi : i < wIn.length) (hi' : i' < wIn.length), wIn[i] = wIn[i'] + c * (d - p) →
    ∀ k < 4000, s'.rixs.thermal a u i k = s.rixs.thermal a u i' k

end Verif.Spec
