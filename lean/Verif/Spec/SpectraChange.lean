/-
Specification for C97: how far two spectra are from each other.
-/
import Verif.Spec.Perturb
import Verif.Spec.Convergence
import Verif.Spec.Main

namespace Verif.Spec

open Finset

noncomputable section

/-- The two calculations have the same spin-orbitals, restrictions, energy mesh and broadening.  Hamiltonians, cutoffs and numbers
of Lanczos vectors may differ. -/
structure SameMesh (A A' : SpectraArgs) : Prop where
  n : A'.n = A.n
  restrictions : A'.restrictions = A.restrictions
  mesh : A'.w = A.w
  broadening : A'.delta = A.delta

/-- The sum of the magnitudes of the strengths of an operator. -/
def strengthSum (op : Op ℕ ℂ) : ℝ := (op.map fun q => ‖q.2‖).sum

/-- How far the responses of two excited states `v` and `v'` can be from each other at the distance `delta` from the real axis:
from the distance of `v` and `v'`, and from a change of up to `c` of the Hamiltonian and of the energy. -/
def responseChange (n : ℕ) (v v' : Vec ℂ) (c delta : ℝ) : ℝ :=
  Real.sqrt (normSq n (v - v')) * (Real.sqrt (normSq n v) + Real.sqrt (normSq n v')) / |delta| + c * normSq n v' / delta ^ 2

/-- The changes of the Hamiltonian and of the energy: the changes of the strengths, the dropped matrix elements, and the
difference of the energies. -/
def hamiltonianChange (A A' : SpectraArgs) (e e' : ℝ) : ℝ :=
  strengthChange A.hOp A'.hOp + A.hOp.length * Real.sqrt A.cut + A'.hOp.length * Real.sqrt A'.cut + |e - e'|

/-- The error of the Lanczos vectors of an excited state `v`; the energies are within the sum of the strengths, and `w` may be
any positive number at least as large. -/
def krylovError (A : SpectraArgs) (v : Vec ℂ) (w : ℝ) : ℝ := normSq A.n v * lanczosError w A.delta A.krylovSize

/-- Two calculations of `simulate_spectra` with the same spin-orbitals, the same allowed occupations of the excited states, and the
same meshes and broadenings. -/
structure SameSystem (S S' : SimulateArgs) : Prop where
  system : S'.nBaths = S.nBaths
  restrictions : ∀ F, AllowedOpt S'.restrictions F ↔ AllowedOpt S.restrictions F
  mesh : S'.w = S.w
  broadening : S'.delta = S.delta
  meshNIXS : S'.wLoss = S.wLoss
  broadeningNIXS : S'.deltaNIXS = S.deltaNIXS

/-- How far the spectra of eigenstate `i` for the transition operators `T` and `T'` can be from each other.  `w` and `w'` bound the
energies of the two Hamiltonians. -/
def stateChange (S S' : SimulateArgs) (T T' : Vec ℂ → Vec ℂ) (i : ℕ) (delta w w' : ℝ) : ℝ :=
  responseChange (size S) (excite S T i) (excite S' T' i)
    (strengthChange S.hOp S'.hOp + S.hOp.length * Real.sqrt S.cut + S'.hOp.length * Real.sqrt S'.cut
      + |S.es.getD i 0 - S'.es.getD i 0|) delta
  + normSq (size S) (excite S T i) * lanczosError w delta S.krylovSize
  + normSq (size S) (excite S' T' i) * lanczosError w' delta S'.krylovSize

/-- How far the spectra that two runs of main store for the eigenstates can be from each other. -/
structure PDChange (b : ℕ → ℕ) (S S' : SimulateArgs) (s s' : Simulated) (w w' : ℝ) : Prop where
  /-- photoemission and inverse photoemission of the d shell -/
  photoemission : ∀ i j k, i < S.es.length → i < S'.es.length → j < 10 → k < S.w.length → ∀ x, x = impStart (pdSystem b) 2 + j →
    |s.ps.data i j k - s'.ps.data i j k| ≤ stateChange S S' (create x) (create x) i S.delta w w'
      + stateChange S S' (annihilate x) (annihilate x) i S.delta w w'
  /-- photoemission of the p shell -/
  xps : ∀ i j k, i < S.es.length → i < S'.es.length → j < 6 → k < S.w.length → ∀ x, x = impStart (pdSystem b) 1 + j →
    |s.xps.data i j k - s'.xps.data i j k| ≤ stateChange S S' (annihilate x) (annihilate x) i S.delta w w'
  /-- absorption of light of polarisation x, y, z -/
  xas : ∀ i t k, i < S.es.length → i < S'.es.length → ∀ (ht : t < S.epsilons.length) (ht' : t < S'.epsilons.length), k < S.w.length →
    |s.xas.data i t k - s'.xas.data i t k|
      ≤ stateChange S S' (dipolePD S.gaunt b S.epsilons[t]) (dipolePD S'.gaunt b S'.epsilons[t]) i S.delta w w'
  /-- scattering with momentum transfer 2 and 7 along (1,1,1) -/
  nixs : ∀ i t k, i < S.es.length → i < S'.es.length → t < 2 → k < S.wLoss.length → ∀ q : ℝ, q = (if t = 0 then 2 else 7) →
    NoSmall (size S) (planeWaveDD S b q) S.slaterWeightMin S.restrictions →
    NoSmall (size S') (planeWaveDD S' b q) S'.slaterWeightMin S'.restrictions →
    |s.nixs.data i t k - s'.nixs.data i t k|
      ≤ stateChange S S' (planeWaveDD S b q) (planeWaveDD S' b q) i S.deltaNIXS w w'

end

end Verif.Spec
