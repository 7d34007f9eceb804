/-
Specification for C97: how far RIXS maps and thermal averages of two calculations are from each other.
-/
import Verif.Spec.SpectraChange

namespace Verif.Spec

open Finset

noncomputable section

/-- The two calculations have the same energies of the incoming light and the same broadening of RIXS. -/
structure SameRixs (S S' : SimulateArgs) : Prop where
  mesh : S'.wIn = S.wIn
  broadening : S'.deltaRIXS = S.deltaRIXS

/-- The changes of the Hamiltonian and of the energy of eigenstate `i`. -/
def energyChange (S S' : SimulateArgs) (i : ℕ) : ℝ :=
  strengthChange S.hOp S'.hOp + S.hOp.length * Real.sqrt S.cut + S'.hOp.length * Real.sqrt S'.cut
    + |S.es.getD i 0 - S'.es.getD i 0|

/-- `x` is the intermediate state after absorption of light of energy `w` by eigenstate `i`. -/
def IsIntermediate (S : SimulateArgs) (T : Vec ℂ → Vec ℂ) (i : ℕ) (w : ℝ) (x : Vec ℂ) : Prop :=
  Solves (size S) (hamilton S) ((w : ℂ) + Complex.I * S.delta + (S.es.getD i 0 : ℂ)) (excite S T i) x

/-- How far two intermediate states can be from each other. -/
def intermediateChange (S S' : SimulateArgs) (T T' : Vec ℂ → Vec ℂ) (i : ℕ) : ℝ :=
  Real.sqrt (normSq (size S) (excite S T i - excite S' T' i)) / |S.delta|
    + energyChange S S' i * Real.sqrt (normSq (size S) (excite S' T' i)) / S.delta ^ 2

/-- How far two values of RIXS can be from each other; `v` and `v'` are the states after the emission. -/
def emissionChange (S S' : SimulateArgs) (v v' : Vec ℂ) (i : ℕ) (w w' : ℝ) : ℝ :=
  responseChange (size S) v v' (energyChange S S' i) S.deltaRIXS
    + normSq (size S) v * lanczosError w S.deltaRIXS S.krylovSize
    + normSq (size S) v' * lanczosError w' S.deltaRIXS S'.krylovSize

/-- Two values of RIXS and their intermediate states. -/
def RixsClose (S S' : SimulateArgs) (T U T' U' : Vec ℂ → Vec ℂ) (i : ℕ) (wIn w w' : ℝ) (y y' : ℝ) : Prop :=
  ∃ x x', IsIntermediate S T i wIn x ∧ IsIntermediate S' T' i wIn x' ∧
    Real.sqrt (normSq (size S) (x - x')) ≤ intermediateChange S S' T T' i ∧
    |y - y'| ≤ emissionChange S S' (exciteVec S U x) (exciteVec S' U' x') i w w'

/-- No amplitude of a state after the emission is dropped. -/
def EmissionKept (S : SimulateArgs) (T U : Vec ℂ → Vec ℂ) (i : ℕ) (w : ℝ) : Prop :=
  ∀ x, IsIntermediate S T i w x → NoneDropped (size S) S.slaterWeightMin (exciteVec S U x)

/-- The values that two spectra store for the eigenstates differ by at most `ε`, and those of the second one differ among each
other by at most `D`. -/
structure ValuesClose (n : ℕ) (x x' : ℕ → ℝ) (ε D : ℝ) : Prop where
  close : ∀ i < n, |x i - x' i| ≤ ε
  spread : ∀ i < n, ∀ j < n, |x' i - x' j| ≤ D

/-- The energies in units of the temperature differ by the same amount for all eigenstates, up to `η`. -/
def EnergiesShifted (kB T T' : ℝ) (es es' : List ℝ) (η : ℝ) : Prop :=
  es.length = es'.length ∧ ∃ s, ∀ i < es.length, |es.getD i 0 / (kB * T) - es'.getD i 0 / (kB * T') - s| ≤ η

/-- How far the maps and averages that two runs of main store can be from each other. -/
structure PDMoreChange (b : ℕ → ℕ) (S S' : SimulateArgs) (s s' : Simulated) (w w' : ℝ) : Prop where
  /-- resonant scattering; the out-going polarisation is always x (C44) -/
  rixs : ∀ i a c d k, i < S.es.length → i < S'.es.length → ∀ (ha : a < S.epsilonsRIXSin.length) (ha' : a < S'.epsilonsRIXSin.length),
    c < 3 → ∀ (hd : d < S.wIn.length), k < S.wLoss.length →
    EmissionKept S (dipolePD S.gaunt b S.epsilonsRIXSin[a]) (dipoleDP S.gaunt b ⟨1, 0, 0⟩) i S.wIn[d] →
    EmissionKept S' (dipolePD S'.gaunt b S'.epsilonsRIXSin[a]) (dipoleDP S'.gaunt b ⟨1, 0, 0⟩) i S.wIn[d] →
    RixsClose S S' (dipolePD S.gaunt b S.epsilonsRIXSin[a]) (dipoleDP S.gaunt b ⟨1, 0, 0⟩)
      (dipolePD S'.gaunt b S'.epsilonsRIXSin[a]) (dipoleDP S'.gaunt b ⟨1, 0, 0⟩) i S.wIn[d] w w' (s.rixs.data i a c d k)
      (s'.rixs.data i a c d k)
  /-- the averages over the eigenstates, for the same unit of temperature -/
  averages : S'.kB = S.kB → ∀ η, EnergiesShifted S.kB S.T S'.T S.es S'.es η → ∀ t k ε D, ∀ f ∈ [(s.ps, s'.ps), (s.xps, s'.xps),
    (s.nixs, s'.nixs), (s.xas, s'.xas)],
    ValuesClose S.es.length (fun i => f.1.data i t k) (fun i => f.2.data i t k) ε D →
    |f.1.thermal t k - f.2.thermal t k| ≤ ε + (Real.exp (2 * η) - 1) * D

end

end Verif.Spec
