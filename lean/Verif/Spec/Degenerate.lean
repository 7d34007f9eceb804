/-
Specification of the freedom in the choice of eigenvectors of degenerate energies.
-/
import Verif.Spec.Main

namespace Verif.Spec

open Finset

/-- The states `psis'` are superpositions of the states `psis`, with a unitary matrix that does not mix different
energies. -/
def Mixed (n : ℕ) (es : List ℝ) (psis psis' : List (Psi ℂ)) : Prop :=
  ∃ U : ℕ → ℕ → ℂ,
    (∀ j < es.length, ∀ k < es.length, ∑ i ∈ range es.length, star (U i j) * U i k = if j = k then 1 else 0) ∧
    (∀ i < es.length, ∀ j < es.length, es.getD i 0 ≠ es.getD j 0 → U i j = 0) ∧
    ∀ i < es.length, ∀ F, ampl n (psis'.getD i []) F = ∑ j ∈ range es.length, U i j * ampl n (psis.getD j []) F

/-- No amplitude of `T x` in an allowed product state is dropped by the cutoff. -/
def NothingLost (S : SimulateArgs) (T : Vec ℂ → Vec ℂ) (x : Vec ℂ) : Prop :=
  ∀ F ⊆ range (size S), AllowedOpt S.restrictions F → T x F = 0 ∨ S.slaterWeightMin ≤ abs2 (T x F)

/-- For every state, no amplitude of `T |psi⟩` is dropped and the Lanczos vectors exhaust the Krylov space. -/
def Resolved (S : SimulateArgs) (T : Vec ℂ → Vec ℂ) : Prop :=
  ∀ i < S.es.length, NothingLost S T (ampl (size S) (S.psis.getD i [])) ∧
    KrylovExhausted (hamilton S) S.krylovSize (excite S T i)

/-- The same for the two steps of resonant scattering. -/
def ResolvedRixs (S : SimulateArgs) (wIn : ℝ) (T T' : Vec ℂ → Vec ℂ) : Prop :=
  ∀ i < S.es.length, NothingLost S T (ampl (size S) (S.psis.getD i [])) ∧
    ∀ x, Solves (size S) (hamilton S) ((wIn : ℂ) + Complex.I * S.delta + (S.es.getD i 0 : ℂ)) (excite S T i) x →
      NothingLost S T' x ∧ NoneDropped (size S) S.slaterWeightMin (exciteVec S T' x) ∧
      KrylovExhausted (hamilton S) S.krylovSize (exciteVec S T' x)

/-- All cutoffs and truncations in the spectra of main are harmless. -/
structure AllResolved (b : ℕ → ℕ) (S : SimulateArgs) : Prop where
  add : ∀ j < 10, Resolved S (create (impStart (pdSystem b) 2 + j))
  remove : ∀ j < 10, Resolved S (annihilate (impStart (pdSystem b) 2 + j))
  core : ∀ j < 6, Resolved S (annihilate (impStart (pdSystem b) 1 + j))
  absorb : ∀ ε ∈ S.epsilons, Resolved S (dipolePD S.gaunt b ε)
  scatter : ∀ q : ℝ, q = 2 ∨ q = 7 → Resolved S (planeWaveDD S b q) ∧
    NoSmall (size S) (planeWaveDD S b q) S.slaterWeightMin S.restrictions
  resonant : ∀ ε ∈ S.epsilonsRIXSin, ∀ w ∈ S.wIn, ResolvedRixs S w (dipolePD S.gaunt b ε) (dipoleDP S.gaunt b ⟨1, 0, 0⟩)

/-- The same averages. -/
structure SameThermal (s s' : Simulated) : Prop where
  ps : ∀ j < 10, ∀ k < 3000, s'.ps.thermal j k = s.ps.thermal j k
  xps : ∀ j < 6, ∀ k < 3000, s'.xps.thermal j k = s.xps.thermal j k
  xas : ∀ t < 3, ∀ k < 3000, s'.xas.thermal t k = s.xas.thermal t k
  nixs : ∀ t < 2, ∀ k < 4000, s'.nixs.thermal t k = s.nixs.thermal t k
  rixs : ∀ a < 3, ∀ c < 3, ∀ d < 50, ∀ k < 4000, s'.rixs.thermal a c d k = s.rixs.thermal a c d k

end Verif.Spec
