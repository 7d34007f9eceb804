/-
Specification for C96: the moments of a spectrum.
-/
import Verif.Spec.Lehmann
import Verif.Spec.Main

namespace Verif.Spec

open Finset

noncomputable section

/-- The `m`-th moment of a sum of Lorentzians; the list has pairs of energy and weight. -/
def momentOf (L : List (ℝ × ℝ)) (m : ℕ) : ℝ := (L.map fun p => p.2 * p.1 ^ m).sum

/-- `L` is the Gauss quadrature of `k` energies for the Hamiltonian `H` and the state `v`: there are at most `k` energies, the
weights are not negative, and the first `2 k` moments are those of the exact spectrum, `∑ weight energy^m = ⟨v|H^m|v⟩`. -/
def IsGauss (n : ℕ) (H : Vec ℂ → Vec ℂ) (v : Vec ℂ) (k : ℕ) (L : List (ℝ × ℝ)) : Prop :=
  L.length ≤ k ∧ (∀ p ∈ L, 0 ≤ p.2) ∧ ∀ m < 2 * k, ((momentOf L m : ℝ) : ℂ) = innerProduct n v (H^[m] v)

/-- The spectra that main stores are sums of Lorentzians, the first 300 moments of which are those of the exact spectra. -/
structure PDMoments (b : ℕ → ℕ) (S : SimulateArgs) (s : Simulated) : Prop where
  /-- photoemission and inverse photoemission of the d shell -/
  photoemission : ∀ i j (_ : i < S.es.length) (_ : j < 10) (x : ℕ), x = impStart (pdSystem b) 2 + j →
    ∃ add rem, IsGauss (size S) (hamilton S) (excite S (create x) i) 150 add ∧
      IsGauss (size S) (hamilton S) (excite S (annihilate x) i) 150 rem ∧ ∀ k (hk : k < S.w.length),
      s.ps.data i j k = -(lehmann add ((S.w[k] : ℂ) + Complex.I * S.delta + (S.es.getD i 0 : ℂ))).im
        + (lehmann rem (-((S.w[k] : ℂ) + Complex.I * S.delta) + (S.es.getD i 0 : ℂ))).im
  /-- photoemission of the p shell -/
  xps : ∀ i j (_ : i < S.es.length) (_ : j < 6) (x : ℕ), x = impStart (pdSystem b) 1 + j →
    ∃ rem, IsGauss (size S) (hamilton S) (excite S (annihilate x) i) 150 rem ∧ ∀ k (hk : k < S.w.length),
      s.xps.data i j k = (lehmann rem (-((S.w[k] : ℂ) + Complex.I * S.delta) + (S.es.getD i 0 : ℂ))).im
  /-- absorption of light of polarisation x, y, z -/
  xas : ∀ i t (_ : i < S.es.length) (ht : t < S.epsilons.length),
    ∃ L, IsGauss (size S) (hamilton S) (excite S (dipolePD S.gaunt b S.epsilons[t]) i) 150 L ∧
      ∀ k (hk : k < S.w.length),
      s.xas.data i t k = -(lehmann L ((S.w[k] : ℂ) + Complex.I * S.delta + (S.es.getD i 0 : ℂ))).im
  /-- scattering with momentum transfer 2 and 7 along (1,1,1) -/
  nixs : ∀ i t (_ : i < S.es.length) (_ : t < 2) (q : ℝ), q = (if t = 0 then 2 else 7) →
    NoSmall (size S) (planeWaveDD S b q) S.slaterWeightMin S.restrictions →
    ∃ L, IsGauss (size S) (hamilton S) (excite S (planeWaveDD S b q) i) 150 L ∧ ∀ k (hk : k < S.wLoss.length),
      s.nixs.data i t k = -(lehmann L ((S.wLoss[k] : ℂ) + Complex.I * S.deltaNIXS + (S.es.getD i 0 : ℂ))).im

end

end Verif.Spec
