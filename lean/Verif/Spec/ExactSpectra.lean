/-
Specification: the exact spectra of the computed states, and how far the stored ones are from them.
-/
import Verif.Spec.Degenerate
import Verif.Spec.MainConvergence

namespace Verif.Spec

open Finset

noncomputable section

/-- The Boltzmann average of `f`. -/
def boltzmannMean (S : SimulateArgs) (f : ℕ → ℝ) : ℝ :=
  (∑ i : Fin S.es.length, Real.exp (-S.es[i] / (S.kB * S.T)) * f i) / ∑ i : Fin S.es.length, Real.exp (-S.es[i] / (S.kB * S.T))

/-- No amplitude of `T |psi⟩` is dropped, for all states. -/
def Kept (S : SimulateArgs) (T : Vec ℂ → Vec ℂ) : Prop :=
  ∀ i < S.es.length, NothingLost S T (ampl (size S) (S.psis.getD i []))

/-- The same for the two steps of resonant scattering. -/
def KeptRixs (S : SimulateArgs) (wIn : ℝ) (T T' : Vec ℂ → Vec ℂ) : Prop :=
  ∀ i < S.es.length, NothingLost S T (ampl (size S) (S.psis.getD i [])) ∧
    ∀ x, Solves (size S) (hamilton S) ((wIn : ℂ) + Complex.I * S.delta + (S.es.getD i 0 : ℂ)) (excite S T i) x →
      NothingLost S T' x ∧ NoneDropped (size S) S.slaterWeightMin (exciteVec S T' x)

/-- The cutoffs drop nothing in the spectra of main.  Nothing is said about the number of Lanczos vectors. -/
structure AllKept (b : ℕ → ℕ) (S : SimulateArgs) : Prop where
  add : ∀ j < 10, Kept S (create (impStart (pdSystem b) 2 + j))
  remove : ∀ j < 10, Kept S (annihilate (impStart (pdSystem b) 2 + j))
  core : ∀ j < 6, Kept S (annihilate (impStart (pdSystem b) 1 + j))
  absorb : ∀ ε ∈ S.epsilons, Kept S (dipolePD S.gaunt b ε)
  scatter : ∀ q : ℝ, q = 2 ∨ q = 7 → Kept S (planeWaveDD S b q) ∧
    NoSmall (size S) (planeWaveDD S b q) S.slaterWeightMin S.restrictions
  resonant : ∀ ε ∈ S.epsilonsRIXSin, ∀ w ∈ S.wIn, KeptRixs S w (dipolePD S.gaunt b ε) (dipoleDP S.gaunt b ⟨1, 0, 0⟩)

/-- The averages belong to the data. -/
structure Averages (kB T : ℝ) (es : List ℝ) (s : SpectrumFiles) : Prop where
  thermal : ∀ t k, IsThermal kB T es (fun i => s.data i t k) (s.thermal t k)

/-- `x` holds the exact spectra of the computed states: each value is the exact response of a state to the respective operator,
whatever the number of Lanczos vectors is, and the averages are those of these values. -/
structure PDExact (b : ℕ → ℕ) (S : SimulateArgs) (x : Simulated) : Prop where
  tables : Averages S.kB S.T S.es x.ps ∧ Averages S.kB S.T S.es x.xps ∧ Averages S.kB S.T S.es x.nixs ∧ Averages S.kB S.T S.es x.xas
  photoemission : ∀ i j k (_ : i < S.es.length) (_ : j < 10) (hk : k < S.w.length) (p : ℕ), p = impStart (pdSystem b) 2 + j →
    ∃ add rem, IsResponse S (create p) i ((S.w[k] : ℂ) + Complex.I * S.delta) add ∧
      IsResponse S (annihilate p) i (-((S.w[k] : ℂ) + Complex.I * S.delta)) rem ∧ x.ps.data i j k = -(add - rem).im
  xps : ∀ i j k (_ : i < S.es.length) (_ : j < 6) (hk : k < S.w.length) (p : ℕ), p = impStart (pdSystem b) 1 + j →
    ∃ rem, IsResponse S (annihilate p) i (-((S.w[k] : ℂ) + Complex.I * S.delta)) rem ∧ x.xps.data i j k = rem.im
  xas : ∀ i t k (_ : i < S.es.length) (ht : t < S.epsilons.length) (hk : k < S.w.length),
    ∃ g, IsResponse S (dipolePD S.gaunt b S.epsilons[t]) i ((S.w[k] : ℂ) + Complex.I * S.delta) g ∧ x.xas.data i t k = -g.im
  nixs : ∀ i t k (_ : i < S.es.length) (_ : t < 2) (hk : k < S.wLoss.length) (q : ℝ), q = (if t = 0 then 2 else 7) →
    ∃ g, IsResponse S (planeWaveDD S b q) i ((S.wLoss[k] : ℂ) + Complex.I * S.deltaNIXS) g ∧ x.nixs.data i t k = -g.im
  rixs : ∀ i a c d k (_ : i < S.es.length) (ha : a < S.epsilonsRIXSin.length) (_ : c < 3) (hd : d < S.wIn.length)
    (hk : k < S.wLoss.length),
    ∃ g, IsRixs (size S) (hamilton S) ((S.wIn[d] : ℂ) + Complex.I * S.delta + (S.es.getD i 0 : ℂ))
        ((S.wLoss[k] : ℂ) + Complex.I * S.deltaRIXS + (S.es.getD i 0 : ℂ))
        (excite S (dipolePD S.gaunt b S.epsilonsRIXSin[a]) i) (exciteVec S (dipoleDP S.gaunt b ⟨1, 0, 0⟩)) g ∧
      x.rixs.data i a c d k = -g.im
  rixsThermal : ∀ a c d k, IsThermal S.kB S.T S.es (fun i => x.rixs.data i a c d k) (x.rixs.thermal a c d k)

/-- All energies of the Hamiltonian between the allowed product states lie within `w > 0` of some energy. -/
def Width (S : SimulateArgs) (w : ℝ) : Prop := 0 < w ∧ ∃ c, EnergiesWithin (size S) (hamilton S) Set.univ c w

/-- The averages `s` are those of `x` up to the averaged errors of 150 Lanczos vectors. -/
structure Near (b : ℕ → ℕ) (S : SimulateArgs) (w : ℝ) (s x : Simulated) : Prop where
  ps : ∀ j < 10, ∀ k < S.w.length, |s.ps.thermal j k - x.ps.thermal j k| ≤
    boltzmannMean S fun i => error150 S (create (impStart (pdSystem b) 2 + j)) i S.delta w
      + error150 S (annihilate (impStart (pdSystem b) 2 + j)) i S.delta w
  xps : ∀ j < 6, ∀ k < S.w.length, |s.xps.thermal j k - x.xps.thermal j k| ≤
    boltzmannMean S fun i => error150 S (annihilate (impStart (pdSystem b) 1 + j)) i S.delta w
  xas : ∀ t (ht : t < S.epsilons.length), ∀ k < S.w.length, |s.xas.thermal t k - x.xas.thermal t k| ≤
    boltzmannMean S fun i => error150 S (dipolePD S.gaunt b S.epsilons[t]) i S.delta w
  nixs : ∀ t < 2, ∀ k < S.wLoss.length, |s.nixs.thermal t k - x.nixs.thermal t k| ≤
    boltzmannMean S fun i => error150 S (planeWaveDD S b (if t = 0 then 2 else 7)) i S.deltaNIXS w
  /-- `ys` are the intermediate states of resonant scattering -/
  rixs : ∀ a (ha : a < S.epsilonsRIXSin.length), ∀ c < 3, ∀ d (hd : d < S.wIn.length), ∀ k < S.wLoss.length, ∀ ys : ℕ → Vec ℂ,
    (∀ i < S.es.length, Solves (size S) (hamilton S) ((S.wIn[d] : ℂ) + Complex.I * S.delta + (S.es.getD i 0 : ℂ))
      (excite S (dipolePD S.gaunt b S.epsilonsRIXSin[a]) i) (ys i)) →
    |s.rixs.thermal a c d k - x.rixs.thermal a c d k| ≤
      boltzmannMean S fun i => normSq (size S) (exciteVec S (dipoleDP S.gaunt b ⟨1, 0, 0⟩) (ys i)) * lanczosError w S.deltaRIXS 150

/-- The sum of the magnitudes of the strengths of the Hamiltonian is such a `w`. -/
def StrengthIsWidth (S : SimulateArgs) : Prop := ∀ w, 0 < w → (S.hOp.map fun q => ‖q.2‖).sum ≤ w → Width S w

/-- The averages `s` and `s'` of two runs are related by `R` up to the error of 150 Lanczos vectors: there are exact spectra near them
that are related by `R`. -/
def Almost (R : Simulated → Simulated → Prop) (b : ℕ → ℕ) (S S' : SimulateArgs) (s s' : Simulated) : Prop :=
  StrengthIsWidth S ∧ StrengthIsWidth S' ∧ ∀ w w', Width S w → Width S' w' →
    ∃ x x', PDExact b S x ∧ PDExact b S' x' ∧ Near b S w s x ∧ Near b S' w' s' x' ∧ R x x'

end

end Verif.Spec
