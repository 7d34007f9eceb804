/-
Specification for C82: how far the spectra stored by main are from the exact ones.
-/
import Verif.Spec.Convergence
import Verif.Spec.Main

namespace Verif.Spec

open Finset

noncomputable section

/-- The energies that can be reached from `T |psi_i⟩` lie within `w > 0` of some `c`. -/
def Reaches (S : SimulateArgs) (T : Vec ℂ → Vec ℂ) (i : ℕ) (w : ℝ) : Prop :=
  0 < w ∧ ∃ X c, ClosedAround (size S) (hamilton S) (excite S T i) X ∧ EnergiesWithin (size S) (hamilton S) X c w

/-- The error of 150 Lanczos vectors: `‖T psi_i‖²` times that of a normalised state. -/
def error150 (S : SimulateArgs) (T : Vec ℂ → Vec ℂ) (i : ℕ) (delta w : ℝ) : ℝ :=
  normSq (size S) (excite S T i) * lanczosError w delta 150

/-- What main stores, up to the error of 150 Lanczos vectors. -/
structure PDWithin (b : ℕ → ℕ) (S : SimulateArgs) (s : Simulated) : Prop where
  /-- photoemission and inverse photoemission of the d shell -/
  photoemission : ∀ i j k (_ : i < S.es.length) (_ : j < 10) (hk : k < S.w.length) (x : ℕ),
    x = impStart (pdSystem b) 2 + j → ∀ w w', Reaches S (create x) i w → Reaches S (annihilate x) i w' →
    ∃ add rem, IsResponse S (create x) i ((S.w[k] : ℂ) + Complex.I * S.delta) add ∧
      IsResponse S (annihilate x) i (-((S.w[k] : ℂ) + Complex.I * S.delta)) rem ∧
      |s.ps.data i j k - -(add - rem).im| ≤ error150 S (create x) i S.delta w + error150 S (annihilate x) i S.delta w'
  /-- photoemission of the p shell -/
  xps : ∀ i j k (_ : i < S.es.length) (_ : j < 6) (hk : k < S.w.length) (x : ℕ),
    x = impStart (pdSystem b) 1 + j → ∀ w, Reaches S (annihilate x) i w →
    ∃ rem, IsResponse S (annihilate x) i (-((S.w[k] : ℂ) + Complex.I * S.delta)) rem ∧
      |s.xps.data i j k - rem.im| ≤ error150 S (annihilate x) i S.delta w
  /-- absorption of light of polarisation x, y, z -/
  xas : ∀ i t k (_ : i < S.es.length) (ht : t < S.epsilons.length) (hk : k < S.w.length) w,
    Reaches S (dipolePD S.gaunt b S.epsilons[t]) i w →
    ∃ g, IsResponse S (dipolePD S.gaunt b S.epsilons[t]) i ((S.w[k] : ℂ) + Complex.I * S.delta) g ∧
      |s.xas.data i t k - -g.im| ≤ error150 S (dipolePD S.gaunt b S.epsilons[t]) i S.delta w
  /-- scattering with momentum transfer 2 and 7 along (1,1,1) -/
  nixs : ∀ i t k (_ : i < S.es.length) (_ : t < 2) (hk : k < S.wLoss.length) (q : ℝ), q = (if t = 0 then 2 else 7) →
    NoSmall (size S) (planeWaveDD S b q) S.slaterWeightMin S.restrictions → ∀ w, Reaches S (planeWaveDD S b q) i w →
    ∃ g, IsResponse S (planeWaveDD S b q) i ((S.wLoss[k] : ℂ) + Complex.I * S.deltaNIXS) g ∧
      |s.nixs.data i t k - -g.im| ≤ error150 S (planeWaveDD S b q) i S.deltaNIXS w
  /-- resonant scattering; the out-going polarisation is always x (C44) -/
  rixs : ∀ i a c d k (_ : i < S.es.length) (ha : a < S.epsilonsRIXSin.length) (_ : c < 3) (hd : d < S.wIn.length)
    (hk : k < S.wLoss.length) X c₀ w, 0 < w → EnergiesWithin (size S) (hamilton S) X c₀ w →
    (∀ x, Solves (size S) (hamilton S) ((S.wIn[d] : ℂ) + Complex.I * S.delta + (S.es.getD i 0 : ℂ))
        (excite S (dipolePD S.gaunt b S.epsilonsRIXSin[a]) i) x →
      NoneDropped (size S) S.slaterWeightMin (exciteVec S (dipoleDP S.gaunt b ⟨1, 0, 0⟩) x) ∧
      ClosedAround (size S) (hamilton S) (exciteVec S (dipoleDP S.gaunt b ⟨1, 0, 0⟩) x) X) →
    ∃ g, IsRixs (size S) (hamilton S) ((S.wIn[d] : ℂ) + Complex.I * S.delta + (S.es.getD i 0 : ℂ))
        ((S.wLoss[k] : ℂ) + Complex.I * S.deltaRIXS + (S.es.getD i 0 : ℂ))
        (excite S (dipolePD S.gaunt b S.epsilonsRIXSin[a]) i) (exciteVec S (dipoleDP S.gaunt b ⟨1, 0, 0⟩)) g ∧
      ∀ x, Solves (size S) (hamilton S) ((S.wIn[d] : ℂ) + Complex.I * S.delta + (S.es.getD i 0 : ℂ))
          (excite S (dipolePD S.gaunt b S.epsilonsRIXSin[a]) i) x →
        |s.rixs.data i a c d k - -g.im| ≤
          normSq (size S) (exciteVec S (dipoleDP S.gaunt b ⟨1, 0, 0⟩) x) * lanczosError w S.deltaRIXS 150

end

end Verif.Spec
