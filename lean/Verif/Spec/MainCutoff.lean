/-
Specification for C84: how far the spectra stored by main are from the ones without cutoffs.
-/
import Verif.Spec.Cutoff
import Verif.Spec.MainConvergence

namespace Verif.Spec

open Finset

noncomputable section

/-- The vectors `x` in the space of the product states `configs` are normalised, and the kept states are closer than `eta`
to them. -/
structure CloseStates (S : SimulateArgs) (configs : Finset (Finset ℕ)) (x : ℕ → Vec ℂ) (eta : ℝ) : Prop where
  inside : ∀ i F, F ∉ configs → x i F = 0
  normalised : ∀ i < S.es.length, normSq (size S) (x i) = 1
  close : ∀ i < S.es.length, normSq (size S) (ampl (size S) (S.psis.getD i []) - x i) ≤ eta ^ 2

/-- `x 0, x 1, ...` are normalised eigenvectors in the space of the product states `configs`, for the energies of `S`.  The
stored vectors are at most `eta` away from them. -/
structure ExactStates (S : SimulateArgs) (configs : Finset (Finset ℕ)) (x : ℕ → Vec ℂ) (eta : ℝ) : Prop
    extends CloseStates S configs x eta where
  eigen : ∀ i (hi : i < S.es.length), ∀ F ∈ configs, ∑ G ∈ configs, storedElement S.hOp S.cut F G * x i G = S.es[i] * x i F

/-- The error of 150 Lanczos vectors and of the cutoffs together. -/
def totalError (S : SimulateArgs) (T : Vec ℂ → Vec ℂ) (i : ℕ) (t eta delta w : ℝ) : ℝ :=
  error150 S T i delta w + cutoffError t
    (vectorError t eta S.slaterWeightMin (dropped (size S) T S.slaterWeightMin (ampl (size S) (S.psis.getD i [])))) S.cut
    S.hOp.length delta

/-- The error of the cutoffs for RIXS, `y` being the computed solution of `(z + e_i - H) y = T psi_i`. -/
def rixsError (S : SimulateArgs) (T T' : Vec ℂ → Vec ℂ) (i : ℕ) (t t' eta : ℝ) (y : Vec ℂ) (delta delta' : ℝ) : ℝ :=
  cutoffError (t' * (t / |delta|)) (vectorError t' (solutionError t
      (vectorError t eta S.slaterWeightMin (dropped (size S) T S.slaterWeightMin (ampl (size S) (S.psis.getD i []))))
      S.cut S.hOp.length delta) S.slaterWeightMin (dropped (size S) T' S.slaterWeightMin y))
    S.cut S.hOp.length delta'

/-- `g = ⟨T x_i| (z + e_i - H)⁻¹ |T x_i⟩` without cutoffs. -/
def UncutResponse (S : SimulateArgs) (H T : Vec ℂ → Vec ℂ) (x : ℕ → Vec ℂ) (i : ℕ) (z g : ℂ) : Prop :=
  IsUncut (size S) S.restrictions H T (x i) (z + (S.es.getD i 0 : ℂ)) g

/-- What main stores, up to errors, as responses of the eigenvectors `x` for the Hamiltonian `H` without cutoffs. -/
structure PDUncut (b : ℕ → ℕ) (S : SimulateArgs) (H : Vec ℂ → Vec ℂ) (x : ℕ → Vec ℂ) (eta : ℝ) (s : Simulated) : Prop where
  /-- photoemission and inverse photoemission of the d shell -/
  photoemission : ∀ i j k (_ : i < S.es.length) (_ : j < 10) (hk : k < S.w.length) (p : ℕ),
    p = impStart (pdSystem b) 2 + j → ∀ w w', Reaches S (create p) i w → Reaches S (annihilate p) i w' →
    ∃ add rem, UncutResponse S H (create p) x i ((S.w[k] : ℂ) + Complex.I * S.delta) add ∧
      UncutResponse S H (annihilate p) x i (-((S.w[k] : ℂ) + Complex.I * S.delta)) rem ∧
      |s.ps.data i j k - -(add - rem).im| ≤ totalError S (create p) i 1 eta S.delta w
        + totalError S (annihilate p) i 1 eta S.delta w'
  /-- photoemission of the p shell -/
  xps : ∀ i j k (_ : i < S.es.length) (_ : j < 6) (hk : k < S.w.length) (p : ℕ),
    p = impStart (pdSystem b) 1 + j → ∀ w, Reaches S (annihilate p) i w →
    ∃ rem, UncutResponse S H (annihilate p) x i (-((S.w[k] : ℂ) + Complex.I * S.delta)) rem ∧
      |s.xps.data i j k - rem.im| ≤ totalError S (annihilate p) i 1 eta S.delta w
  /-- absorption of light of polarisation x, y, z -/
  xas : ∀ i t k (_ : i < S.es.length) (ht : t < S.epsilons.length) (hk : k < S.w.length) w c,
    Reaches S (dipolePD S.gaunt b S.epsilons[t]) i w → BoundedBy (size S) (dipolePD S.gaunt b S.epsilons[t]) c →
    ∃ g, UncutResponse S H (dipolePD S.gaunt b S.epsilons[t]) x i ((S.w[k] : ℂ) + Complex.I * S.delta) g ∧
      |s.xas.data i t k - -g.im| ≤ totalError S (dipolePD S.gaunt b S.epsilons[t]) i c eta S.delta w
  /-- scattering with momentum transfer 2 and 7 along (1,1,1) -/
  nixs : ∀ i t k (_ : i < S.es.length) (_ : t < 2) (hk : k < S.wLoss.length) (q : ℝ), q = (if t = 0 then 2 else 7) →
    NoSmall (size S) (planeWaveDD S b q) S.slaterWeightMin S.restrictions → ∀ w c, Reaches S (planeWaveDD S b q) i w →
    BoundedBy (size S) (planeWaveDD S b q) c →
    ∃ g, UncutResponse S H (planeWaveDD S b q) x i ((S.wLoss[k] : ℂ) + Complex.I * S.deltaNIXS) g ∧
      |s.nixs.data i t k - -g.im| ≤ totalError S (planeWaveDD S b q) i c eta S.deltaNIXS w
  /-- resonant scattering; the out-going polarisation is always x (C44) -/
  rixs : ∀ i a c d k (_ : i < S.es.length) (ha : a < S.epsilonsRIXSin.length) (_ : c < 3) (hd : d < S.wIn.length)
    (hk : k < S.wLoss.length) X c₀ w, 0 < w → EnergiesWithin (size S) (hamilton S) X c₀ w →
    ∀ t t', BoundedBy (size S) (dipolePD S.gaunt b S.epsilonsRIXSin[a]) t →
    BoundedBy (size S) (dipoleDP S.gaunt b ⟨1, 0, 0⟩) t' → ∀ y,
    Solves (size S) (hamilton S) ((S.wIn[d] : ℂ) + Complex.I * S.delta + (S.es.getD i 0 : ℂ))
      (excite S (dipolePD S.gaunt b S.epsilonsRIXSin[a]) i) y →
    NoneDropped (size S) S.slaterWeightMin (exciteVec S (dipoleDP S.gaunt b ⟨1, 0, 0⟩) y) →
    ClosedAround (size S) (hamilton S) (exciteVec S (dipoleDP S.gaunt b ⟨1, 0, 0⟩) y) X →
    ∃ g, IsUncutRixs (size S) S.restrictions H (dipolePD S.gaunt b S.epsilonsRIXSin[a]) (dipoleDP S.gaunt b ⟨1, 0, 0⟩) (x i)
        ((S.wIn[d] : ℂ) + Complex.I * S.delta + (S.es.getD i 0 : ℂ))
        ((S.wLoss[k] : ℂ) + Complex.I * S.deltaRIXS + (S.es.getD i 0 : ℂ)) g ∧
      |s.rixs.data i a c d k - -g.im| ≤
        normSq (size S) (exciteVec S (dipoleDP S.gaunt b ⟨1, 0, 0⟩) y) * lanczosError w S.deltaRIXS 150
        + rixsError S (dipolePD S.gaunt b S.epsilonsRIXSin[a]) (dipoleDP S.gaunt b ⟨1, 0, 0⟩) i t t' eta y S.delta S.deltaRIXS

end

end Verif.Spec
