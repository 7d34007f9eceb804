/-
Specification for C85: averages over some of the states.
-/
import Verif.Spec.Simulate

namespace Verif.Spec

noncomputable section

/-- The plain mean of the observables. -/
def plainMean {E : Type} [AddCommGroup E] [Module ℝ E] (os : List E) : E := (os.length : ℝ)⁻¹ • os.sum

/-- `avg` is, up to `exp (-cut) D` for each state left out, the average over all `energies` of any values `x` that continue the
values `data` of the first `m` states and do not differ from them by more than `D`. -/
def CutAverage (kB T cut : ℝ) (energies : List ℝ) (m : ℕ) (data : ℕ → ℝ) (avg : ℝ) : Prop :=
  ∀ (x : ℕ → ℝ) (D full : ℝ), (∀ i < m, x i = data i) → (∀ i < m, ∀ j < energies.length, |x i - x j| ≤ D) →
    IsThermal kB T energies x full → |avg - full| ≤ (energies.length - m : ℕ) * Real.exp (-cut) * D

/-- The same for all averages that main stores. -/
structure CutSpectra (kB T cut : ℝ) (energies : List ℝ) (m : ℕ) (s : Simulated) : Prop where
  ps : ∀ j k, CutAverage kB T cut energies m (fun i => s.ps.data i j k) (s.ps.thermal j k)
  xps : ∀ j k, CutAverage kB T cut energies m (fun i => s.xps.data i j k) (s.xps.thermal j k)
  xas : ∀ t k, CutAverage kB T cut energies m (fun i => s.xas.data i t k) (s.xas.thermal t k)
  nixs : ∀ t k, CutAverage kB T cut energies m (fun i => s.nixs.data i t k) (s.nixs.thermal t k)
  rixs : ∀ a c d k, CutAverage kB T cut energies m (fun i => s.rixs.data i a c d k) (s.rixs.thermal a c d k)

end

end Verif.Spec
