/-
Specification for C106: where a spectrum has intensity.
-/
import Verif.Spec.Levels
import Verif.Spec.Lehmann

namespace Verif.Spec

open Finset

noncomputable section

/-- The number of electrons in the spin-orbitals `O` is conserved by the non-interacting operator `h0` and is `m` in all
configurations of main.  `O` contains all or none of the p shell (`p` = 1 or 0), and all or none of the d shell (`d` = 1 or 0). -/
structure ConservedNumber (b : ℕ → ℕ) (P : BasisParams) (h0 : Op Label ℂ) (O : Finset ℕ) (m p d : ℤ) : Prop where
  core : Contains O (impOrbs (pdSystem b) 1) p
  valence : Contains O (impOrbs (pdSystem b) 2) d
  conserved : ∀ k v, InSector O k v → InSector O k (operator (labelSpec (position (pdSystem b)) h0) v)
  filling : ∀ F ⊆ range (nTotal (pdSystem b)), IsConfiguration [(1, b 1), (2, b 2)] (pdSystem b) P F →
    ((F ∩ O).card : ℤ) = m

/-- The energies of the allowed states with `k` electrons in `O` lie between `lo` and `hi`: so do the expectation values of the
Hamiltonian in all such states. -/
def EnergiesBetween (S : SimulateArgs) (O : Finset ℕ) (k : ℤ) (lo hi : ℝ) : Prop :=
  ∀ v : Vec ℂ, (∀ F, v F ≠ 0 → F ⊆ range (size S) ∧ AllowedOpt S.restrictions F) → InSector O k v →
    lo * normSq (size S) v ≤ (innerProduct (size S) v (hamilton S v)).re ∧
    (innerProduct (size S) v (hamilton S v)).re ≤ hi * normSq (size S) v

/-- The energy `x` is at least `D` away from all energies between `lo` and `hi`, or `D` is zero. -/
def Outside (lo hi x D : ℝ) : Prop := 0 ≤ D ∧ (D = 0 ∨ x + D ≤ lo ∨ hi + D ≤ x)

/-- A Lorentzian of half width `delta` in the distance `D`. -/
def lorentzian (delta D : ℝ) : ℝ := delta / (D ^ 2 + delta ^ 2)

end

end Verif.Spec
