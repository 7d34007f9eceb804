/-
Specification: systems without a preferred direction in space, and systems without a preferred direction of the spin.
-/
import Verif.Spec.Rotation
import Verif.Spec.BathChange
import Verif.Spec.Degenerate

namespace Verif.Spec

open Finset

noncomputable section

/-- `⟨m'| l_x |m⟩` and `⟨m'| l_y |m⟩`. -/
def lX (l : ℕ) (m' m : ℤ) : ℂ := (lPlus l m' m + lMinus l m' m) / 2
def lY (l : ℕ) (m' m : ℤ) : ℂ := (lPlus l m' m - lMinus l m' m) / (2 * Complex.I)

/-- The matrices of the components x, y, z (0, 1, 2) of the spin `s` and of `j = l + s` in the shell `l`. -/
def spinComponent (_l : ℕ) (a : Fin 3) : ℤ × ℤ → ℤ × ℤ → ℂ := spinOp (![sX, sY, sZ] a)
def totalComponent (l : ℕ) (a : Fin 3) (x y : ℤ × ℤ) : ℂ := orbOp (![lX l, lY l, lZ] a) x y + spinComponent l a x y

/-- The non-interacting operator commutes with the three components `J` of an angular momentum.  In the p and in the d shell the
matrices of the components are `K`.  In the bath they can be anything that does not mix the shells, valence
and conduction bath states with one another. -/
structure ConservesMomentum (b : ℕ → ℕ) (P : BasisParams) (h0 : Op Label ℂ) (K : ℕ → Fin 3 → ℤ × ℤ → ℤ × ℤ → ℂ)
    (J : Fin 3 → ℕ → ℕ → ℂ) : Prop where
  hermitian : ∀ a, ∀ i < nTotal (pdSystem b), ∀ j < nTotal (pdSystem b), J a j i = star (J a i j)
  shell : ∀ a, ∀ l ∈ [1, 2], ∀ x ∈ Spec.shell l, ∀ y ∈ Spec.shell l,
    J a (position (pdSystem b) (.imp l x.1 x.2)) (position (pdSystem b) (.imp l y.1 y.2)) = K l a x y
  groups : ∀ a, ∀ l ∈ [1, 2], ∀ i < nTotal (pdSystem b), ∀ j < nTotal (pdSystem b), J a i j ≠ 0 →
    (i ∈ impOrbs (pdSystem b) l ↔ j ∈ impOrbs (pdSystem b) l) ∧
    (i ∈ valOrbs (pdSystem b) l (P.val l) ↔ j ∈ valOrbs (pdSystem b) l (P.val l)) ∧
    (i ∈ conOrbs (pdSystem b) l (b l) (P.val l) ↔ j ∈ conOrbs (pdSystem b) l (b l) (P.val l))
  oneElectron : OneElectron (pdSystem b) h0
  commutes : ∀ a, ∀ i < nTotal (pdSystem b), ∀ j < nTotal (pdSystem b),
    ∑ k ∈ range (nTotal (pdSystem b)), J a i k * oneMatrix (pdSystem b) h0 k j
      = ∑ k ∈ range (nTotal (pdSystem b)), oneMatrix (pdSystem b) h0 i k * J a k j

/-- The non-interacting operator has no preferred direction in space. -/
def SphericallySymmetric (b : ℕ → ℕ) (P : BasisParams) (h0 : Op Label ℂ) : Prop :=
  ∃ J, ConservesMomentum b P h0 totalComponent J

/-- The non-interacting operator has no preferred direction of the spin. -/
def SpinSymmetric (b : ℕ → ℕ) (P : BasisParams) (h0 : Op Label ℂ) : Prop :=
  ∃ J, ConservesMomentum b P h0 spinComponent J

/-- The same averaged spectra, summed over the polarisations and over the states of the shell. -/
structure SameSums (s s' : Simulated) : Prop where
  ps : ∀ k < 3000, ∑ j ∈ range 10, s'.ps.thermal j k = ∑ j ∈ range 10, s.ps.thermal j k
  xps : ∀ k < 3000, ∑ j ∈ range 6, s'.xps.thermal j k = ∑ j ∈ range 6, s.xps.thermal j k
  xas : ∀ k < 3000, ∑ t ∈ range 3, s'.xas.thermal t k = ∑ t ∈ range 3, s.xas.thermal t k

/-- The same averaged spectra, summed over the spin of the added or removed electron.  The spin-orbitals `j` and `j + 2l + 1` of a shell
differ in the spin only. -/
structure SameSpinSums (s s' : Simulated) : Prop where
  ps : ∀ j < 5, ∀ k < 3000, s'.ps.thermal j k + s'.ps.thermal (j + 5) k = s.ps.thermal j k + s.ps.thermal (j + 5) k
  xps : ∀ j < 3, ∀ k < 3000, s'.xps.thermal j k + s'.xps.thermal (j + 3) k = s.xps.thermal j k + s.xps.thermal (j + 3) k
  xas : ∀ t < 3, ∀ k < 3000, s'.xas.thermal t k = s.xas.thermal t k
  nixs : ∀ t < 2, ∀ k < 4000, s'.nixs.thermal t k = s.nixs.thermal t k
  rixs : ∀ a < 3, ∀ c < 3, ∀ d < 50, ∀ k < 4000, s'.rixs.thermal a c d k = s.rixs.thermal a c d k

/-- Absorption does not depend on the polarisation, and resonant scattering is the same for the in-coming polarisations y and z. -/
structure Unpolarised (s : Simulated) : Prop where
  xas : ∀ t < 3, ∀ t' < 3, ∀ k < 3000, s.xas.thermal t' k = s.xas.thermal t k
  rixs : ∀ c < 3, ∀ d < 50, ∀ k < 4000, s.rixs.thermal 2 c d k = s.rixs.thermal 1 c d k

end

end Verif.Spec
