/-
Specification of what a reversed magnetic field does to the results.
-/
import Verif.Model.Main

namespace Verif.Spec

/-- The printed averages in opposite fields: the moments change sign, their squares do not, and the occupations of the two spins are exchanged.  The
occupations are those of the e_g orbitals with spin down and up, then of the t_2g orbitals. -/
structure ReversedMeans (t t' : ThermalValues) : Prop where
  energy : t'.energy = t.energy
  n3d : t'.n3d = t.n3d
  lz : t'.lz = -t.lz
  sz : t'.sz = -t.sz
  lsqr : t'.lsqr = t.lsqr
  ssqr : t'.ssqr = t.ssqr
  eg : t'.occ 0 = t.occ 1 ∧ t'.occ 1 = t.occ 0
  t2g : t'.occ 2 = t.occ 3 ∧ t'.occ 3 = t.occ 2

/-- The spherical harmonics `Y m k φ θ` have the usual phases. -/
def HarmonicsSymmetric (Y : ℤ → ℕ → ℝ → ℝ → ℂ) : Prop := ∀ m k φ θ, star (Y m k φ θ) = (-1) ^ m * Y (-m) k φ θ

/-- The averaged spectra in opposite fields: photoemission of the spin-orbital with the opposite spin and orbital momentum, and
absorption of light of the same polarisation or scattering with the same momentum. -/
structure ReversedSpectra (s s' : Simulated) : Prop where
  ps : ∀ j < 10, ∀ k < 3000, s'.ps.thermal (9 - j) k = s.ps.thermal j k
  xps : ∀ j < 6, ∀ k < 3000, s'.xps.thermal (5 - j) k = s.xps.thermal j k
  xas : ∀ t < 3, ∀ k < 3000, s'.xas.thermal t k = s.xas.thermal t k
  nixs : ∀ t < 2, ∀ k < 4000, s'.nixs.thermal t k = s.nixs.thermal t k

end Verif.Spec
