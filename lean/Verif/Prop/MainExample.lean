/-
An input on which main finishes: C64 to C67 are about executions that exist.
-/
import Verif.Lemmas.MainExample
import Verif.Prop.Printed

namespace Verif

open Finset Mpi Psr Spec Matrix

noncomputable section

/-- The library functions of the example: Gaunt coefficients as in sympy, exact solvers. -/
def holeLib (solver : EigenSolver) (sphHarm : SphHarm) (jn : SphericalJn) (kB : ℝ) : MainLib where
  gaunt := sympyGaunt
  sphHarm := sphHarm
  jn := jn
  solve := fun _ a y => a⁻¹ *ᵥ y
  solver := solver
  f32 := id
  kB := kB

theorem holeSolve_exact (solver : EigenSolver) (sphHarm : SphHarm) (jn : SphericalJn) (kB : ℝ) :
    ExactSolver (holeLib solver sphHarm jn kB).solve := by
  intro d a y ha
  show a *ᵥ (a⁻¹ *ᵥ y) = y
  rw [Matrix.mulVec_mulVec, Matrix.mul_nonsing_inv a ((Matrix.isUnit_iff_isUnit_det a).1 ha), Matrix.one_mulVec]

/-- A full p shell and nine d electrons, without bath states: whatever the solvers, the spherical
functions, the radial mesh and the temperature are, all ranks finish, in all executions. -/
theorem C64_example {solver : EigenSolver} (hS : SolverCorrect solver)
    (htot : ∀ H d k, k < d → ∃ p, solver.eigsh H d k = .ok p) (sphHarm : SphHarm) (jn : SphericalJn) {kB T : ℝ}
    (hk : 0 < kB) (hT : 0 < T) (radial : List (ℝ × ℝ)) :
    ∃ o : MainOutput, ∀ (N : ℕ), 0 < N → ∀ (ord : Fin N → ℕ → ℕ → ℕ → SetOrders), (∀ k c t i, (ord k c t i).Valid) →
      ∀ (ordRixs : Fin N → List ℕ → SetOrders), (∀ k l, (ordRixs k l).Valid) →
      AllRanksFinish msgSum
        (fun k : Fin N => mainRank (holeLib solver sphHarm jn kB) (holeArgs 0 T radial) (ord k) (ordRixs k) k.val N)
        (fun k => if k.val = 0 then some o else none) := by
  obtain ⟨o, ho⟩ := holeMain_ok (lev := 0) (L := holeLib solver sphHarm jn kB) (radial := radial) rfl hT hk
    (holeSolve_exact solver sphHarm jn kB) hS htot
  refine ⟨o, fun N hN ord hord ordR hordR => ?_⟩
  have := main_settles hN (L := holeLib solver sphHarm jn kB) (holeArgs_valid 0 T radial) sympyGaunt_large ord hord ordR hordR
  rw [ho] at this
  obtain ⟨out, rfl, hrun⟩ := this
  exact hrun.allRanksFinish

/-- The set orders of the example. -/
def holeOrders : SetOrders := ⟨fun _ l => l, fun l => l⟩

theorem holeOrders_valid : holeOrders.Valid := ⟨fun _ l => List.Perm.refl l, fun l => List.Perm.refl l⟩

/-- The hypotheses of C65 and C66 are met: three ranks, any temperatures. -/
example (sphHarm : SphHarm) (jn : SphericalJn) (T T' : ℝ) (hT : 0 < T) (hT' : 0 < T') (radial : List (ℝ × ℝ)) :
    ∃ (L : MainLib) (o o' : MainOutput), L.sphHarm = sphHarm ∧ L.jn = jn ∧
      (∃ psis S, MainRun L (holeArgs 0 T radial) (fun _ => 0) holeParams 0 0 0 (holeLevels 0) o.energies psis S ∧
        PDSpectra (fun _ => 0) S o.spectra) ∧
      (∃ psis S, MainRun L (holeArgs 0 T radial) (fun _ => 0) holeParams 0 0 0 (holeLevels 0) o.energies psis S ∧
        PrintedMeans L.kB 16 (position (pdSystem fun _ => 0)) o.energies psis o.thermal o.expValues.1 o.expValues.2) ∧
      o'.thermal = o.thermal ∧ o'.energies = o.energies ∧ o.energies.length = 1 := by
  obtain ⟨solver, hS, htot⟩ := exists_solver
  obtain ⟨o, ho⟩ := C64_example hS htot sphHarm jn one_pos hT radial
  obtain ⟨o', ho'⟩ := C64_example hS htot sphHarm jn one_pos hT' radial
  have h1 := (ho 3 (by decide) (fun _ _ _ _ => holeOrders) (fun _ _ _ _ => holeOrders_valid) (fun _ _ => holeOrders)
    (fun _ _ => holeOrders_valid)).canFinish
  have h2 := (ho' 3 (by decide) (fun _ _ _ _ => holeOrders) (fun _ _ _ _ => holeOrders_valid) (fun _ _ => holeOrders)
    (fun _ _ => holeOrders_valid)).canFinish
  have hsolve : ExactSolver (holeLib solver sphHarm jn 1).solve := by
    intro d a y ha
    show a *ᵥ (a⁻¹ *ᵥ y) = y
    rw [Matrix.mulVec_mulVec, Matrix.mul_nonsing_inv a ((Matrix.isUnit_iff_isUnit_det a).1 ha), Matrix.one_mulVec]
  obtain ⟨psis, S, hrun, hsp⟩ := C65_spectra (holeArgs_valid 0 T radial) sympyGaunt_large (by decide)
    (fun _ _ _ _ => holeOrders_valid) (fun _ _ => holeOrders_valid) h1 rfl hS (holeArgs_documented 0 T radial)
    sympyGaunt_rules hsolve rfl
  obtain ⟨psis', S', hrun', hpr, -⟩ := C66_printed (holeArgs_valid 0 T radial) sympyGaunt_large (by decide)
    (fun _ _ _ _ => holeOrders_valid) (fun _ _ => holeOrders_valid) h1 rfl hS (holeArgs_documented 0 T radial)
  obtain ⟨e1, -, -, -, e2⟩ := C66_temperature (holeArgs_valid 0 T radial) sympyGaunt_large T' (by decide)
    (fun _ _ _ _ => holeOrders_valid) (fun _ _ => holeOrders_valid) h1 h2 rfl rfl
  exact ⟨_, o, o', rfl, rfl, ⟨psis, S, hrun, hsp⟩, ⟨psis', S', hrun', hpr⟩, e1, e2, hrun.count⟩

end

end Verif
