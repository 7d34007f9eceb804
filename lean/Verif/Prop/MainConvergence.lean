/-
C82, the whole program: how far the spectra that main stores are from the exact ones.
-/
import Verif.Spec.MainConvergence
import Verif.Lemmas.EnergyBound
import Verif.Prop.RixsConvergence
import Verif.Prop.Main
import Verif.Prop.MainExample

namespace Verif

open Finset Mpi Psr Spec Matrix

noncomputable section

/-- C82, a bound that always holds: the energies reached from any state lie within the sum of the magnitudes of the
strengths of the Hamiltonian, so that the error bounds hold with this sum. -/
theorem C82_always {S : SimulateArgs} (hS : S.Valid) (hdict : Dict.NodupKeys S.hOp) (hh : isHermitianOp S.hOp)
    (T : Vec ℂ → Vec ℂ) (i : ℕ) {w : ℝ} (hw0 : 0 < w) (hw : (S.hOp.map fun q => ‖q.2‖).sum ≤ w) : Reaches S T i w := by
  refine ⟨hw0, Set.univ, 0, ⟨fun _ _ => trivial, fun _ _ _ _ _ _ => trivial⟩, ?_⟩
  exact energiesWithin_all (by have h := hS.hop; rw [nSpinOrbitals_eq] at h; exact h) hdict hh _ _ _ hw


section
variable {L : MainLib} {A : MainArgs} (hA : A.Valid) (hG : GauntLarge L.gaunt A.ls) {N : ℕ} (hN : 0 < N)
  {ord : Fin N → ℕ → ℕ → ℕ → SetOrders} (hord : ∀ k c t i, (ord k c t i).Valid)
  {ordRixs : Fin N → List ℕ → SetOrders} (hordR : ∀ k l, (ordRixs k l).Valid) {out : Fin N → Option MainOutput}
  (hfin : CanFinish msgSum (fun k : Fin N => mainRank L A (ord k) (ordRixs k) k.val N) out)
  {o : MainOutput} (ho : out ⟨0, hN⟩ = some o)
variable (hL : SolverCorrect L.solver) {b : ℕ → ℕ} {P : BasisParams} {hx hy hz : ℝ} {h0 : Op Label ℂ}
  (hD : Documented A b P hx hy hz h0)

omit hfin in
include hG hN hord hordR hD in
theorem mainRun_within (hR : GauntRules L.gaunt) (hsolve : ExactSolver L.solve) {energies : List ℝ} {psis : List (Psi ℂ)}
    {S : SimulateArgs} (hrun : MainPrepared L A b P hx hy hz h0 energies psis S) (hS : S.Valid) (hout : S.OutLarge) {s : Simulated}
    (hfin : CanFinish msgSum (fun k : Fin N => simulateSpectra S (ord k) (ordRixs k) k.val N)
      (fun k => if k.val = 0 then some s else none)) : PDWithin b S s := by
  have hs : (fun k : Fin N => if k.val = 0 then some s else none) ⟨0, hN⟩ = some s := rfl
  obtain ⟨hdict, hh⟩ := hrun.dict
  have hK : intKeys S.nBaths = pdSystem b := by rw [hrun.system]; rfl
  obtain ⟨hkry, hwt, hcut⟩ := hrun.args.cutoffs
  obtain ⟨g1, g2, g3, g4, g5, g6⟩ := hrun.args.library
  have hw1 : S.slaterWeightMin ≤ 1 := by rw [hwt]; norm_num
  have hqs : S.qsNIXS.length = 2 := hrun.args.qs.1
  have hns : ∀ v ∈ ([⟨1, 0, 0⟩, ⟨0, 1, 0⟩, ⟨0, 0, 1⟩] : List (Vec3 ℂ)),
      NoSmall (size S) (dipolePD S.gaunt b v) S.slaterWeightMin S.restrictions := by
    intro v hv
    rw [hwt, g1]
    exact dipole_noSmall hG hD.ls b hv _ _
  refine ⟨?_, ?_, ?_, ?_, ?_⟩
  · rintro i j k hi hj hk x hx w w' ⟨p1, X, c, c1, c2⟩ ⟨p2, Y, c', c3, c4⟩
    unfold error150
    rw [← hK] at hx
    rw [← hkry]
    exact C82_photoemission hS hout hN hord hordR hfin hs hdict hh hw1 i j k hi hj hk x hx X Y c w c' w' p1 c1 c2 p2 c3 c4
  · rintro i j k hi hj hk x hx w ⟨p1, X, c, c1, c2⟩
    unfold error150
    rw [← hK] at hx
    rw [← hkry]
    exact C82_xps hS hout hN hord hordR hfin hs hdict hh hw1 i j k hi hj hk x hx X c w p1 c1 c2
  · rintro i t k hi ht hk w ⟨p1, X, c, c1, c2⟩
    unfold error150
    rw [← hkry]
    refine C82_xas hS hout hN hord hordR hfin hs hdict hh hrun.system i t k hi ht hk _ ?_ (hns _ ?_) X c w p1 c1 c2
    · rw [hK]; rfl
    · rw [← hrun.args.epsilons]
      exact List.getElem_mem _
  · rintro i t k hi ht hk q hq hsm w ⟨p1, X, c', c1, c2⟩
    unfold error150
    rw [← hkry]
    have ht' : t < S.qsNIXS.length := by rw [hqs]; exact ht
    obtain ⟨c, hc, hqc⟩ := hrun.args.qs.2 t ht'
    obtain ⟨a1, a2, a3, a4, a5⟩ := diagonal_angles q
    have hcq : c = q / Real.sqrt 3 := by rw [hc, hq]
    have hq0 : 0 < q := by rw [hq]; split <;> norm_num
    obtain ⟨r1, r2, r3⟩ := hrun.args.radial
    obtain ⟨s1, s2⟩ := hrun.args.shells
    refine C82_nixs hS hout hN hord hordR hfin hs hdict hh (by rw [g1]; exact hR)
      (by rw [s1, hrun.system]; simp [Dict.keys]) (by rw [s2, hrun.system]; simp [Dict.keys])
      (by rw [r1, r2]; simp) (by rw [r1, r3]; simp) i t k hi ht' hk q _ (Real.pi / 4) hq0 a4 a5
      (by rw [abs_of_pos (by positivity)]; linarith [Real.pi_pos]) (by rw [hqc, a1, hcq]) (by rw [hqc, a2, hcq])
      (by rw [hqc, a3, hcq]) _ ?_ hsm X c' w p1 c1 c2
    unfold planeWaveDD
    rw [hK, s1, s2, hrun.args.kmin, abs_of_pos (by positivity : (0 : ℝ) < Real.pi / 4)]
  · intro i a c d k hi ha hc hd hk X c₀ w hw hband hres
    have hc' : c < S.epsilonsRIXSout.length := by rw [hrun.args.epsilonsRIXS.2]; exact hc
    have h00 : ∀ h, S.epsilonsRIXSout[0]'h = ⟨1, 0, 0⟩ := by
      intro h
      simp only [hrun.args.epsilonsRIXS.2, List.getElem_cons_zero]
    rw [← hkry]
    refine C82_rixs hS hout hN hord hordR hfin hs hdict hh hrun.system (by rw [g4]; exact hsolve) i a c d k hi ha hc' hd hk
      _ ?_ _ ?_ (hns _ ?_) hres hw hband
    · rw [hK]; rfl
    · rw [hK, h00]; rfl
    · rw [← hrun.args.epsilonsRIXS.1]
      exact List.getElem_mem _

include hA hG hord hordR hfin ho hL hD in
/-- C82, main.  Whatever main stores for photoemission, XPS, XAS, NIXS and RIXS is within the error of 150 Lanczos vectors of
the exact response. -/
theorem C82_main (hR : GauntRules L.gaunt) (hsolve : ExactSolver L.solve) :
    ∃ psis S, MainRun L A b P hx hy hz h0 o.energies psis S ∧ PDWithin b S o.spectra ∧
      ∀ T i w, 0 < w → (S.hOp.map fun q => ‖q.2‖).sum ≤ w → Reaches S T i w := by
  obtain ⟨psis, S, hrun, hS, hout, hall⟩ := C65_run hA hG hN hord hordR hfin ho hL hD
  obtain ⟨hdict, hh⟩ := hrun.dict
  exact ⟨psis, S, hrun, mainRun_within hG hN hord hordR hD hR hsolve hrun.toMainPrepared hS hout
    (hall N hN ord hord ordRixs hordR).canFinish, fun T i w h0 hw => C82_always hS hdict hh T i h0 hw⟩

end

/-- The hypotheses of `C82_main` are met: three ranks, any temperature. -/
example (sphHarm : SphHarm) (jn : SphericalJn) (T : ℝ) (hT : 0 < T) (radial : List (ℝ × ℝ)) :
    ∃ (L : MainLib) (o : MainOutput) (psis : _) (S : _),
      MainRun L (holeArgs 0 T radial) (fun _ => 0) holeParams 0 0 0 (holeLevels 0) o.energies psis S ∧
      PDWithin (fun _ => 0) S o.spectra := by
  obtain ⟨solver, hS, htot⟩ := exists_solver
  obtain ⟨o, ho⟩ := C64_example hS htot sphHarm jn one_pos hT radial
  have h1 := (ho 3 (by decide) (fun _ _ _ _ => holeOrders) (fun _ _ _ _ => holeOrders_valid) (fun _ _ => holeOrders)
    (fun _ _ => holeOrders_valid)).canFinish
  have hsolve : ExactSolver (holeLib solver sphHarm jn 1).solve := by
    intro d a y ha
    show a *ᵥ (a⁻¹ *ᵥ y) = y
    rw [Matrix.mulVec_mulVec, Matrix.mul_nonsing_inv a ((Matrix.isUnit_iff_isUnit_det a).1 ha), Matrix.one_mulVec]
  obtain ⟨psis, S, hrun, hsp, -⟩ := C82_main (holeArgs_valid 0 T radial) sympyGaunt_large (by decide)
    (fun _ _ _ _ => holeOrders_valid) (fun _ _ => holeOrders_valid) h1 rfl hS (holeArgs_documented 0 T radial)
    sympyGaunt_rules hsolve
  exact ⟨_, o, psis, S, hrun, hsp⟩

end

end Verif
