/-
The hypotheses of C111 are met.
-/
import Verif.Prop.HalfTurn
import Verif.Prop.FieldReversalExample

namespace Verif

open Finset Mpi Psr Spec

noncomputable section

theorem clo_halfTurn : HalfTurn cloBaths cloParams cloPartner halfPhase := reversal_half clo_timeReversal

theorem clo_half_invariant (v : Vec ℂ) :
    operator (labelSpec (position cloSystem) cloLevels) (moveElectrons (nTotal cloSystem) cloPartner halfPhase v)
      = moveElectrons (nTotal cloSystem) cloPartner halfPhase (operator (labelSpec (position cloSystem) cloLevels) v) := by
  have hR := clo_halfTurn
  have hp : ∀ i ∈ range 17, cloPartner i ∈ range 17 ∧ cloPartner (cloPartner i) = i := by
    intro i hi
    rw [mem_range] at hi ⊢
    unfold cloPartner
    split_ifs <;> omega
  rw [cloLevels_operator, cloLevels_operator, move_sum]
  funext F
  refine sum_nbij' cloPartner cloPartner (fun i hi => (hp i hi).1) (fun i hi => (hp i hi).1) (fun i hi => (hp i hi).2)
    (fun i hi => (hp i hi).2) fun i hi => ?_
  have hlt : cloPartner i < nTotal cloSystem := by rw [cloSystem_size]; exact mem_range.1 (hp i hi).1
  have hl : cloLevel (cloPartner i) = cloLevel i := by
    have := mem_range.1 hi
    unfold cloLevel cloPartner
    split_ifs <;> first | omega | simp
  rw [hl, move_hop hR.partner hR.unit hlt hlt, (hp i hi).2, mul_comm (halfPhase _), unit_star hR.unit, one_smul]

/-- The hypotheses of C111_printed and C111_spectra are met, for all pairs of correct solvers: three ranks with the field along z and five ranks with
the field along -z. -/
example {solver solver' : EigenSolver} (hS : SolverCorrect solver) (hS' : SolverCorrect solver')
    (htot : ∀ H d k, k < d → ∃ p, solver.eigsh H d k = .ok p) (htot' : ∀ H d k, k < d → ∃ p, solver'.eigsh H d k = .ok p)
    (sphHarm : SphHarm) (jn : SphericalJn) {kB : ℝ} (hk : 0 < kB) (hcold : 10 * (kB * 300) ≤ 4) :
    ∃ o o' : MainOutput,
      CanFinish msgSum (fun k : Fin 3 => mainRank (holeLib solver sphHarm jn kB) (cloArgs 1 300) (fun _ _ _ => holeOrders)
        (fun _ => holeOrders) k.val 3) (fun k => if k.val = 0 then some o else none) ∧
      CanFinish msgSum (fun k : Fin 5 => mainRank (holeLib solver' sphHarm jn kB) (cloArgs (-1) 300)
        (fun _ _ _ => holeOrders) (fun _ => holeOrders) k.val 5) (fun k => if k.val = 0 then some o' else none) ∧
      o'.energies = o.energies ∧ ReversedMeans o.thermal o'.thermal ∧ HalfTurnSpectra o.spectra o'.spectra := by
  have hT : (0 : ℝ) < 300 := by norm_num
  obtain ⟨o, ho⟩ := clo_finishes 1 hS htot sphHarm jn hk hT hcold
  obtain ⟨o', ho'⟩ := clo_finishes (-1) hS' htot' sphHarm jn hk hT hcold
  have h1 := (ho 3 (by decide) (fun _ _ _ _ => holeOrders) (fun _ _ _ _ => holeOrders_valid) (fun _ _ => holeOrders)
    (fun _ _ => holeOrders_valid)).canFinish
  have h2 := (ho' 5 (by decide) (fun _ _ _ _ => holeOrders) (fun _ _ _ _ => holeOrders_valid) (fun _ _ => holeOrders)
    (fun _ _ => holeOrders_valid)).canFinish
  have hz : ((-1 : ℤ) : ℝ) = -((1 : ℤ) : ℝ) := by norm_num
  have hD' : Documented (cloArgs (-1) 300) cloBaths cloParams 0 (-0) (-((1 : ℤ) : ℝ)) cloLevels := by
    rw [← hz, neg_zero]
    exact cloArgs_documented (-1) 300
  obtain ⟨psis, S, psis', S', r1, r2, hmain⟩ := C111_spectra (cloArgs_valid 1 300) sympyGaunt_large (by decide) (by decide)
    (fun _ _ _ _ => holeOrders_valid) (fun _ _ => holeOrders_valid) h1 rfl
    (fun _ _ _ _ => holeOrders_valid) (fun _ _ => holeOrders_valid) h2 rfl hS hS' rfl (cloArgs_documented 1 300) hD' rfl rfl
    sympyGaunt_symmetric rfl rfl sympyGaunt_rules (holeSolve_exact solver sphHarm jn kB) (holeSolve_exact solver' sphHarm jn kB)
    rfl rfl
  have back : ∀ {es : List ℝ} {psis : List (Psi ℂ)} {S : SimulateArgs},
      MainRun (holeLib solver' sphHarm jn kB) (cloArgs (-1) 300) cloBaths cloParams 0 (-0) (-((1 : ℤ) : ℝ)) cloLevels es psis S →
      MainRun (holeLib solver' sphHarm jn kB) (cloArgs (-1) 300) cloBaths cloParams 0 0 ((-1 : ℤ) : ℝ) cloLevels es psis S := by
    intro es psis S r
    rw [hz]
    rwa [neg_zero] at r
  obtain ⟨psis2, S2, psis2', S2', r3, r4, hg, hmain2⟩ := C111_printed (cloArgs_valid 1 300) sympyGaunt_large (by decide) (by decide)
    (fun _ _ _ _ => holeOrders_valid) (fun _ _ => holeOrders_valid) h1 rfl
    (fun _ _ _ _ => holeOrders_valid) (fun _ _ => holeOrders_valid) h2 rfl hS hS' rfl (cloArgs_documented 1 300) hD' rfl rfl
    sympyGaunt_symmetric
  obtain ⟨k1, k2, k3⟩ := clo_resolved (L := holeLib solver sphHarm jn kB) rfl hT hk hcold r1
  obtain ⟨-, k2', k3'⟩ := clo_resolved (L := holeLib solver' sphHarm jn kB) rfl hT hk hcold (back r2)
  have hsz : size S' = size S := by unfold size; rw [r1.system, r2.system]
  obtain ⟨e1, -, e2⟩ := hmain _ _ clo_halfTurn clo_half_invariant
  obtain ⟨-, -, -, e3⟩ := hmain2 _ _ clo_halfTurn clo_half_invariant
  obtain ⟨g1, g2, g3⟩ := clo_ground (L := holeLib solver sphHarm jn kB) rfl r3
  obtain ⟨-, -, g3'⟩ := clo_ground (L := holeLib solver' sphHarm jn kB) rfl (back r4)
  refine ⟨o, o', h1, h2, e1, ?_, (e2 k1 fun psi hp => ?_).1 k3 k3'⟩
  · obtain ⟨x0, x1, hx⟩ := List.length_eq_two.1 g1
    rw [hx] at g2 hg e3
    have g2 : x0 + 4 ≤ x1 := g2
    have h0 : o.expValues.1 ≤ x0 := hg.2 x0 (by simp)
    have hx0 : o.expValues.1 = x0 := by
      rcases List.mem_cons.1 hg.1 with h | h
      · exact h
      · rw [List.mem_singleton.1 h] at h0
        linarith
    have hlow : 10 * kB * 300 ≤ 4 := by linarith
    refine e3 ⟨x1, by simp, by rw [hx0]; show 10 * kB * 300 ≤ _; linarith⟩ fun i hi hw psi hp => ?_
    have hi : i < 2 := hi
    interval_cases i
    · simp only [List.mem_cons, List.not_mem_nil, or_false] at hp
      rcases hp with rfl | rfl
      · exact g3
      · exact g3'
    · rw [hx0] at hw
      have hw : x1 - x0 < 10 * kB * 300 := hw
      linarith
  · rcases List.mem_append.1 hp with hp | hp
    · exact k2 psi hp
    · rw [← hsz]; exact k2' psi hp

end

end Verif
