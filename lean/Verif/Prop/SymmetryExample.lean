/-
The hypotheses of C77 are met.
-/
import Verif.Prop.Symmetry
import Verif.Lemmas.DegenerateExample
import Verif.Lemmas.SimulateExample

namespace Verif

open Finset Mpi Psr Spec

noncomputable section

/-- Levels of the orbitals `(l, s, m)` are invariant under rotations about z. -/
theorem holeLevels_turn : CommutesTurn (quarterPhase fun _ => 0) (operator (labelSpec (position (pdSystem fun _ => 0)) (holeLevels 0))) := by
  have key : ∀ (v : Vec ℂ) (F : Finset ℕ), operator (labelSpec (position (pdSystem fun _ => 0)) (holeLevels 0)) v F
      = ((List.range 16).map fun i => holeLevel 0 i * if i ∈ F then v F else 0).sum := by
    intro v F
    unfold operator labelSpec holeLevels
    simp only [List.map_map]
    refine congrArg List.sum (List.map_congr_left fun i hi => ?_)
    have := holeLabel_position i (List.mem_range.1 hi)
    rw [← create_annihilate_self]
    simp only [Function.comp, oneProcess, List.map_cons, List.map_nil, product, ladder, List.foldr_cons, List.foldr_nil]
    rw [show position (pdSystem fun _ => 0) (holeLabel i) = i from this]
    simp
  intro v F
  conv_rhs => unfold turn
  rw [key, key, ← List.sum_map_mul_left]
  refine congrArg List.sum (List.map_congr_left fun i _ => ?_)
  unfold turn
  split <;> ring

/-- A run of main with three ranks, for every correct solver: x and y polarised light are absorbed equally. -/
example {solver : EigenSolver} (hS : SolverCorrect solver) (htot : ∀ H d k, k < d → ∃ p, solver.eigsh H d k = .ok p)
    (sphHarm : SphHarm) (jn : SphericalJn) {T : ℝ} (hT : 0 < T) (hcold : 10 * (1 * T) ≤ 4) :
    ∃ o : MainOutput,
      CanFinish msgSum (fun k : Fin 3 => mainRank (holeLib solver sphHarm jn 1) (hole2Args 0 T) (fun _ _ _ => holeOrders)
        (fun _ => holeOrders) k.val 3) (fun k => if k.val = 0 then some o else none) ∧
      ∀ k < 3000, o.spectra.xas.thermal 0 k = o.spectra.xas.thermal 1 k := by
  obtain ⟨o, ho⟩ := hole2_finishes 0 hS htot sphHarm jn one_pos hT hcold
  have h1 := (ho 3 (by decide) (fun _ _ _ _ => holeOrders) (fun _ _ _ _ => holeOrders_valid) (fun _ _ => holeOrders)
    (fun _ _ => holeOrders_valid)).canFinish
  obtain ⟨psis, S, r1, -, hmain⟩ := C77_main (hole2Args_valid 0 T) sympyGaunt_large (by decide)
    (fun _ _ _ _ => holeOrders_valid) (fun _ _ => holeOrders_valid) h1 rfl hS (hole2Args_documented 0 T)
    sympyGaunt_rules (holeSolve_exact solver sphHarm jn 1) rfl
  obtain ⟨k1, k2, k3⟩ := hole2_resolved (L := holeLib solver sphHarm jn 1) rfl hT one_pos hcold r1
  have hε := r1.args.epsilons
  exact ⟨o, h1, hmain _ (quarterPhase_turn _) (fun v => funext fun F => holeLevels_turn v F) k1 k2
    (k3.absorb _ (by rw [hε]; simp)) (k3.absorb _ (by rw [hε]; simp))⟩

/-- Arguments with a crystal-field file: ten valence bath states. -/
example (T : ℝ) (parameters : Dict String ℝ) : ∃ (A : MainArgs) (b : ℕ → ℕ) (P : BasisParams) (h0 : Op Label ℂ),
    Documented A b P 0 0 0 h0 ∧ A.h0 = .crystalField parameters ∧ CrystalFieldForm A := by
  obtain ⟨h0, u, eg, t2g, e, -⟩ := C53_meaning (nBaths := [(1, 0), (2, 10)]) (nValBaths := [(1, 0), (2, 10)])
    (readH0CFFile parameters) 10 10 rfl rfl (Or.inl (rfl : "spherical" = "spherical"))
  refine ⟨{ holeArgs 0 T [] with h0 := .crystalField parameters, nBaths := [0, 10], nValBaths := [0, 10] },
    fun l => if l = 2 then 10 else 0, { holeParams with val := fun l => if l = 2 then 10 else 0 }, h0, ?_, rfl, ?_⟩
  · exact ⟨rfl, rfl, rfl, rfl, rfl, rfl, rfl, rfl, rfl, rfl, rfl, rfl, Or.inr ⟨parameters, rfl, e⟩⟩
  · exact ⟨rfl, rfl, Or.inl rfl, rfl⟩

end

end Verif
