/-
The hypotheses of C95 are met.
-/
import Verif.Prop.Slope
import Verif.Prop.PerturbExample
import Verif.Lemmas.ClosedShellRun

namespace Verif

open Finset Mpi Psr Spec

noncomputable section

/-- Two levels with hopping, the second one raised from 0 to 1: the lowest energy rises at most by the occupation of the second
level in the first lowest state, and at least by that in the second lowest state. -/
example : ∃ S es psis es' psis', SolverCorrect S ∧
    eigensystem S 2 (twoLevel 1 0) 0 ([{0}, {1}].map (encBytes 2)) 5 .full 0 3 = .ok (es, psis) ∧ es.length = 2 ∧
    eigensystem S 2 (twoLevel 1 1) 0 ([{0}, {1}].map (encBytes 2)) 5 .full 0 3 = .ok (es', psis') ∧ es'.length = 2 ∧
    es'.getD 0 0 - es.getD 0 0 ≤ Complex.normSq (ampl 2 (psis.getD 0 []) {1}) + Complex.normSq (ampl 2 (psis.getD 0 []) {0, 1}) ∧
    Complex.normSq (ampl 2 (psis'.getD 0 []) {1}) + Complex.normSq (ampl 2 (psis'.getD 0 []) {0, 1}) ≤ es'.getD 0 0 - es.getD 0 0 := by
  obtain ⟨S, hS⟩ := exists_solverCorrect
  have hr := fun e => C51_returns S hS 2 (twoLevel 1 e) (twoLevel_inSystem 1 e) (twoLevel_nodup 1 e) (twoLevel_hermitian 1 e) 0
    [{0}, {1}] (by decide) (by decide) 5 0 3 (by norm_num)
  obtain ⟨⟨es, psis, h, hl⟩, -⟩ := hr 0
  obtain ⟨⟨es', psis', h', hl'⟩, -⟩ := hr 1
  have hl : es.length = 2 := by simpa using hl
  have hl' : es'.length = 2 := by simpa using hl'
  refine ⟨S, es, psis, es', psis', hS, h, hl, h', hl', ?_, ?_⟩
  · have := C95_eigensystem (twoLevel_inSystem 1 0) (twoLevel_inSystem 1 1) (twoLevel_nodup 1 0) (twoLevel_nodup 1 1)
      (twoLevel_hermitian 1 0) (twoLevel_hermitian 1 1) hS hS (by decide) (by decide) le_rfl (by norm_num) (by norm_num) h h'
      (twoLevel_shifted 1 0 1) (Q := 1) (fun F _ => by split <;> norm_num) 0 (by omega) (by omega)
    rw [List.getD_eq_getElem es 0 (by omega), List.getD_eq_getElem es' 0 (by omega)]
    rw [show (range 2).powerset = {∅, {0}, {1}, {0, 1}} by decide] at this
    rw [sum_insert (by decide), sum_insert (by decide), sum_insert (by decide), sum_singleton] at this
    simp [-List.getD_eq_getElem?_getD] at this
    linarith
  · have := C95_eigensystem (twoLevel_inSystem 1 1) (twoLevel_inSystem 1 0) (twoLevel_nodup 1 1) (twoLevel_nodup 1 0)
      (twoLevel_hermitian 1 1) (twoLevel_hermitian 1 0) hS hS (by decide) (by decide) le_rfl (by norm_num) (by norm_num) h' h
      (twoLevel_shifted 1 1 0) (Q := 1) (fun F _ => by split <;> norm_num) 0 (by omega) (by omega)
    rw [List.getD_eq_getElem es 0 (by omega), List.getD_eq_getElem es' 0 (by omega)]
    rw [show (range 2).powerset = {∅, {0}, {1}, {0, 1}} by decide] at this
    rw [sum_insert (by decide), sum_insert (by decide), sum_insert (by decide), sum_singleton] at this
    simp [-List.getD_eq_getElem?_getD] at this
    linarith

/-- The hypotheses of `C95_main` are met, for all pairs of correct solvers: three ranks with the field 1 along z and five ranks
without field. -/
example {solver solver' : EigenSolver} (hS : SolverCorrect solver) (hS' : SolverCorrect solver')
    (htot : ∀ H d k, k < d → ∃ p, solver.eigsh H d k = .ok p) (htot' : ∀ H d k, k < d → ∃ p, solver'.eigsh H d k = .ok p)
    (sphHarm : SphHarm) (jn : SphericalJn) {T : ℝ} (hT : 0 < T) (hcold : 10 * (1 * T) ≤ 4) :
    ∃ (o o' : MainOutput) (k : ℕ),
      CanFinish msgSum (fun k : Fin 3 => mainRank (holeLib solver sphHarm jn 1) (cloArgs 0 T) (fun _ _ _ => holeOrders)
        (fun _ => holeOrders) k.val 3) (fun k => if k.val = 0 then some o else none) ∧
      CanFinish msgSum (fun k : Fin 5 => mainRank (holeLib solver' sphHarm jn 1) (cloArgs 1 T)
        (fun _ _ _ => holeOrders) (fun _ => holeOrders) k.val 5) (fun k => if k.val = 0 then some o' else none) ∧
      ∃ (r : 0 < o.expValues.2.length) (r' : 0 < o'.expValues.2.length),
        o'.expValues.2[0].sz - o.expValues.2[0].sz ≤ 2 * slopeAccuracy k (numberOfConfigurations cloBaths cloParams) 1 0 := by
  obtain ⟨o, ho⟩ := clo_finishes 0 hS htot sphHarm jn one_pos hT hcold
  obtain ⟨o', ho'⟩ := clo_finishes 1 hS' htot' sphHarm jn one_pos hT hcold
  have h1 := (ho 3 (by decide) (fun _ _ _ _ => holeOrders) (fun _ _ _ _ => holeOrders_valid) (fun _ _ => holeOrders)
    (fun _ _ => holeOrders_valid)).canFinish
  have h2 := (ho' 5 (by decide) (fun _ _ _ _ => holeOrders) (fun _ _ _ _ => holeOrders_valid) (fun _ _ => holeOrders)
    (fun _ _ => holeOrders_valid)).canFinish
  obtain ⟨psis, S, psis', S', δ, -, -, hδ, p, p', r, r', -, -, -, h⟩ := C95_main (cloArgs_valid 0 T) (cloArgs_valid 1 T) sympyGaunt_large
    (by decide) (by decide) (fun _ _ _ _ => holeOrders_valid) (fun _ _ => holeOrders_valid) h1 rfl
    (fun _ _ _ _ => holeOrders_valid) (fun _ _ => holeOrders_valid) h2 rfl hS hS' rfl (cloArgs_documented 0 T)
    (cloArgs_documented 1 T) ⟨rfl, rfl, rfl, rfl, rfl, rfl, rfl⟩ (ed := 0) (fun v F => by simp)
  refine ⟨o, o', S.hOp.length + S'.hOp.length, h1, h2, r, r', ?_⟩
  rw [hδ] at h
  simpa using h

end

end Verif
