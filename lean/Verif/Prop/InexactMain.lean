/-
C88: main with an eigensolver that stops at a small residual.
-/
import Verif.Prop.Inexact

namespace Verif

open Finset Mpi Psr Spec

noncomputable section

section
variable {L : MainLib} {A : MainArgs} (hA : A.Valid) (hG : GauntLarge L.gaunt A.ls) {N : ℕ} (hN : 0 < N)
  {ord : Fin N → ℕ → ℕ → ℕ → SetOrders} (hord : ∀ k c t i, (ord k c t i).Valid)
  {ordRixs : Fin N → List ℕ → SetOrders} (hordR : ∀ k l, (ordRixs k l).Valid) {out : Fin N → Option MainOutput}
  (hfin : CanFinish msgSum (fun k : Fin N => mainRank L A (ord k) (ordRixs k) k.val N) out)
  {o : MainOutput} (ho : out ⟨0, hN⟩ = some o)
variable {δ : ℝ → ℝ} (hL : SolverWithin L.solver δ) {b : ℕ → ℕ} {P : BasisParams} {hx hy hz : ℝ} {h0 : Op Label ℂ}
  (hD : Documented A b P hx hy hz h0)

include hA hG hord hordR hfin ho hL hD in
/-- Everything main does with an inexact solver. -/
theorem main_prepared : ∃ psis S, MainPrepared L A b P hx hy hz h0 o.energies psis S ∧ S.Valid ∧ S.OutLarge ∧
    ∀ (N : ℕ), 0 < N → ∀ (ord : Fin N → ℕ → ℕ → ℕ → SetOrders), (∀ k c t i, (ord k c t i).Valid) →
      ∀ (ordRixs : Fin N → List ℕ → SetOrders), (∀ k l, (ordRixs k l).Valid) →
      AllRanksFinish msgSum (fun k : Fin N => simulateSpectra S (ord k) (ordRixs k) k.val N)
        (fun k => if k.val = 0 then some o.spectra else none) := by
  obtain ⟨st⟩ := main_steps hA hG hN hord hordR hfin ho
  obtain ⟨hrun, hval, hout, -⟩ := steps_prepared hA hG hD (fun n op states es psis a1 a2 a3 a4 a5 h => by
    obtain ⟨h1, h2, h3, -⟩ := eigensystem_near a1 a2 a3 hL a4 a5 one_pos h
    exact ⟨h1 rfl, h2, h3⟩) st
  refine ⟨st.psis, mainSim L A st.s st.low.1 st.low.2, hrun, hval, hout, ?_⟩
  intro N hN ord hord ordR hordR
  have := simulate_settles hN hval hout ord hord ordR hordR
  rw [st.spectra] at this
  obtain ⟨out, rfl, hrun⟩ := this
  exact hrun.allRanksFinish

theorem sqrt_cut : Real.sqrt (1e-12) = 1e-6 := by
  rw [show (1e-12 : ℝ) = 1e-6 ^ 2 by norm_num]
  exact Real.sqrt_sq (by norm_num)

omit hN in
include hL in
theorem prepared_near {energies : List ℝ} {psis : List (Psi ℂ)} {S : SimulateArgs}
    (hrun : MainPrepared L A b P hx hy hz h0 energies psis S) {configs : Finset (Finset ℕ)}
    (hconf : ∀ F, F ∈ configs ↔ F ⊆ range (nTotal (pdSystem b)) ∧ IsConfiguration [(1, b 1), (2, b 2)] (pdSystem b) P F) :
    NearStates (nTotal (pdSystem b)) S.hOp 1e-12 1e-7 δ configs energies psis := by
  obtain ⟨states, hnd, hmem, heig⟩ := hrun.solved
  have hfs : states.toFinset = configs := by
    ext F
    rw [List.mem_toFinset, hmem, hconf]
  rw [← hfs]
  exact C88_near_states hrun.inside hrun.dict.1 hrun.dict.2 hL hnd (fun F hF => ((hmem F).1 hF).1) one_pos heig

/-- The state behind the `i`-th kept one. -/
theorem kept_index {energies : List ℝ} {psis : List (Psi ℂ)} {S : SimulateArgs}
    (hrun : MainPrepared L A b P hx hy hz h0 energies psis S) (hasc : energies.Pairwise (· ≤ ·)) (i : ℕ) (hi : i < S.es.length) :
    ∃ v, ∃ (hv : v < energies.length) (hv' : v < psis.length), S.es[i] = energies[v] ∧ S.psis.getD i [] = psis[v] := by
  obtain ⟨hne, -⟩ := hrun.nonempty
  obtain ⟨low, hlm, hlow⟩ : ∃ low ∈ energies, ∀ e ∈ energies, low ≤ e := by
    obtain ⟨e0, tl, rfl⟩ := List.exists_cons_of_ne_nil hne
    refine ⟨e0, List.mem_cons_self, fun e he => ?_⟩
    rcases List.mem_cons.1 he with rfl | h
    · exact le_rfl
    · exact (List.pairwise_cons.1 hasc).1 e h
  have hz := hrun.kept.2 low hlm hlow
  have hi' : i < S.psis.length := by rw [hrun.kept.1]; exact hi
  have hmem : (S.es[i], S.psis[i]) ∈ S.es.zip S.psis := by
    rw [← List.getElem_zip (h := by rw [List.length_zip]; omega)]
    exact List.getElem_mem _
  rw [hz] at hmem
  obtain ⟨v, hv, hev⟩ := List.mem_iff_getElem.1 (List.mem_filter.1 hmem).1
  rw [List.length_zip] at hv
  refine ⟨v, by omega, by omega, ?_, ?_⟩
  · rw [List.getElem_zip] at hev
    exact (congrArg Prod.fst hev).symm
  · rw [List.getD_eq_getElem _ _ hi']
    rw [List.getElem_zip] at hev
    exact (congrArg Prod.snd hev).symm

include hA hG hord hordR hfin ho hL hD in
/-- C88, main.  The eigensolver of main stops at a residual `δ e`.  Then every stored energy is within `δ e`, plus 1e-6 for
each term of the Hamiltonian, of an exact eigenvalue of the Hamiltonian between the allowed product states.  If the exact
eigenvalues near the energies that contribute to the spectra are separated by more than `g` from all others, there are exact
eigenvectors for them whose responses, for the Hamiltonian without any cutoff, main stores up to the stated errors. -/
theorem C88_main (hR : GauntRules L.gaunt) (hsolve : ExactSolver L.solve) {configs : Finset (Finset ℕ)}
    (hconf : ∀ F, F ∈ configs ↔ F ⊆ range (nTotal (pdSystem b)) ∧ IsConfiguration [(1, b 1), (2, b 2)] (pdSystem b) P F) :
    ∃ psis S, MainPrepared L A b P hx hy hz h0 o.energies psis S ∧
      (∀ v (hv : v < o.energies.length), ∃ lam y,
        IsEigenvector configs (elementOf (pdHamiltonian L.gaunt (position (pdSystem b)) A (P.n0 2) hx hy hz h0)) lam y ∧
        |o.energies[v] - lam| ≤ δ o.energies[v] + S.hOp.length * 1e-6) ∧
      ∀ (r g : ℝ) (lam : ℕ → ℝ), (∀ e ∈ S.es, δ e + S.hOp.length * 1e-6 ≤ r) → r < g →
        (∀ i (hi : i < S.es.length), Isolated configs
          (elementOf (pdHamiltonian L.gaunt (position (pdSystem b)) A (P.n0 2) hx hy hz h0)) S.es[i] (lam i) g) →
        (∀ i (hi : i < S.es.length), |S.es[i] - lam i| ≤ r) ∧
        ∃ x : ℕ → Vec ℂ, (∀ i < S.es.length, IsEigenvector configs
            (elementOf (pdHamiltonian L.gaunt (position (pdSystem b)) A (P.n0 2) hx hy hz h0)) (lam i) (x i)) ∧
          PDUncut b S (pdHamiltonian L.gaunt (position (pdSystem b)) A (P.n0 2) hx hy hz h0) x
            (stateError r g configs.card 1e-7) o.spectra := by
  obtain ⟨psis, S, hrun, hS, hout, hall⟩ := main_prepared hA hG hN hord hordR hfin ho hL hD
  have hW := mainRun_within hG hN hord hordR hD hR hsolve hrun hS hout (hall N hN ord hord ordRixs hordR).canFinish
  have hnear := prepared_near hL hrun hconf
  obtain ⟨hdict, hh⟩ := hrun.dict
  have hsz : size S = nTotal (pdSystem b) := by unfold size; rw [hrun.system]; rfl
  have hc : ∀ F ∈ configs, F ⊆ range (nTotal (pdSystem b)) := fun F hF => ((hconf F).1 hF).1
  have hH : pdHamiltonian L.gaunt (position (pdSystem b)) A (P.n0 2) hx hy hz h0 = operator (opSpec S.hOp) := by
    funext v F
    exact (hrun.hamiltonian v F).symm
  have hel : elementOf (operator (opSpec S.hOp)) = matrixElement S.hOp := rfl
  rw [hH, hel]
  have henergy := C88_each_energy hrun.inside hdict hh hL.nonneg hc hnear
  rw [sqrt_cut] at henergy
  refine ⟨psis, S, hrun, henergy, fun r g lam hr hg hiso => ⟨fun i hi => ?_, ?_⟩⟩
  · obtain ⟨v, hv, -, e1, -⟩ := kept_index hrun hnear.1 i hi
    obtain ⟨mu, y, h1, h2⟩ := henergy v hv
    have h3 : |o.energies[v] - mu| ≤ r := by
      refine h2.trans ?_
      rw [← e1]
      exact hr _ (List.getElem_mem _)
    rcases hiso i hi mu y h1 with rfl | h4
    · rw [e1]; exact h3
    · rw [e1, abs_sub_comm] at h4
      exact absurd (h4.trans h3) (not_le.2 hg)
  · have hst : ∀ i, ∃ y : Vec ℂ, (∀ F, F ∉ configs → y F = 0) ∧ (i < S.es.length → IsEigenvector configs (matrixElement S.hOp) (lam i) y ∧
        Spec.normSq (nTotal (pdSystem b)) (ampl (nTotal (pdSystem b)) (S.psis.getD i []) - y)
          ≤ stateError r g configs.card 1e-7 ^ 2) := by
      intro i
      by_cases hi : i < S.es.length
      · obtain ⟨v, hv, hv', e1, e2⟩ := kept_index hrun hnear.1 i hi
        have hri := hr _ (List.getElem_mem hi)
        obtain ⟨y, h1, h2⟩ := C88_each_state hrun.inside hdict hh hL.nonneg hc hnear (by norm_num) v hv hv' (lam := lam i) (g := g)
          (by rw [← e1]; exact hiso i hi) (by rw [sqrt_cut, ← e1]; exact hri.trans_lt hg)
        refine ⟨y, h1.inside, fun _ => ⟨h1, ?_⟩⟩
        rw [e2]
        refine h2.trans (pow_le_pow_left₀ ?_ ?_ 2)
        · unfold stateError
          have h3 : 0 ≤ δ o.energies[v] + S.hOp.length * Real.sqrt 1e-12 := add_nonneg (hL.nonneg _) (by positivity)
          have h4 : 0 ≤ g := by
            rw [sqrt_cut, ← e1] at h3
            exact (h3.trans hri).trans hg.le
          positivity
        · unfold stateError
          rw [sqrt_cut, ← e1]
          have h3 : 0 ≤ δ S.es[i] + S.hOp.length * (1e-6 : ℝ) := add_nonneg (hL.nonneg _) (by positivity)
          have h4 : 0 ≤ g := (h3.trans hri).trans hg.le
          gcongr
      · exact ⟨fun _ => 0, fun _ _ => rfl, fun h => absurd h hi⟩
    choose x hx1 hx2 using hst
    refine ⟨x, fun i hi => (hx2 i hi).1, ?_⟩
    obtain ⟨hne, hes⟩ := hrun.nonempty
    have h0 : 0 ≤ stateError r g configs.card 1e-7 := by
      obtain ⟨e, l, hel⟩ := List.exists_cons_of_ne_nil hes
      have h3 : 0 ≤ δ e + S.hOp.length * (1e-6 : ℝ) := add_nonneg (hL.nonneg _) (by positivity)
      have h4 : 0 ≤ r := h3.trans (hr e (by rw [hel]; simp))
      have h5 : 0 ≤ g := h4.trans hg.le
      unfold stateError
      positivity
    refine uncut_of_within hS hdict hh hW (fun F hF => by rw [hsz]; exact hc F hF) h0 ⟨hx1, fun i hi => ?_, fun i hi => ?_⟩
    · rw [hsz, ← (hx2 i hi).1.normalised]
      unfold Spec.normSq
      exact (sum_subset (fun F hF => mem_powerset.2 (hc F hF)) fun F _ hF => by rw [hx1 i F hF, Complex.normSq_zero]).symm
    · rw [hsz]
      exact (hx2 i hi).2

end

end

end Verif
