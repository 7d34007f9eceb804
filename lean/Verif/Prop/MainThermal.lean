/-
C85, main: what the energy cut changes.
-/
import Verif.Prop.Thermal
import Verif.Prop.Degenerate

namespace Verif

open Finset Mpi Psr Spec

noncomputable section

theorem thermal_of_isThermal {kB T : ℝ} (hT : kB * T ≠ 0) {es : List ℝ} (hne : es ≠ []) {x : ℕ → ℝ} {avg : ℝ}
    (h : IsThermal kB T es x avg) : thermalAverage kB es ((List.range es.length).map x) T = .ok avg := by
  have hl : es.length = ((List.range es.length).map x).length := by simp
  rw [C38_boltzmann kB es _ T hl hne hT]
  obtain ⟨h1, h2⟩ := boltzmann_sums kB es _ T hl
  rw [h1, h2]
  unfold IsThermal at h
  rw [h]
  congr 1
  rw [smul_eq_mul, inv_mul_eq_div]
  congr 1
  refine Finset.sum_congr rfl fun i _ => ?_
  rw [List.getElem_map, List.getElem_range, smul_eq_mul]

/-- C85, the average over the first `m` energies only. -/
theorem C85_energy_cut {kB T : ℝ} (hT : 0 < kB * T) {energies : List ℝ} {m : ℕ} (hm : 0 < m) (hm' : m ≤ energies.length) {cut : ℝ}
    (hcut : ∀ i (_ : m ≤ i) (hi : i < energies.length), cut * (kB * T) ≤ energies[i] - energies[0]'(by omega))
    {data : ℕ → ℝ} {avg : ℝ} (h : IsThermal kB T (energies.take m) data avg) : CutAverage kB T cut energies m data avg := by
  intro x D full hx hD hfull
  have hne : energies ≠ [] := by rintro rfl; simp at hm'; omega
  have hlen : (energies.take m).length = m := by rw [List.length_take]; omega
  have hne' : energies.take m ≠ [] := by
    intro hc
    rw [hc] at hlen
    simp at hlen
    omega
  have r := thermal_of_isThermal hT.ne' hne' h
  have r' := thermal_of_isThermal hT.ne' hne hfull
  have hdata : (List.range (energies.take m).length).map data = (List.range m).map x := by
    rw [hlen]
    exact List.map_congr_left fun i hi => (hx i (List.mem_range.1 hi)).symm
  have hsplit : (List.range energies.length).map x = (List.range m).map x ++ (List.range' m (energies.length - m)).map x := by
    rw [← List.map_append]
    congr 1
    rw [List.range_eq_range', List.range_eq_range', show energies.length = m + (energies.length - m) by omega,
      ← List.range'_append_1, show m + (energies.length - m) - m = energies.length - m by omega, Nat.zero_add]
  rw [hdata] at r
  rw [hsplit] at r'
  have r'' : thermalAverage kB (energies.take m ++ energies.drop m)
      ((List.range m).map x ++ (List.range' m (energies.length - m)).map x) T = .ok full := by
    rw [List.take_append_drop]; exact r'
  have key := C85_left_out hT (es := energies.take m) (es' := energies.drop m) (by rw [hlen]; simp) (by simp)
    (low := energies[0]'(by omega)) (cut := cut) (by
      rw [List.mem_iff_getElem]
      exact ⟨0, by omega, by rw [List.getElem_take]⟩) (by
      intro e he
      obtain ⟨i, hi, rfl⟩ := List.mem_iff_getElem.1 he
      rw [List.length_drop] at hi
      rw [List.getElem_drop]
      exact hcut (m + i) (by omega) (by omega)) (D := D) (by
      intro o ho o' ho'
      obtain ⟨i, hi, rfl⟩ := List.mem_map.1 ho
      obtain ⟨j, hj, rfl⟩ := List.mem_map.1 ho'
      rw [List.mem_range] at hi
      rw [List.mem_range'_1] at hj
      exact hD i hi j (by omega)) r r''
  rw [List.length_drop] at key
  exact key

/-- What the energy cut keeps. -/
theorem mainRun_cut {L : MainLib} {A : MainArgs} {b : ℕ → ℕ} {P : BasisParams} {hx hy hz : ℝ} {h0 : Op Label ℂ} {energies : List ℝ}
    {psis : List (Psi ℂ)} {S : SimulateArgs} (hrun : MainRun L A b P hx hy hz h0 energies psis S) :
    S.es = energies.take S.es.length ∧ 0 < S.es.length ∧ S.es.length ≤ energies.length ∧
      ∀ i (_ : S.es.length ≤ i) (hi : i < energies.length),
        A.energyCut * (L.kB * A.T) ≤ energies[i] - energies[0] := by
  have hsort := hrun.lowest.1
  have hl := hrun.lowest.2.1
  have h0' : 0 < energies.length := List.length_pos_iff.2 hrun.nonempty.1
  have hle : ∀ i j (hij : i ≤ j) (hj : j < energies.length), energies[i] ≤ energies[j] := by
    intro i j hij hj
    rcases hij.eq_or_lt with rfl | h
    · exact le_rfl
    · exact List.pairwise_iff_getElem.1 hsort i j (by omega) hj h
  have hz := hrun.kept.2 energies[0] (List.getElem_mem h0') (by
    intro e he
    obtain ⟨i, hi, rfl⟩ := List.mem_iff_getElem.1 he
    exact hle 0 i (by omega) hi)
  obtain ⟨k1, -, -⟩ := kept_take hsort hl hrun.kept.1 hz
  obtain ⟨m, hm, h1, h2, h3⟩ := sorted_filter energies[0] (A.energyCut * (L.kB * A.T)) (energies.zip psis) (by
    rw [List.map_fst_zip (by omega)]; exact hsort)
  have hzl : (energies.zip psis).length = energies.length := by rw [List.length_zip]; omega
  rw [hzl] at hm
  have hm' : S.es.length = m := by
    rw [h1] at hz
    have := congrArg List.length hz
    rw [List.length_zip, List.length_take, hzl, hrun.kept.1] at this
    omega
  refine ⟨k1, List.length_pos_iff.2 hrun.nonempty.2, by omega, fun i hmi hi => ?_⟩
  have h4 := h3 (by omega)
  rw [List.getElem_zip] at h4
  dsimp only at h4
  exact h4.trans (sub_le_sub_right (hle m i (by omega) hi) _)

section
variable {L : MainLib} {A : MainArgs} (hA : A.Valid) (hG : GauntLarge L.gaunt A.ls) {N : ℕ} (hN : 0 < N)
  {ord : Fin N → ℕ → ℕ → ℕ → SetOrders} (hord : ∀ k c t i, (ord k c t i).Valid)
  {ordRixs : Fin N → List ℕ → SetOrders} (hordR : ∀ k l, (ordRixs k l).Valid) {out : Fin N → Option MainOutput}
  (hfin : CanFinish msgSum (fun k : Fin N => mainRank L A (ord k) (ordRixs k) k.val N) out)
  {o : MainOutput} (ho : out ⟨0, hN⟩ = some o)
variable (hL : SolverCorrect L.solver) {b : ℕ → ℕ} {P : BasisParams} {hx hy hz : ℝ} {h0 : Op Label ℂ}
  (hD : Documented A b P hx hy hz h0)

include hA hG hord hordR hfin ho hL hD in
/-- C85, main.  The stored averages are, up to `exp(-energy_cut) D` for each computed state above the energy cut, those over all
computed states, where `D` bounds how much the intensities of a state below the cut and of any other state differ. -/
theorem C85_main (hR : GauntRules L.gaunt) (hsolve : ExactSolver L.solve) (hf : L.f32 50 = 50) (hT : 0 < L.kB * A.T) :
    ∃ psis S, MainRun L A b P hx hy hz h0 o.energies psis S ∧
      CutSpectra L.kB A.T A.energyCut o.energies S.es.length o.spectra := by
  obtain ⟨psis, S, hrun, hS, hsp⟩ := main_spectra hA hG hN hord hordR hfin ho hL hD hR hsolve hf
  obtain ⟨k1, k2, k3, k4⟩ := mainRun_cut hrun
  have hkB : S.kB = L.kB := hrun.args.library.2.2.2.2.2
  have hTT : S.T = A.T := hrun.args.T
  have key : ∀ (data : ℕ → ℝ) (avg : ℝ), IsThermal S.kB S.T S.es data avg →
      CutAverage L.kB A.T A.energyCut o.energies S.es.length data avg := by
    intro data avg h
    rw [hkB, hTT, k1] at h
    exact C85_energy_cut hT k2 k3 k4 h
  obtain ⟨t1, t2, t3, t4⟩ := hsp.tables
  exact ⟨psis, S, hrun, fun j k => key _ _ (t1.thermal j k), fun j k => key _ _ (t2.thermal j k),
    fun t k => key _ _ (t4.thermal t k), fun t k => key _ _ (t3.thermal t k), fun a c d k => key _ _ (hsp.rixsThermal a c d k)⟩

end

/-- A run of main. -/
example (sphHarm : SphHarm) (jn : SphericalJn) {T : ℝ} (hT : 0 < T) (radial : List (ℝ × ℝ)) : ∃ (L : MainLib) (o : MainOutput),
    ∃ psis S, MainRun L (holeArgs 0 T radial) (fun _ => 0) holeParams 0 0 0 (holeLevels 0) o.energies psis S ∧
      CutSpectra 1 T (holeArgs 0 T radial).energyCut o.energies S.es.length o.spectra := by
  obtain ⟨solver, hS, htot⟩ := exists_solver
  obtain ⟨o, ho⟩ := C64_example hS htot sphHarm jn one_pos hT radial
  have h1 := (ho 3 (by decide) (fun _ _ _ _ => holeOrders) (fun _ _ _ _ => holeOrders_valid) (fun _ _ => holeOrders)
    (fun _ _ => holeOrders_valid)).canFinish
  obtain ⟨psis, S, hrun, h⟩ := C85_main (holeArgs_valid 0 T radial) sympyGaunt_large (by decide)
    (fun _ _ _ _ => holeOrders_valid) (fun _ _ => holeOrders_valid) h1 rfl hS (holeArgs_documented 0 T radial)
    sympyGaunt_rules (holeSolve_exact solver sphHarm jn 1) rfl (by rw [show (holeLib solver sphHarm jn 1).kB = 1 from rfl, one_mul]; exact hT)
  exact ⟨_, o, psis, S, hrun, h⟩

end

end Verif
