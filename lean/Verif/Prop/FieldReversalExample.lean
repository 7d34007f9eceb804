/-
The hypotheses of C110 are met.
-/
import Verif.Prop.FieldReversal
import Verif.Lemmas.TimeReversalCF
import Verif.Lemmas.ClosedShellRun

namespace Verif

open Finset Mpi Psr Spec

noncomputable section

/-- The bath state is its own partner. -/
def cloPartner (i : ℕ) : ℕ := if i < 6 then 5 - i else if i < 16 then 21 - i else i

theorem clo_timeReversal : TimeReversal cloBaths cloParams cloPartner (cfPhase 0) := by
  constructor
  · intro l hl s hs m hm
    have hm := mem_Icc.1 hm
    simp only [mem_insert, mem_singleton] at hs
    simp only [List.mem_cons, List.not_mem_nil, or_false] at hl
    unfold position cfPhase
    dsimp only
    rcases hl with rfl | rfl
    · rw [pd_start1]
      push_cast at hm
      constructor
      · unfold cloPartner
        rw [if_pos (by rcases hs with rfl | rfl <;> simp <;> omega)]
        rcases hs with rfl | rfl <;> simp <;> omega
      · congr 1
        unfold cfCharge
        rw [if_pos (by rcases hs with rfl | rfl <;> simp <;> omega)]
        rcases hs with rfl | rfl <;> simp <;> omega
    · rw [pd_start2]
      push_cast at hm
      constructor
      · unfold cloPartner
        rcases hs with rfl | rfl
        · rw [if_neg (by simp), if_pos (by simp; omega)]
          simp; omega
        · rw [if_neg (by simp), if_pos (by simp; omega)]
          simp; omega
      · congr 1
        unfold cfCharge
        rcases hs with rfl | rfl
        · rw [if_neg (by simp), if_pos (by simp; omega)]
          simp; omega
        · rw [if_neg (by simp), if_pos (by simp; omega)]
          simp; omega
  · intro i hi
    rw [pd_total] at hi ⊢
    unfold cloPartner
    split_ifs <;> omega
  · intro i
    unfold cfPhase
    rw [norm_zpow, norm_neg, norm_one, one_zpow]
  · intro l hl i hi
    rw [pd_total] at hi
    simp only [List.mem_cons, List.not_mem_nil, or_false] at hl
    unfold valOrbs conOrbs cloPartner
    rcases hl with rfl | rfl
    · rw [pd_bath1]
      simp only [mem_Ico, cloParams, cloBaths]
      norm_num
      split_ifs <;> omega
    · rw [pd_bath2]
      simp only [mem_Ico, cloParams, cloBaths]
      norm_num
      split_ifs <;> omega

theorem cloLevels_operator (v : Vec ℂ) : operator (labelSpec (position cloSystem) cloLevels) v
    = fun F => ∑ i ∈ range 17, cloLevel i * create i (annihilate i v) F := by
  funext F
  have h1 : operator (labelSpec (position cloSystem) cloLevels) v F
      = ((List.range 17).map fun i => cloLevel i * create i (annihilate i v) F).sum := by
    unfold operator labelSpec cloLevels
    simp only [List.map_map]
    refine congrArg List.sum (List.map_congr_left fun i hi => ?_)
    simp [oneProcess, product, ladder, cloLabel_position i (List.mem_range.1 hi)]
  rw [h1, ← List.sum_toFinset _ List.nodup_range, List.toFinset_range]

theorem clo_invariant (v : Vec ℂ) :
    operator (labelSpec (position cloSystem) cloLevels) (reverse (nTotal cloSystem) cloPartner (cfPhase 0) v)
      = reverse (nTotal cloSystem) cloPartner (cfPhase 0) (operator (labelSpec (position cloSystem) cloLevels) v) := by
  have hR := clo_timeReversal
  have hp : ∀ i ∈ range 17, cloPartner i ∈ range 17 ∧ cloPartner (cloPartner i) = i := by
    intro i hi
    rw [mem_range] at hi ⊢
    unfold cloPartner
    split_ifs <;> omega
  rw [cloLevels_operator, cloLevels_operator, reverse_sum]
  funext F
  refine sum_nbij' cloPartner cloPartner (fun i hi => (hp i hi).1) (fun i hi => (hp i hi).1) (fun i hi => (hp i hi).2)
    (fun i hi => (hp i hi).2) fun i hi => ?_
  have hlt : cloPartner i < nTotal cloSystem := by rw [cloSystem_size]; exact mem_range.1 (hp i hi).1
  have hl : star (cloLevel (cloPartner i)) = cloLevel i := by
    have := mem_range.1 hi
    unfold cloLevel cloPartner
    split_ifs <;> first | omega | simp
  rw [hl, reverse_hop hR.partner hR.unit hlt hlt, (hp i hi).2, mul_comm (cfPhase 0 _), unit_star hR.unit, one_smul]

/-- The ground state of the example is normalised, the other state is at least 4 above it. -/
theorem clo_ground {μ : ℤ} [CloField μ] {L : MainLib} (hL : L.gaunt = sympyGaunt) {T : ℝ} {energies : List ℝ} {psis : List (Psi ℂ)}
    {S : SimulateArgs} (hrun : MainRun L (cloArgs μ T) cloBaths cloParams 0 0 (μ : ℝ) cloLevels energies psis S) :
    energies.length = 2 ∧ energies.getD 0 0 + 4 ≤ energies.getD 1 0 ∧
    ∑ F ∈ (range (nTotal cloSystem)).powerset, Complex.normSq (ampl (nTotal cloSystem) (psis.getD 0 []) F) = 1 := by
  classical
  have hcount : energies.length = 2 := hrun.count
  have hlow := hrun.lowest
  rw [show nTotal (pdSystem cloBaths) = 17 from cloSystem_size] at hlow
  have hD : DiagonalOp 17 S.hOp 1e-12 (cloEnergy μ) := clo_diagonal fun v F hF => by
    rw [hrun.hamiltonian v F]
    exact clo_pdHamiltonian L.gaunt μ T v hF
  have hlow' : LowestStates 17 S.hOp 1e-12 1e-7 cloStates.toFinset energies psis := by
    rw [← clo_filter hL]
    convert hlow using 2
    exact Iff.rfl
  have hlp := hlow'.2.1
  obtain ⟨he0, ⟨y, hy, hy1⟩, hgap⟩ := clo_lowest hD hlow' (by omega) (by omega)
  obtain ⟨e0, e1, rfl⟩ := List.length_eq_two.1 hcount
  obtain ⟨psi0, psi1, rfl⟩ := List.length_eq_two.1 (hlp.trans hcount)
  have hy : ampl 17 psi0 = Spec.single (range 16) y := hy
  refine ⟨hcount, hgap 1 (by simp) one_pos, ?_⟩
  rw [cloSystem_size]
  show ∑ F ∈ (range 17).powerset, Complex.normSq (ampl 17 psi0 F) = 1
  rw [hy, Finset.sum_eq_single (range 16)]
  · rw [show Spec.single (range 16) y (range 16) = y from if_pos rfl, hy1]
  · intro F _ hne
    rw [show Spec.single (range 16) y F = 0 from if_neg hne, Complex.normSq_zero]
  · intro hn
    exact absurd (mem_powerset.2 (range_subset_range.2 (by norm_num))) hn

example : HarmonicsSymmetric fun m _ φ _ => (if 0 ≤ m then 1 else (-1) ^ m) * Complex.exp (m * φ * Complex.I) := by
  intro m k φ θ
  have h1 : ∀ n : ℤ, star ((-1 : ℂ) ^ n) = (-1) ^ n := fun n => by simp
  have h2 : star (Complex.exp (m * φ * Complex.I)) = Complex.exp (((-m : ℤ) : ℂ) * φ * Complex.I) := by
    rw [show star (Complex.exp (m * φ * Complex.I)) = Complex.exp (star (m * φ * Complex.I)) from (Complex.exp_conj _).symm]
    congr 1
    simp
  have h3 : (-1 : ℂ) ^ m * (-1) ^ (-m) = 1 := by
    rw [← zpow_add₀ (by norm_num : (-1 : ℂ) ≠ 0), add_neg_cancel, zpow_zero]
  rw [star_mul', h2, ← mul_assoc]
  congr 1
  rcases lt_trichotomy m 0 with h | h | h
  · rw [if_neg (by omega), if_pos (by omega), h1, mul_one]
  · subst h; simp
  · rw [if_pos (by omega), if_neg (by omega), h3, star_one]

/-- The hypotheses of C110_printed and C110_spectra are met, for all pairs of correct solvers: three ranks with the field along z and
five ranks with the opposite field. -/
example {solver solver' : EigenSolver} (hS : SolverCorrect solver) (hS' : SolverCorrect solver')
    (htot : ∀ H d k, k < d → ∃ p, solver.eigsh H d k = .ok p) (htot' : ∀ H d k, k < d → ∃ p, solver'.eigsh H d k = .ok p)
    {sphHarm : SphHarm} (hY : HarmonicsSymmetric sphHarm) (jn : SphericalJn) {kB : ℝ} (hk : 0 < kB) (hcold : 10 * (kB * 300) ≤ 4) :
    ∃ o o' : MainOutput,
      CanFinish msgSum (fun k : Fin 3 => mainRank (holeLib solver sphHarm jn kB) (cloArgs 1 300) (fun _ _ _ => holeOrders)
        (fun _ => holeOrders) k.val 3) (fun k => if k.val = 0 then some o else none) ∧
      CanFinish msgSum (fun k : Fin 5 => mainRank (holeLib solver' sphHarm jn kB) (cloArgs (-1) 300)
        (fun _ _ _ => holeOrders) (fun _ => holeOrders) k.val 5) (fun k => if k.val = 0 then some o' else none) ∧
      o'.energies = o.energies ∧ ReversedMeans o.thermal o'.thermal ∧ ReversedSpectra o.spectra o'.spectra := by
  have hT : (0 : ℝ) < 300 := by norm_num
  obtain ⟨o, ho⟩ := clo_finishes 1 hS htot sphHarm jn hk hT hcold
  obtain ⟨o', ho'⟩ := clo_finishes (-1) hS' htot' sphHarm jn hk hT hcold
  have h1 := (ho 3 (by decide) (fun _ _ _ _ => holeOrders) (fun _ _ _ _ => holeOrders_valid) (fun _ _ => holeOrders)
    (fun _ _ => holeOrders_valid)).canFinish
  have h2 := (ho' 5 (by decide) (fun _ _ _ _ => holeOrders) (fun _ _ _ _ => holeOrders_valid) (fun _ _ => holeOrders)
    (fun _ _ => holeOrders_valid)).canFinish
  have hz : ((-1 : ℤ) : ℝ) = -((1 : ℤ) : ℝ) := by norm_num
  have hD' : Documented (cloArgs (-1) 300) cloBaths cloParams (-0) (-0) (-((1 : ℤ) : ℝ)) cloLevels := by
    rw [← hz, neg_zero]
    exact cloArgs_documented (-1) 300
  have back : ∀ {es : List ℝ} {psis : List (Psi ℂ)} {S : SimulateArgs},
      MainRun (holeLib solver' sphHarm jn kB) (cloArgs (-1) 300) cloBaths cloParams (-0) (-0) (-((1 : ℤ) : ℝ)) cloLevels es psis S →
      MainRun (holeLib solver' sphHarm jn kB) (cloArgs (-1) 300) cloBaths cloParams 0 0 ((-1 : ℤ) : ℝ) cloLevels es psis S := by
    intro es psis S r
    rw [hz]
    rwa [neg_zero] at r
  obtain ⟨psis, S, psis', S', r1, r2, hg, hmain⟩ := C110_printed (cloArgs_valid 1 300) sympyGaunt_large (by decide) (by decide)
    (fun _ _ _ _ => holeOrders_valid) (fun _ _ => holeOrders_valid) h1 rfl
    (fun _ _ _ _ => holeOrders_valid) (fun _ _ => holeOrders_valid) h2 rfl hS hS' rfl (cloArgs_documented 1 300) hD' rfl rfl
    sympyGaunt_symmetric
  obtain ⟨psis2, S2, psis2', S2', r3, r4, -, -, hmain2⟩ := C110_spectra (cloArgs_valid 1 300) sympyGaunt_large (by decide) (by decide)
    (fun _ _ _ _ => holeOrders_valid) (fun _ _ => holeOrders_valid) h1 rfl
    (fun _ _ _ _ => holeOrders_valid) (fun _ _ => holeOrders_valid) h2 rfl hS hS' rfl (cloArgs_documented 1 300) hD' rfl rfl
    sympyGaunt_symmetric rfl rfl sympyGaunt_rules (holeSolve_exact solver sphHarm jn kB) (holeSolve_exact solver' sphHarm jn kB)
    rfl rfl hY
  obtain ⟨k1, k2, k3⟩ := clo_resolved (L := holeLib solver sphHarm jn kB) rfl hT hk hcold r3
  obtain ⟨-, k2', k3'⟩ := clo_resolved (L := holeLib solver' sphHarm jn kB) rfl hT hk hcold (back r4)
  have hsz : size S2' = size S2 := by unfold size; rw [r3.system, r4.system]
  obtain ⟨e1, -, e2, e3⟩ := hmain _ _ clo_timeReversal clo_invariant
  obtain ⟨g1, g2, g3⟩ := clo_ground (L := holeLib solver sphHarm jn kB) rfl r1
  obtain ⟨-, -, g3'⟩ := clo_ground (L := holeLib solver' sphHarm jn kB) rfl (back r2)
  refine ⟨o, o', h1, h2, e1, ?_, hmain2 _ _ clo_timeReversal clo_invariant k1 (fun psi hp => ?_) k3 k3'⟩
  · obtain ⟨x0, x1, hx⟩ := List.length_eq_two.1 g1
    rw [hx] at g2 hg e3
    have g2 : x0 + 4 ≤ x1 := g2
    have h0 : o.expValues.1 ≤ x0 := hg.2 x0 (by simp)
    have hx0 : o.expValues.1 = x0 := by
      rcases List.mem_cons.1 hg.1 with h | h
      · exact h
      · rw [List.mem_singleton.1 h] at h0
        linarith
    have hlow : 10 * kB * 300 ≤ 4 := by linarith
    refine e3 ⟨x1, by simp, by rw [hx0]; show 10 * kB * 300 ≤ _; linarith⟩ fun i hi hw psi hp => ?_
    have hi : i < 2 := hi
    interval_cases i
    · simp only [List.mem_cons, List.not_mem_nil, or_false] at hp
      rcases hp with rfl | rfl
      · exact g3
      · exact g3'
    · rw [hx0] at hw
      have hw : x1 - x0 < 10 * kB * 300 := hw
      linarith
  · rcases List.mem_append.1 hp with hp | hp
    · exact k2 psi hp
    · rw [← hsz]; exact k2' psi hp

end

end Verif
