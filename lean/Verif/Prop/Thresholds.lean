/-
C106: a spectrum has its intensity where there are energies.
-/
import Verif.Lemmas.Thresholds
import Verif.Prop.LevelsExample
import Verif.Prop.PhotoCount

namespace Verif

open Spec Finset Psr Mpi

noncomputable section

/-! ### Lanczos vectors -/

/-- C106, any calculation with Lanczos vectors.  Let `V` be a set of states that is closed under superpositions and under a Hermitian
Hamiltonian.  If all expectation values of the Hamiltonian in `V` are between `lo` and `hi`, then a spectrum of a state of `V` with
the moments of C96 has all its energies between `lo` and `hi`. -/
theorem C106_energies {n : ℕ} {H : Vec ℂ → Vec ℂ} (hlin : IsLinearMap ℂ H) (V : Submodule ℂ (Vec ℂ)) (hV : ∀ u ∈ V, H u ∈ V)
    (hsym : ∀ u ∈ V, ∀ w ∈ V, innerProduct n (H u) w = innerProduct n u (H w)) {lo hi : ℝ}
    (hb : ∀ u ∈ V, lo * Spec.normSq n u ≤ (innerProduct n u (H u)).re ∧ (innerProduct n u (H u)).re ≤ hi * Spec.normSq n u)
    {v : Vec ℂ} (hv : v ∈ V) {k : ℕ} {L : List (ℝ × ℝ)} (hL : IsGauss n H v k L) :
    ∀ p ∈ L, 0 ≤ p.2 ∧ (p.2 ≠ 0 → lo ≤ p.1 ∧ p.1 ≤ hi) := by
  intro p hp
  refine ⟨hL.2.1 p hp, fun hw => ⟨?_, ?_⟩⟩
  · have := gauss_support (IsLinearMap.mk' H hlin) V hV hsym hv hL 1 (-lo) (fun u hu => by
      have := (hb u hu).1
      change 0 ≤ 1 * (innerProduct n u (H u)).re + -lo * Spec.normSq n u
      linarith) hp hw
    linarith
  · have := gauss_support (IsLinearMap.mk' H hlin) V hV hsym hv hL (-1) hi (fun u hu => by
      have := (hb u hu).2
      change 0 ≤ -1 * (innerProduct n u (H u)).re + hi * Spec.normSq n u
      linarith) hp hw
    linarith

/-- C106, the shape.  Such a spectrum is not negative, at most its weight divided by the broadening, and outside of the range of its
energies at most the tail of a Lorentzian. -/
theorem C106_tail {L : List (ℝ × ℝ)} {lo hi x δ D : ℝ} (hδ : 0 < δ) (hL : ∀ p ∈ L, 0 ≤ p.2 ∧ (p.2 ≠ 0 → lo ≤ p.1 ∧ p.1 ≤ hi))
    (h : Outside lo hi x D) : 0 ≤ -(lehmann L ((x : ℂ) + Complex.I * δ)).im ∧
      -(lehmann L ((x : ℂ) + Complex.I * δ)).im ≤ totalWeight L * lorentzian δ D := lehmann_outside hδ hL h

/-! ### main -/

/-- The allowed states with `k` electrons in `O`. -/
def sectorStates (S : SimulateArgs) (O : Finset ℕ) (k : ℤ) : Submodule ℂ (Vec ℂ) where
  carrier := {v | (∀ F, v F ≠ 0 → F ⊆ range (size S) ∧ AllowedOpt S.restrictions F) ∧ InSector O k v}
  zero_mem' := ⟨fun F h => absurd rfl h, inSector_zero k⟩
  add_mem' := by
    rintro v w ⟨v1, v2⟩ ⟨w1, w2⟩
    refine ⟨fun F h => ?_, v2.add w2⟩
    by_cases h0 : v F = 0
    · refine w1 F fun h1 => h ?_
      rw [Pi.add_apply, h0, h1, add_zero]
    · exact v1 F h0
  smul_mem' := by
    rintro c v ⟨v1, v2⟩
    exact ⟨fun F h => v1 F fun h0 => h (by rw [Pi.smul_apply, h0, smul_zero]), v2.smul c⟩

theorem Spec.ConservedNumber.levelShift {b : ℕ → ℕ} {P : BasisParams} {h0 : Op Label ℂ} {O : Finset ℕ} {m p d : ℤ}
    (h : ConservedNumber b P h0 O m p d) : LevelShift b P h0 h0 O 0 m p d :=
  ⟨h.core, h.valence, h.conserved, h.filling, fun v F => by simp⟩

section
variable {b : ℕ → ℕ} {P : BasisParams} {h0 : Op Label ℂ} {O : Finset ℕ} {m p d : ℤ} (hC : ConservedNumber b P h0 O m p d)
  {L : MainLib} {A : MainArgs} {hx hy hz : ℝ} {energies : List ℝ} {psis : List (Psi ℂ)} {S : SimulateArgs}
  (hrun : MainRun L A b P hx hy hz h0 energies psis S)

include hC hrun in
theorem sector_stays {k : ℤ} {u : Vec ℂ} (hu : u ∈ sectorStates S O k) : hamilton S u ∈ sectorStates S O k := by
  have key : ∀ F, hamilton S u F ≠ 0 → F ⊆ range (size S) ∧ AllowedOpt S.restrictions F ∧ ((F ∩ O).card : ℤ) = k := by
    intro F hF
    unfold hamilton hamiltonian at hF
    by_cases hs : F ⊆ range (size S)
    swap
    · rw [if_neg hs] at hF; exact absurd rfl hF
    rw [if_pos hs] at hF
    obtain ⟨T, -, hT⟩ := exists_ne_zero_of_sum_ne_zero hF
    have h1 := left_ne_zero_of_mul hT
    have h2 := right_ne_zero_of_mul hT
    unfold column at h1
    split at h1
    · rename_i hc
      refine ⟨hs, hc.1, ?_⟩
      rw [levels_sector hC.levelShift hrun h1]
      exact hu.2 T h2
    · exact absurd rfl h1
  exact ⟨fun F hF => ⟨(key F hF).1, (key F hF).2.1⟩, fun F hF => (key F hF).2.2⟩

include hC hrun in
theorem excite_sector {T : Vec ℂ → Vec ℂ} {q : ℤ} (hT : Carries O q T) {i : ℕ} (hi : i < S.es.length) :
    excite S T i ∈ sectorStates S O (m + q) := by
  obtain ⟨hst, hconf⟩ := kept_configuration hrun hi
  refine ⟨fun F hF => ?_, exciteVec_carries hT _ _ fun F hF => ?_⟩
  · unfold excite exciteVec excited at hF
    split at hF
    · rename_i h; exact ⟨h.1, h.2.1⟩
    · exact absurd rfl hF
  · refine hC.filling F ?_ (hconf F hF).1
    have hsz : size S = nTotal (pdSystem b) := by unfold size; rw [hrun.system]; rfl
    rw [← hsz]
    by_contra hn
    exact hF (ampl_of_not_subset hn)

include hC hrun in
/-- The energies of a spectrum of main. -/
theorem main_energies {T : Vec ℂ → Vec ℂ} {q : ℤ} (hT : Carries O q T) {i : ℕ} (hi : i < S.es.length) {lo hi' : ℝ}
    (hb : EnergiesBetween S O (m + q) lo hi') {k : ℕ} {G : List (ℝ × ℝ)} (hG : IsGauss (size S) (hamilton S) (excite S T i) k G) :
    ∀ p ∈ G, 0 ≤ p.2 ∧ (p.2 ≠ 0 → lo ≤ p.1 ∧ p.1 ≤ hi') := by
  have hsz : size S = nTotal (pdSystem b) := by unfold size; rw [hrun.system]; rfl
  refine C106_energies (hamiltonian_linear _ _ _ _) (sectorStates S O (m + q)) (fun u hu => sector_stays hC hrun hu)
    (fun u hu w hw => ?_) (fun u hu => hb u hu.1 hu.2) (excite_sector hC hrun hT hi) hG
  have key : ∀ v : Vec ℂ, v ∈ sectorStates S O (m + q) → ∀ F, ¬ (F ⊆ range (size S) ∧ AllowedOpt S.restrictions F) → v F = 0 := by
    intro v hv F hF
    by_contra h
    exact hF (hv.1 F h)
  exact hamiltonian_symmetric hrun.dict.1 (by rw [hsz]; exact hrun.inside) hrun.dict.2 _ _ (key w hw) (key u hu)

end

section
variable {L : MainLib} {A : MainArgs} (hA : A.Valid) (hG : GauntLarge L.gaunt A.ls) {N : ℕ} (hN : 0 < N)
  {ord : Fin N → ℕ → ℕ → ℕ → SetOrders} (hord : ∀ k c t i, (ord k c t i).Valid)
  {ordRixs : Fin N → List ℕ → SetOrders} (hordR : ∀ k l, (ordRixs k l).Valid) {out : Fin N → Option MainOutput}
  (hfin : CanFinish msgSum (fun k : Fin N => mainRank L A (ord k) (ordRixs k) k.val N) out)
  {o : MainOutput} (ho : out ⟨0, hN⟩ = some o)
  (hL : SolverCorrect L.solver) {b : ℕ → ℕ} {P : BasisParams} {hx hy hz : ℝ} {h0 : Op Label ℂ}
  (hD : Documented A b P hx hy hz h0)

include hA hG hord hordR hfin ho hL hD in
/-- C106, `main`.  Let the number of electrons in `O` be conserved, for instance that of all electrons or that of the p shell, and let
`lo k` and `hi k` be bounds of the energies with `k` electrons in `O`.  At each energy of the mesh the stored photoemission, XPS, XAS
and NIXS of a finished run are not negative and at most the weight times a Lorentzian in the distance to the energies of the states
with the right number of electrons: there is no intensity below the threshold. -/
theorem C106_main (hR : GauntRules L.gaunt) (hδ : 0 < A.delta) (hδ' : 0 < A.deltaNIXS) :
    ∃ psis S, MainRun L A b P hx hy hz h0 o.energies psis S ∧
      ∀ O m p d, ConservedNumber b P h0 O m p d → ∀ lo hi : ℤ → ℝ, (∀ k, EnergiesBetween S O k (lo k) (hi k)) →
      ∀ i < S.es.length, ∀ e, e = S.es.getD i 0 →
      (∀ j < 10, ∀ x, x = impStart (pdSystem b) 2 + j → ∀ k (hk : k < S.w.length) (D D' : ℝ),
        Outside (lo (m + d)) (hi (m + d)) (S.w[k] + e) D → Outside (lo (m - d)) (hi (m - d)) (-S.w[k] + e) D' →
        0 ≤ o.spectra.ps.data i j k ∧
        o.spectra.ps.data i j k ≤ normSq (size S) (excite S (create x) i) * lorentzian A.delta D
          + normSq (size S) (excite S (annihilate x) i) * lorentzian A.delta D' ∧
        o.spectra.ps.data i j k ≤ normSq (size S) (ampl (size S) (S.psis.getD i [])) * lorentzian A.delta (min D D')) ∧
      (∀ j < 6, ∀ x, x = impStart (pdSystem b) 1 + j → ∀ k (hk : k < S.w.length) (D : ℝ),
        Outside (lo (m - p)) (hi (m - p)) (-S.w[k] + e) D →
        0 ≤ o.spectra.xps.data i j k ∧
        o.spectra.xps.data i j k ≤ normSq (size S) (excite S (annihilate x) i) * lorentzian A.delta D) ∧
      (∀ t (ht : t < S.epsilons.length), ∀ k (hk : k < S.w.length) (D : ℝ),
        Outside (lo (m + (d - p))) (hi (m + (d - p))) (S.w[k] + e) D →
        0 ≤ o.spectra.xas.data i t k ∧
        o.spectra.xas.data i t k
          ≤ normSq (size S) (excite S (dipolePD S.gaunt b S.epsilons[t]) i) * lorentzian A.delta D) ∧
      ∀ t < 2, ∀ q : ℝ, q = (if t = 0 then 2 else 7) → NoSmall (size S) (planeWaveDD S b q) S.slaterWeightMin S.restrictions →
        ∀ k (hk : k < S.wLoss.length) (D : ℝ), Outside (lo m) (hi m) (S.wLoss[k] + e) D →
        0 ≤ o.spectra.nixs.data i t k ∧
        o.spectra.nixs.data i t k ≤ normSq (size S) (excite S (planeWaveDD S b q) i) * lorentzian A.deltaNIXS D := by
  obtain ⟨psis, S, hrun, hM⟩ := C96_main hA hG hN hord hordR hfin ho hL hD hR
  refine ⟨psis, S, hrun, fun O m p d hC lo hi hb i hi' e he => ?_⟩
  have hd := hrun.args.delta
  have hd' := hrun.args.deltaNIXS
  have hsz : size S = nTotal (pdSystem b) := by unfold size; rw [hrun.system]; rfl
  have z1 : ∀ w : ℝ, ∀ δ : ℝ, (w : ℂ) + Complex.I * (δ : ℂ) + (e : ℂ) = ((w + e : ℝ) : ℂ) + Complex.I * (δ : ℂ) := fun w δ => by
    push_cast; ring
  have z2 : ∀ w : ℝ, ∀ δ : ℝ, -((w : ℂ) + Complex.I * (δ : ℂ)) + (e : ℂ) = ((-w + e : ℝ) : ℂ) - Complex.I * (δ : ℂ) := fun w δ => by
    push_cast; ring
  refine ⟨fun j hj x hx k hk D D' h1 h2 => ?_, fun j hj x hx k hk D h1 => ?_, fun t ht k hk D h1 => ?_,
    fun t ht q hq hsm k hk D h1 => ?_⟩
  · obtain ⟨add, rem, g1, g2, g3⟩ := hM.photoemission i j hi' hj x hx
    have hmem : x ∈ impOrbs (pdSystem b) 2 := by
      unfold impOrbs
      rw [pd_start2] at hx ⊢
      rw [mem_Ico]; omega
    have c1 := create_carries (O := O) x
    have c2 := annihilate_carries (O := O) x
    rw [hC.valence.value hmem] at c1 c2
    have r1 := main_energies hC hrun c1 hi' (hb _) g1
    have r2 := main_energies hC hrun c2 hi' (hb _) g2
    have t1 := lehmann_outside hδ r1 h1
    have t2 := lehmann_outside_neg hδ r2 (by rw [← sub_eq_add_neg]; exact h2)
    have hv := g3 k hk
    rw [← he, hd, z1, z2] at hv
    rw [gauss_weight (by norm_num) g1] at t1
    rw [gauss_weight (by norm_num) g2] at t2
    have hxs : x < size S := by
      rw [hsz, pd_total, hx, pd_start2]; omega
    have hsum := (C72_sum_rule S i x hxs).1
    rw [hv]
    refine ⟨add_nonneg t1.1 t2.1, add_le_add t1.2 t2.2, (add_le_add t1.2 t2.2).trans ?_⟩
    have m1 : lorentzian A.delta D ≤ lorentzian A.delta (min D D') :=
      lorentzian_le hδ (le_min h1.1 h2.1) ((min_le_left _ _).trans (le_abs_self _))
    have m2 : lorentzian A.delta D' ≤ lorentzian A.delta (min D D') :=
      lorentzian_le hδ (le_min h1.1 h2.1) ((min_le_right _ _).trans (le_abs_self _))
    have m0 : 0 ≤ lorentzian A.delta (min D D') := by unfold lorentzian; positivity
    refine (add_le_add (mul_le_mul_of_nonneg_left m1 (normSq_nonneg _ _)) (mul_le_mul_of_nonneg_left m2 (normSq_nonneg _ _))).trans ?_
    rw [← add_mul]
    exact mul_le_mul_of_nonneg_right hsum m0
  · obtain ⟨rem, g2, g3⟩ := hM.xps i j hi' hj x hx
    have hmem : x ∈ impOrbs (pdSystem b) 1 := by
      unfold impOrbs
      rw [pd_start1] at hx ⊢
      rw [mem_Ico]; omega
    have c2 := annihilate_carries (O := O) x
    rw [hC.core.value hmem] at c2
    have r2 := main_energies hC hrun c2 hi' (hb _) g2
    have t2 := lehmann_outside_neg hδ r2 (by rw [← sub_eq_add_neg]; exact h1)
    have hv := g3 k hk
    rw [← he, hd, z2] at hv
    rw [gauss_weight (by norm_num) g2] at t2
    rw [hv]
    exact t2
  · obtain ⟨G, g2, g3⟩ := hM.xas i t hi' ht
    have r2 := main_energies hC hrun (between_carries hC.valence hC.core _) hi' (hb _) g2
    have t2 := lehmann_outside hδ r2 h1
    have hv := g3 k hk
    rw [← he, hd, z1] at hv
    rw [gauss_weight (by norm_num) g2] at t2
    rw [hv]
    exact t2
  · obtain ⟨G, g2, g3⟩ := hM.nixs i t hi' ht q hq hsm
    have r2 := main_energies hC hrun (planeWaveDD_carries hC.valence q) hi' (by rw [add_zero]; exact hb m) g2
    have t2 := lehmann_outside hδ' r2 h1
    have hv := g3 k hk
    rw [← he, hd', z1] at hv
    rw [gauss_weight (by norm_num) g2] at t2
    rw [hv]
    exact t2

end

/-! ### Non-vacuity -/

theorem hole_energies {L : MainLib} {T : ℝ} {radial : List (ℝ × ℝ)} {energies : List ℝ} {psis : List (Psi ℂ)} {S : SimulateArgs}
    (hrun : MainRun L (holeArgs 0 T radial) (fun _ => 0) holeParams 0 0 0 (holeLevels 0) energies psis S) (O : Finset ℕ) (k : ℤ) :
    EnergiesBetween S O k 0 16 := by
  have hD : DiagonalOp 16 S.hOp 1e-12 (holeEnergy 0) := hole_diagonal fun v F hF => by
    rw [hrun.hamiltonian v F]
    exact hole_pdHamiltonian L.gaunt 0 T radial v hF
  have hsz : size S = 16 := by unfold size; rw [hrun.system]; exact holeSystem_size
  intro v hv _
  have hval : ∀ F ∈ (range (size S)).powerset, hamilton S v F = holeEnergy 0 F * v F := by
    intro F hF
    rw [mem_powerset] at hF
    have hF' : F ⊆ range 16 := by rw [← hsz]; exact hF
    unfold hamilton hamiltonian
    rw [if_pos hF, sum_eq_single F]
    · by_cases h0 : v F = 0
      · rw [h0, mul_zero, mul_zero]
      · unfold column
        rw [hD.element F hF' F hF', if_pos rfl]
        rcases hD.large F hF' with h | h
        · simp [h]
        · rw [if_pos ⟨(hv F h0).2, by rw [hrun.args.cutoffs.2.2]; exact h⟩]
    · intro G hG hne
      rw [mem_powerset, hsz] at hG
      unfold column
      rw [hD.element F hF' G hG]
      simp [hne.symm]
    · intro h; exact absurd (mem_powerset.2 hF) h
  have hre : ∀ F, (holeEnergy 0 F) = (((∑ i ∈ F, 2 ^ i : ℕ) / 4096 : ℝ) : ℂ) := by
    intro F; unfold holeEnergy; simp
  have hlt : ∀ F ∈ (range (size S)).powerset, ((∑ i ∈ F, 2 ^ i : ℕ) / 4096 : ℝ) ≤ 16 := by
    intro F hF
    rw [mem_powerset, hsz] at hF
    have h1 : ∑ i ∈ F, 2 ^ i ≤ ∑ i ∈ range 16, 2 ^ i := sum_le_sum_of_subset hF
    have h2 : ∑ i ∈ range 16, 2 ^ i = 65535 := by decide
    rw [h2] at h1
    have h3 : ((∑ i ∈ F, 2 ^ i : ℕ) : ℝ) ≤ 65535 := by exact_mod_cast h1
    linarith
  have hsum : (innerProduct (size S) v (hamilton S v)).re
      = ∑ F ∈ (range (size S)).powerset, ((∑ i ∈ F, 2 ^ i : ℕ) / 4096 : ℝ) * Complex.normSq (v F) := by
    unfold innerProduct
    rw [Complex.re_sum]
    refine sum_congr rfl fun F hF => ?_
    rw [hval F hF, hre, mul_left_comm, show star (v F) * v F = ((Complex.normSq (v F) : ℝ) : ℂ) from (Complex.normSq_eq_conj_mul_self).symm,
      ← Complex.ofReal_mul, Complex.ofReal_re]
  rw [hsum]
  constructor
  · rw [zero_mul]
    exact sum_nonneg fun F _ => mul_nonneg (by positivity) (Complex.normSq_nonneg _)
  · unfold Spec.normSq
    rw [mul_sum]
    exact sum_le_sum fun F hF => mul_le_mul_of_nonneg_right (hlt F hF) (Complex.normSq_nonneg _)

theorem hole_conserved : ConservedNumber (fun _ => 0) holeParams (holeLevels 0) (impOrbs holeSystem 1) 6 1 0 :=
  ⟨(hole_levelShift 0).core, (hole_levelShift 0).valence, (hole_levelShift 0).conserved, (hole_levelShift 0).filling⟩

/-- The hypotheses of `C106_main` are met: three ranks, any temperature.  All energies are between 0 and 16, and x-ray absorption
falls off as the tail of a Lorentzian. -/
example (sphHarm : SphHarm) (jn : SphericalJn) (T : ℝ) (hT : 0 < T) (radial : List (ℝ × ℝ)) :
    ∃ (L : MainLib) (o : MainOutput) (psis : _) (S : _),
      MainRun L (holeArgs 0 T radial) (fun _ => 0) holeParams 0 0 0 (holeLevels 0) o.energies psis S ∧ 0 < S.es.length ∧
      ∀ i < S.es.length, ∀ t (ht : t < S.epsilons.length), ∀ k (hk : k < S.w.length) (D : ℝ), 0 ≤ D →
        16 + D ≤ S.w[k] + S.es.getD i 0 → 0 ≤ o.spectra.xas.data i t k ∧
        o.spectra.xas.data i t k
          ≤ Spec.normSq (size S) (excite S (dipolePD S.gaunt (fun _ => 0) S.epsilons[t]) i) * lorentzian (1 / 5) D := by
  obtain ⟨solver, hS, htot⟩ := exists_solver
  obtain ⟨o, ho⟩ := C64_example hS htot sphHarm jn one_pos hT radial
  have h1 := (ho 3 (by decide) (fun _ _ _ _ => holeOrders) (fun _ _ _ _ => holeOrders_valid) (fun _ _ => holeOrders)
    (fun _ _ => holeOrders_valid)).canFinish
  obtain ⟨psis, S, hrun, hsp⟩ := C106_main (holeArgs_valid 0 T radial) sympyGaunt_large (by decide)
    (fun _ _ _ _ => holeOrders_valid) (fun _ _ => holeOrders_valid) h1 rfl hS (holeArgs_documented 0 T radial)
    sympyGaunt_rules (by change (0 : ℝ) < 1 / 5; norm_num) (by change (0 : ℝ) < 1 / 10; norm_num)
  refine ⟨_, o, psis, S, hrun, List.length_pos_iff.2 hrun.nonempty.2, fun i hi t ht k hk D hD hx => ?_⟩
  exact (hsp _ 6 1 0 hole_conserved (fun _ => 0) (fun _ => 16) (hole_energies hrun _) i hi _ rfl).2.2.1 t ht k hk D
    ⟨hD, Or.inr (Or.inr hx)⟩

end

end Verif
