/-
C103: the sum rules of x-ray absorption.
-/
import Verif.Lemmas.SumRules
import Verif.Prop.Transitions
import Verif.Prop.Moments
import Verif.Lemmas.Levels
import Verif.Prop.MainExample

namespace Verif

open Finset Mpi Psr Spec

noncomputable section

section
variable {gaunt : GauntFun} (hT : DipoleTable gaunt) (nBaths : Dict ℕ ℕ) {b1 b2 : ℕ} (hb : nBaths = [(1, b1), (2, b2)]) {v : Vec ℂ}
  (hv : FullShell (position (intKeys nBaths)) 1 v)

include hT hb hv in
/-- C103, the weights in front of a full p shell: `|T_x v|² + |T_y v|² + |T_z v|²` is 2/5 times the number of d holes,
`|T_+ v|² - |T_- v|²` is -1/5 times the orbital moment of the d electrons, and `|T_z v|²` depends on the sum of `m²`. -/
theorem C103_weights (n : ℕ) (hn : n = nTotal (intKeys nBaths)) (N Lz Q : ℝ) (hN : N = diagonalValue n (shellCount nBaths 2) v)
    (hL : Lz = diagonalValue n (orbitalMoment nBaths) v) (hQ : Q = diagonalValue n (squaredMoment nBaths) v)
    (W : Vec3 ℂ → ℝ) (hW : ∀ ε, W ε = Spec.normSq n (between (position (intKeys nBaths)) 2 1
      (fun m m' => dipole gaunt ε.x ε.y ε.z 2 m 1 m') v)) :
    W alongX + W alongY + W alongZ = 2 / 5 * (10 * Spec.normSq n v - N) ∧
    W circularPlus - W circularMinus = -Lz / 5 ∧
    W circularPlus + W circularMinus = W alongX + W alongY ∧
    W alongZ = 4 / 3 * Spec.normSq n v - (4 * N - Q) / 15 := by
  subst hn hN hL hQ
  have hs : intKeys nBaths = [(.int 1, b1), (.int 2, b2)] := by rw [hb]; rfl
  have hg : GoodSystem (intKeys nBaths) := by rw [hs]; exact goodSystem_two (by decide)
  have h1 : 1 ∈ allAngulars (intKeys nBaths) := by rw [hs]; exact (allAngulars_two 1 2 b1 b2).1
  have h2 : 2 ∈ allAngulars (intKeys nBaths) := by rw [hs]; exact (allAngulars_two 1 2 b1 b2).2
  have ep : W circularPlus = _ := (hW _).trans (weight_plus hg h2 h1 hv hT)
  have em : W circularMinus = _ := (hW _).trans (weight_minus hg h2 h1 hv hT)
  have ez : W alongZ = _ := (hW _).trans (weight_z hg h2 h1 hv hT)
  have exy : W alongX + W alongY = W circularPlus + W circularMinus := by
    simp only [hW]
    exact normSq_xy gaunt _ _ v
  have sums : (∑ x ∈ shell 2, (2 / 5 : ℝ)) = 4 ∧ (∑ x ∈ shell 2, (x.2 : ℝ) / 5) = 0 ∧
      (∑ x ∈ shell 2, (4 - (x.2 : ℝ) ^ 2) / 15) = 4 / 3 := by
    refine ⟨(sum_shell_two fun _ _ => _).trans ?_, (sum_shell_two fun _ m => (m : ℝ) / 5).trans ?_,
      (sum_shell_two fun _ m => (4 - (m : ℝ) ^ 2) / 15).trans ?_⟩ <;> norm_num
  have lin : ∀ (f : Finset ℕ → ℝ) (g : Finset ℕ → ℝ) (c : ℝ), (∀ F, f F = c * g F) →
      ∑ F ∈ (range (nTotal (intKeys nBaths))).powerset, f F * Complex.normSq (v F)
        = c * diagonalValue (nTotal (intKeys nBaths)) g v := by
    intro f g c hfg
    unfold diagonalValue
    rw [mul_sum]
    exact sum_congr rfl fun F _ => by rw [hfg]; ring
  refine ⟨?_, ?_, exy.symm, ?_⟩
  · rw [exy, ep, em, ez, ← sum_add_distrib, ← sum_add_distrib,
      sum_congr rfl fun x _ => show _ = (2 / 5 : ℝ) * addWeight (intKeys nBaths) v x.1 x.2 by ring,
      sum_addWeight hg h2 (fun _ => (2 / 5 : ℝ)), sums.1, lin _ (shellCount nBaths 2) (2 / 5)]
    · ring
    · intro F
      unfold shellCount
      rw [mul_sum]
      exact sum_congr rfl fun x _ => by split <;> simp
  · rw [ep, em, ← sum_sub_distrib,
      sum_congr rfl fun x _ => show _ = ((x.2 : ℝ) / 5) * addWeight (intKeys nBaths) v x.1 x.2 by ring,
      sum_addWeight hg h2 (fun x => (x.2 : ℝ) / 5), sums.2.1, lin _ (orbitalMoment nBaths) (1 / 5)]
    · ring
    · intro F
      unfold orbitalMoment
      rw [mul_sum]
      exact sum_congr rfl fun x _ => by split <;> ring
  · rw [ez, sum_addWeight hg h2 (fun x => (4 - (x.2 : ℝ) ^ 2) / 15), sums.2.2]
    congr 1
    rw [lin _ (fun F => 4 * shellCount nBaths 2 F - squaredMoment nBaths F) (1 / 15)]
    · unfold diagonalValue
      simp only [sub_mul, sum_sub_distrib, mul_assoc, ← mul_sum]
      ring
    · intro F
      unfold shellCount squaredMoment
      rw [mul_sum, ← sum_sub_distrib, mul_sum]
      exact sum_congr rfl fun x _ => by split <;> ring

end

theorem absorbs_exists (gaunt : GauntFun) {nBaths : Dict ℕ ℕ} {b1 b2 : ℕ} (hb : nBaths = [(1, b1), (2, b2)]) {psi : Psi ℂ}
    (hpsi : IsState (nSpinOrbitals nBaths) psi) (cut : ℝ) (ε : Vec3 ℂ) :
    ∃ w, Absorbs gaunt nBaths psi cut ε w ∧
      w ≤ Spec.normSq (nSpinOrbitals nBaths) (between (position (intKeys nBaths)) 2 1
        (fun m m' => dipole gaunt ε.x ε.y ε.z 2 m 1 m') (ampl (nSpinOrbitals nBaths) psi)) ∧
      (cut ≤ 0 → w = Spec.normSq (nSpinOrbitals nBaths) (between (position (intKeys nBaths)) 2 1
        (fun m m' => dipole gaunt ε.x ε.y ε.z 2 m 1 m') (ampl (nSpinOrbitals nBaths) psi))) := by
  have hs : intKeys nBaths = [(.int 1, b1), (.int 2, b2)] := by rw [hb]; rfl
  obtain ⟨tOp, h1, -, h2, -, h3⟩ := C45_dipole gaunt 1 2 b1 b2 (by decide) ε
  rw [← hs] at h1 h2 h3
  rw [← nSpinOrbitals_eq] at h2
  have hst := isState_applyOpPure h2 hpsi cut none
  refine ⟨_, ⟨tOp, _, h1, applyOp_eq h2 hpsi cut none, rfl⟩, ?_, fun hc => ?_⟩
  · rw [norm2_eq hst, ← h3]
    refine sum_le_sum fun F hF => ?_
    rw [ampl_applyOpPure h2 hpsi cut none (mem_powerset.1 hF)]
    split
    · exact le_refl _
    · rw [Amp.abs2_zero]; exact Complex.normSq_nonneg _
  · rw [norm2_eq hst, ← h3]
    refine sum_congr rfl fun F hF => ?_
    rw [ampl_applyOpPure h2 hpsi cut none (mem_powerset.1 hF), if_pos ⟨trivial, hc.trans (Amp.abs2_nonneg _)⟩]
    rfl

/-- C103, the operators.  Whatever `psi` with a full p shell absorbs of light along x, y and z adds up to at most 2/5 times the
number of d holes, `10 |psi|²` minus the number of d electrons that `getTraceDensityMatrix` returns.  Without pruning the
sum is exactly that, and the difference of both kinds of circularly polarised light is -1/5 times what `getLz3d` returns. -/
theorem C103_operators {gaunt : GauntFun} (hT : DipoleTable gaunt) {nBaths : Dict ℕ ℕ} {b1 b2 : ℕ}
    (hb : nBaths = [(1, b1), (2, b2)]) {psi : Psi ℂ} (hpsi : IsState (nSpinOrbitals nBaths) psi)
    (hv : FullShell (position (intKeys nBaths)) 1 (ampl (nSpinOrbitals nBaths) psi)) (cut : ℝ) :
    ∃ t lz wx wy wz wp wm : ℝ, getTraceDensityMatrix nBaths psi 2 = .ok t ∧ getLz3d nBaths psi = .ok lz ∧
      Absorbs gaunt nBaths psi cut alongX wx ∧ Absorbs gaunt nBaths psi cut alongY wy ∧ Absorbs gaunt nBaths psi cut alongZ wz ∧
      Absorbs gaunt nBaths psi cut circularPlus wp ∧ Absorbs gaunt nBaths psi cut circularMinus wm ∧
      wx + wy + wz ≤ 2 / 5 * (10 * norm2 psi - t) ∧
      (cut ≤ 0 → wx + wy + wz = 2 / 5 * (10 * norm2 psi - t) ∧ wp - wm = -lz / 5) := by
  have hnd : Dict.NodupKeys nBaths := by rw [hb]; simp [Dict.NodupKeys, Dict.keys]
  have hl : 2 ∈ Dict.keys nBaths := by rw [hb]; simp [Dict.keys]
  obtain ⟨wx, x1, x2, x3⟩ := absorbs_exists gaunt hb hpsi cut alongX
  obtain ⟨wy, y1, y2, y3⟩ := absorbs_exists gaunt hb hpsi cut alongY
  obtain ⟨wz, z1, z2, z3⟩ := absorbs_exists gaunt hb hpsi cut alongZ
  obtain ⟨wp, p1, -, p3⟩ := absorbs_exists gaunt hb hpsi cut circularPlus
  obtain ⟨wm, m1, -, m3⟩ := absorbs_exists gaunt hb hpsi cut circularMinus
  obtain ⟨k1, k2, -, -⟩ := C103_weights hT nBaths hb hv (nSpinOrbitals nBaths) (nSpinOrbitals_eq _) _ _ _ rfl rfl rfl _ (fun _ => rfl)
  have hnorm : (norm2 psi : ℝ) = Spec.normSq (nSpinOrbitals nBaths) (ampl (nSpinOrbitals nBaths) psi) := norm2_eq hpsi
  refine ⟨_, _, wx, wy, wz, wp, wm, getTraceDensityMatrix_spec hnd hl hpsi, getLz3d_spec hnd hpsi hl, x1, y1, z1, p1, m1, ?_,
    fun hc => ⟨?_, ?_⟩⟩
  · rw [hnorm]
    exact (add_le_add (add_le_add x2 y2) z2).trans (le_of_eq k1)
  · rw [x3 hc, y3 hc, z3 hc, hnorm]
    exact k1
  · rw [p3 hc, m3 hc]
    exact k2

/-! ### main -/

section
variable {L : MainLib} {A : MainArgs} {b : ℕ → ℕ} {P : BasisParams} {hx hy hz : ℝ} {h0 : Op Label ℂ}
  {energies : List ℝ} {psis : List (Psi ℂ)} {S : SimulateArgs} (hrun : MainRun L A b P hx hy hz h0 energies psis S)

include hrun in
/-- The states of main have only allowed occupations and no small amplitudes. -/
theorem kept_configuration {i : ℕ} (hi : i < S.es.length) :
    IsState (size S) (S.psis.getD i []) ∧
    ∀ F, ampl (size S) (S.psis.getD i []) F ≠ 0 → IsConfiguration [(1, b 1), (2, b 2)] (pdSystem b) P F ∧
      1e-7 ≤ Complex.normSq (ampl (size S) (S.psis.getD i []) F) := by
  classical
  have hi' : i < S.psis.length := by rw [hrun.kept.1]; exact hi
  obtain ⟨lowest, hm, hle⟩ : ∃ e ∈ energies, ∀ e' ∈ energies, e ≤ e' := by
    have hne : energies.toFinset.Nonempty := by
      rw [List.toFinset_nonempty_iff]; exact hrun.nonempty.1
    exact ⟨energies.toFinset.min' hne, List.mem_toFinset.1 (min'_mem _ _), fun e' he => min'_le _ _ (List.mem_toFinset.2 he)⟩
  have hz := hrun.kept.2 lowest hm hle
  have hmem : (S.es[i], S.psis[i]) ∈ S.es.zip S.psis := by
    have : (S.es.zip S.psis)[i]'(by rw [List.length_zip]; omega) = (S.es[i], S.psis[i]) := List.getElem_zip ..
    rw [← this]
    exact List.getElem_mem _
  rw [hz] at hmem
  have h1 := (List.of_mem_zip (List.mem_filter.1 hmem).1).2
  obtain ⟨j, hj, he⟩ := List.mem_iff_getElem.1 h1
  obtain ⟨-, -, x, -, -, -, hx⟩ := hrun.lowest
  obtain ⟨hst, ha⟩ := hx j hj
  have hsz : size S = nTotal (pdSystem b) := by
    unfold size
    rw [hrun.system]
    rfl
  rw [List.getD_eq_getElem _ _ hi', ← he, hsz]
  refine ⟨hst, fun F hF => ?_⟩
  rw [ha F] at hF ⊢
  by_cases hc : F ∈ ({F ∈ (range (nTotal (pdSystem b))).powerset | IsConfiguration [(1, b 1), (2, b 2)] (pdSystem b) P F} : Finset _) ∧
      1e-7 ≤ Complex.normSq (x j F)
  · rw [if_pos hc]
    exact ⟨(mem_filter.1 hc.1).2, hc.2⟩
  · rw [if_neg hc] at hF
    exact absurd rfl hF

theorem pd_layout (b : ℕ → ℕ) : impStart (pdSystem b) 1 = 0 ∧ impStart (pdSystem b) 2 = 6 ∧
    16 ≤ bathStart (pdSystem b) (.int 2) := by
  refine ⟨by simp [impStart, pdSystem, allAngulars, angulars, shellsSize], by simp [impStart, pdSystem, allAngulars, angulars, shellsSize], ?_⟩
  unfold bathStart
  have : nImpurity (pdSystem b) = 16 := by simp [nImpurity, pdSystem, allAngulars, angulars, shellsSize]
  omega

include hrun in
theorem kept_full (ht : P.tol 1 = 0) {i : ℕ} (hi : i < S.es.length) :
    FullShell (position (pdSystem b)) 1 (ampl (size S) (S.psis.getD i [])) := by
  intro F hF x hx
  obtain ⟨dv, dc, ⟨-, -, -, -, h1⟩, h2, -⟩ := ((kept_configuration hrun hi).2 F hF).1 (1, b 1) (by simp)
  simp only [ht, hrun.fullP] at h1 h2
  have h3 : dv - dc = 0 := abs_nonpos_iff.1 h1
  have hc : (impOrbs (pdSystem b) 1).card = 6 := by simp [impOrbs]
  have h4 : F ∩ impOrbs (pdSystem b) 1 = impOrbs (pdSystem b) 1 := by
    refine eq_of_subset_of_card_le inter_subset_right ?_
    have : ((F ∩ impOrbs (pdSystem b) 1).card : ℤ) = 6 := by omega
    omega
  unfold shell at hx
  rw [mem_product] at hx
  have := position_mem (sys := pdSystem b) hx.1 hx.2
  rw [← h4] at this
  exact (mem_inter.1 this).1

include hrun in
/-- The restrictions let through what has the baths of a configuration and not too few d electrons. -/
theorem allowed_near_iff {F G : Finset ℕ} (hG : IsConfiguration [(1, b 1), (2, b 2)] (pdSystem b) P G) (d : ℤ)
    (hd : ((F ∩ impOrbs (pdSystem b) 2).card : ℤ) = ((G ∩ impOrbs (pdSystem b) 2).card : ℤ) + d) (hd1 : d ≤ 1)
    (hsame : ∀ k, 16 ≤ k → (k ∈ F ↔ k ∈ G)) :
    AllowedOpt S.restrictions F ↔ P.n0 2 - 1 - d ≤ ((G ∩ impOrbs (pdSystem b) 2).card : ℤ) := by
  obtain ⟨r, hr, hall⟩ := hrun.excited
  rw [hr]
  show Allowed r F ↔ _
  rw [hall]
  obtain ⟨-, -, l3⟩ := pd_layout b
  obtain ⟨dv, dc, ⟨h1, h2, h3, h4, h5⟩, h6, h7, h8⟩ := hG (2, b 2) (by simp)
  have same : ∀ X : Finset ℕ, (∀ k ∈ X, 16 ≤ k) → F ∩ X = G ∩ X := by
    intro X hX
    ext k
    simp only [mem_inter]
    exact and_congr_left fun hk => hsame k (hX k hk)
  have h9 := _root_.abs_le.1 h5
  simp only at h2 h4 h6 h7 h8 h9
  refine ⟨fun h => by omega, fun h => ⟨⟨by omega, by omega⟩, ?_, ?_⟩⟩
  · by_cases hv : P.val 2 = 0
    · rw [hv]
      have : (0 : ℤ) ≤ ((F ∩ valOrbs (pdSystem b) 2 0).card : ℤ) := Int.natCast_nonneg _
      omega
    · have := h7 hv
      rw [← same _ (by intro k hk; unfold valOrbs at hk; rw [mem_Ico] at hk; omega)] at this
      omega
  · rw [← same _ (by intro k hk; unfold conOrbs at hk; rw [mem_Ico] at hk; omega)] at h8
    omega

/-- How many d electrons a configuration has. -/
theorem configuration_low {G : Finset ℕ} (hG : IsConfiguration [(1, b 1), (2, b 2)] (pdSystem b) P G) {k : ℤ}
    (ht : P.tol 2 ≤ k ∨ P.dnCon 2 ≤ k) : P.n0 2 - k ≤ ((G ∩ impOrbs (pdSystem b) 2).card : ℤ) := by
  obtain ⟨dv, dc, ⟨h1, h2, h3, h4, h5⟩, h6, -⟩ := hG (2, b 2) (by simp)
  have h9 := _root_.abs_le.1 h5
  simp only at h2 h4 h6 h9
  omega

include hrun in
/-- The restrictions let through what the dipole operator reaches. -/
theorem reached_allowed (ht : P.tol 2 ≤ 2 ∨ P.dnCon 2 ≤ 2) {i : ℕ} (hi : i < S.es.length) (ε : Vec3 ℂ) {F : Finset ℕ}
    (hF : dipolePD S.gaunt b ε (ampl (size S) (S.psis.getD i [])) F ≠ 0) : AllowedOpt S.restrictions F := by
  unfold dipolePD between at hF
  obtain ⟨s, hs, hF⟩ := exists_ne_zero_of_sum_ne_zero hF
  obtain ⟨m, hm, hF⟩ := exists_ne_zero_of_sum_ne_zero hF
  obtain ⟨m', hm', hF⟩ := exists_ne_zero_of_sum_ne_zero hF
  have hF := right_ne_zero_of_mul hF
  obtain ⟨l1, l2, l3⟩ := pd_layout b
  have hd := position_mem (sys := pdSystem b) hs hm
  have hp := position_mem (sys := pdSystem b) hs hm'
  set d := position (pdSystem b) (.imp 2 s m)
  set p := position (pdSystem b) (.imp 1 s m')
  unfold create at hF
  by_cases hdF : d ∈ F
  swap
  · rw [if_neg hdF] at hF; exact absurd rfl hF
  rw [if_pos hdF] at hF
  have hF := right_ne_zero_of_mul hF
  unfold annihilate at hF
  by_cases hpF : p ∈ F.erase d
  · rw [if_pos hpF] at hF; exact absurd rfl hF
  rw [if_neg hpF] at hF
  have hF := ((kept_configuration hrun hi).2 _ (right_ne_zero_of_mul hF)).1
  have hdI : d ∈ F ∩ impOrbs (pdSystem b) 2 := mem_inter.2 ⟨hdF, hd⟩
  unfold impOrbs at hd hp
  rw [mem_Ico, l2] at hd
  rw [mem_Ico, l1] at hp
  have hI : insert p (F.erase d) ∩ impOrbs (pdSystem b) 2 = (F ∩ impOrbs (pdSystem b) 2).erase d := by
    have hpX : p ∉ impOrbs (pdSystem b) 2 := by unfold impOrbs; rw [mem_Ico, l2]; omega
    ext k
    simp only [mem_inter, mem_insert, mem_erase]
    constructor
    · rintro ⟨rfl | h, hk⟩
      · exact absurd hk hpX
      · exact ⟨h.1, h.2, hk⟩
    · rintro ⟨h1, h2, hk⟩
      exact ⟨Or.inr ⟨h1, h2⟩, hk⟩
  have hcard := card_erase_add_one hdI
  rw [← hI] at hcard
  refine (allowed_near_iff hrun hF 1 (by rw [← hcard]; push_cast; rfl) le_rfl (fun k hk => ?_)).2
    (by have := configuration_low hF ht; omega)
  simp only [mem_insert, mem_erase]
  constructor
  · exact fun h => Or.inr ⟨by omega, h⟩
  · rintro (rfl | h)
    · omega
    · exact h.2

/-- Of what is reached, only amplitudes below the cutoff are lost. -/
theorem normSq_excite_ge {T : Vec ℂ → Vec ℂ} {i : ℕ} (hw : 0 ≤ S.slaterWeightMin)
    (hall : ∀ F ⊆ range (size S), T (ampl (size S) (S.psis.getD i [])) F ≠ 0 → AllowedOpt S.restrictions F) :
    Spec.normSq (size S) (T (ampl (size S) (S.psis.getD i [])))
      - S.slaterWeightMin * reached (size S) T (ampl (size S) (S.psis.getD i [])) ≤ Spec.normSq (size S) (excite S T i) := by
  classical
  unfold Spec.normSq reached
  rw [card_filter, sub_le_iff_le_add]
  push_cast
  rw [mul_sum, ← sum_add_distrib]
  refine sum_le_sum fun F hF => ?_
  rw [mem_powerset] at hF
  unfold excite exciteVec excited
  by_cases h0 : T (ampl (size S) (S.psis.getD i [])) F = 0
  · rw [if_neg (not_not.2 h0), h0, map_zero, mul_zero, add_zero]
    exact Complex.normSq_nonneg _
  · rw [if_pos h0]
    by_cases hc : S.slaterWeightMin ≤ abs2 (T (ampl (size S) (S.psis.getD i [])) F)
    · rw [if_pos ⟨hF, hall F hF h0, hc⟩]
      linarith
    · rw [if_neg (fun h => hc h.2.2), map_zero, mul_one, zero_add]
      exact (not_le.1 hc).le

end

/-- The weights of the XAS of main. -/
theorem xas_weights {L : MainLib} {A : MainArgs} {b : ℕ → ℕ} {P : BasisParams} {hx hy hz : ℝ} {h0 : Op Label ℂ} {energies : List ℝ}
    {psis : List (Psi ℂ)} {S : SimulateArgs} (hrun : MainRun L A b P hx hy hz h0 energies psis S) {o : MainOutput}
    (hM : PDMoments b S o.spectra) (hT : DipoleTable L.gaunt) (htol : P.tol 1 = 0) {i : ℕ} (hi : i < S.es.length) :
      ∃ (t : ℝ) (X : ℕ → List (ℝ × ℝ)), getTraceDensityMatrix S.nBaths (S.psis.getD i []) 2 = .ok t ∧
        (∀ c < 3, (∀ p ∈ X c, 0 ≤ p.2) ∧
          (∀ k (hk : k < S.w.length), o.spectra.xas.data i c k
            = -(lehmann (X c) ((S.w[k] : ℂ) + Complex.I * S.delta + (S.es.getD i 0 : ℂ))).im) ∧
          (0 < S.delta → ∫ w : ℝ, -(lehmann (X c) ((w : ℂ) + Complex.I * S.delta + (S.es.getD i 0 : ℂ))).im
            = Real.pi * totalWeight (X c))) ∧
        totalWeight (X 0) + totalWeight (X 1) + totalWeight (X 2) ≤ 2 / 5 * (10 * norm2 (S.psis.getD i []) - t) ∧
        (P.tol 2 ≤ 2 ∨ P.dnCon 2 ≤ 2 → 2 / 5 * (10 * norm2 (S.psis.getD i []) - t)
          - 1e-7 * (reached (size S) (dipolePD S.gaunt b alongX) (ampl (size S) (S.psis.getD i []))
            + reached (size S) (dipolePD S.gaunt b alongY) (ampl (size S) (S.psis.getD i []))
            + reached (size S) (dipolePD S.gaunt b alongZ) (ampl (size S) (S.psis.getD i [])))
          ≤ totalWeight (X 0) + totalWeight (X 1) + totalWeight (X 2)) := by
  obtain ⟨hst, -⟩ := kept_configuration hrun hi
  have hfull := kept_full hrun htol hi
  have hgS : S.gaunt = L.gaunt := hrun.args.library.1
  have hwS : S.slaterWeightMin = 1e-7 := hrun.args.cutoffs.2.1
  have heps := hrun.args.epsilons
  have hsz : nSpinOrbitals S.nBaths = size S := nSpinOrbitals_eq _
  have hK : intKeys S.nBaths = pdSystem b := by rw [hrun.system]; rfl
  have hnd : Dict.NodupKeys S.nBaths := by rw [hrun.system]; simp [Dict.NodupKeys, Dict.keys]
  have hl : 2 ∈ Dict.keys S.nBaths := by rw [hrun.system]; simp [Dict.keys]
  have hX : ∀ c, ∃ Lc : List (ℝ × ℝ), ∀ hc : c < S.epsilons.length,
      IsGauss (size S) (hamilton S) (excite S (dipolePD S.gaunt b S.epsilons[c]) i) 150 Lc ∧
      ∀ k (hk : k < S.w.length), o.spectra.xas.data i c k
        = -(lehmann Lc ((S.w[k] : ℂ) + Complex.I * S.delta + (S.es.getD i 0 : ℂ))).im := by
    intro c
    by_cases hc : c < S.epsilons.length
    · obtain ⟨Lc, h⟩ := hM.xas i c hi hc
      exact ⟨Lc, fun _ => h⟩
    · exact ⟨[], fun h => absurd h hc⟩
  choose X hX using hX
  have hlen : S.epsilons.length = 3 := by rw [heps]; rfl
  have hweight : ∀ c (hc : c < S.epsilons.length),
      totalWeight (X c) = Spec.normSq (size S) (excite S (dipolePD S.gaunt b S.epsilons[c]) i) := by
    intro c hc
    have := (hX c hc).1.2.2 0 (by norm_num)
    rw [Function.iterate_zero, id, innerProduct_self] at this
    have h1 : momentOf (X c) 0 = totalWeight (X c) := by
      unfold momentOf totalWeight
      simp
    rw [← h1]
    exact_mod_cast this
  have w0 : totalWeight (X 0) = Spec.normSq (size S) (excite S (dipolePD S.gaunt b alongX) i) := by
    have := hweight 0 (by omega)
    simp only [heps, List.getElem_cons_zero] at this
    exact this
  have w1 : totalWeight (X 1) = Spec.normSq (size S) (excite S (dipolePD S.gaunt b alongY) i) := by
    have := hweight 1 (by omega)
    simp only [heps, List.getElem_cons_zero, List.getElem_cons_succ] at this
    exact this
  have w2 : totalWeight (X 2) = Spec.normSq (size S) (excite S (dipolePD S.gaunt b alongZ) i) := by
    have := hweight 2 (by omega)
    simp only [heps, List.getElem_cons_zero, List.getElem_cons_succ] at this
    exact this
  obtain ⟨k1, -⟩ := C103_weights (gaunt := S.gaunt) (by rw [hgS]; exact hT) S.nBaths hrun.system
    (v := ampl (size S) (S.psis.getD i [])) (by rw [hK]; exact hfull) (size S) rfl _ _ _ rfl rfl rfl
    (fun ε => Spec.normSq (size S) (dipolePD S.gaunt b ε (ampl (size S) (S.psis.getD i []))))
    (fun ε => by rw [hK]; rfl)
  have hnorm : (norm2 (S.psis.getD i []) : ℝ) = Spec.normSq (size S) (ampl (size S) (S.psis.getD i [])) := norm2_eq hst
  have htr := getTraceDensityMatrix_spec hnd hl (psi := S.psis.getD i []) (by rw [hsz]; exact hst)
  rw [hsz] at htr
  refine ⟨_, X, htr, fun c hc => ⟨(hX c (by omega)).1.2.1, (hX c (by omega)).2, fun hd => (integral_lehmann (X c) hd _).2⟩, ?_, fun ht => ?_⟩
  · rw [w0, w1, w2, hnorm]
    exact (add_le_add (add_le_add (normSq_excite_le _ _ _) (normSq_excite_le _ _ _)) (normSq_excite_le _ _ _)).trans (le_of_eq k1)
  · have hge : ∀ ε, Spec.normSq (size S) (dipolePD S.gaunt b ε (ampl (size S) (S.psis.getD i [])))
        - 1e-7 * reached (size S) (dipolePD S.gaunt b ε) (ampl (size S) (S.psis.getD i []))
        ≤ Spec.normSq (size S) (excite S (dipolePD S.gaunt b ε) i) := by
      intro ε
      rw [← hwS]
      exact normSq_excite_ge (by rw [hwS]; norm_num) fun F _ hF => reached_allowed hrun ht hi ε hF
    rw [w0, w1, w2, hnorm]
    have k1' : _ = 2 / 5 * (10 * Spec.normSq (size S) (ampl (size S) (S.psis.getD i [])) - _) := k1
    have := add_le_add (add_le_add (hge alongX) (hge alongY)) (hge alongZ)
    refine le_trans (le_of_eq ?_) this
    refine (congrArg (fun z => z - _) k1').symm.trans ?_
    ring

section
variable {L : MainLib} {A : MainArgs} (hA : A.Valid) (hG : GauntLarge L.gaunt A.ls) {N : ℕ} (hN : 0 < N)
  {ord : Fin N → ℕ → ℕ → ℕ → SetOrders} (hord : ∀ k c t i, (ord k c t i).Valid)
  {ordRixs : Fin N → List ℕ → SetOrders} (hordR : ∀ k l, (ordRixs k l).Valid) {out : Fin N → Option MainOutput}
  (hfin : CanFinish msgSum (fun k : Fin N => mainRank L A (ord k) (ordRixs k) k.val N) out)
  {o : MainOutput} (ho : out ⟨0, hN⟩ = some o)
variable (hL : SolverCorrect L.solver) {b : ℕ → ℕ} {P : BasisParams} {hx hy hz : ℝ} {h0 : Op Label ℂ}
  (hD : Documented A b P hx hy hz h0)

include hA hG hord hordR hfin ho hL hD in
/-- C103, main.  If the p shell is full in all configurations, the XAS that main stores for an eigenstate is, for each
polarisation, a sum of Lorentzians; its area is `π` times the sum of their weights, and the weights for the
polarisations x, y and z together are at most 2/5 times the number of d holes of the eigenstate.  If no
configuration has more than two d electrons too few, they fall short of it by less than 1e-7 for each product state that is reached. -/
theorem C103_main (hR : GauntRules L.gaunt) (hT : DipoleTable L.gaunt) (htol : P.tol 1 = 0) :
    ∃ psis S, MainRun L A b P hx hy hz h0 o.energies psis S ∧ ∀ i < S.es.length,
      ∃ (t : ℝ) (X : ℕ → List (ℝ × ℝ)), getTraceDensityMatrix S.nBaths (S.psis.getD i []) 2 = .ok t ∧
        (∀ c < 3, (∀ p ∈ X c, 0 ≤ p.2) ∧
          (∀ k (hk : k < S.w.length), o.spectra.xas.data i c k
            = -(lehmann (X c) ((S.w[k] : ℂ) + Complex.I * S.delta + (S.es.getD i 0 : ℂ))).im) ∧
          (0 < S.delta → ∫ w : ℝ, -(lehmann (X c) ((w : ℂ) + Complex.I * S.delta + (S.es.getD i 0 : ℂ))).im
            = Real.pi * totalWeight (X c))) ∧
        totalWeight (X 0) + totalWeight (X 1) + totalWeight (X 2) ≤ 2 / 5 * (10 * norm2 (S.psis.getD i []) - t) ∧
        (P.tol 2 ≤ 2 ∨ P.dnCon 2 ≤ 2 → 2 / 5 * (10 * norm2 (S.psis.getD i []) - t)
          - 1e-7 * (reached (size S) (dipolePD S.gaunt b alongX) (ampl (size S) (S.psis.getD i []))
            + reached (size S) (dipolePD S.gaunt b alongY) (ampl (size S) (S.psis.getD i []))
            + reached (size S) (dipolePD S.gaunt b alongZ) (ampl (size S) (S.psis.getD i [])))
          ≤ totalWeight (X 0) + totalWeight (X 1) + totalWeight (X 2)) := by
  obtain ⟨psis, S, hrun, hM⟩ := C96_main hA hG hN hord hordR hfin ho hL hD hR
  exact ⟨psis, S, hrun, fun i hi => xas_weights hrun hM hT htol hi⟩

end

/-! ### Non-vacuity -/

theorem full_single {sys : NBaths} {T : Finset ℕ} (h : impOrbs sys 1 ⊆ T) (x : ℂ) :
    FullShell (position sys) 1 (Spec.single T x) := by
  intro F hF y hy
  have : F = T := by
    by_contra hne
    simp [Spec.single, hne] at hF
  subst this
  unfold shell at hy
  rw [mem_product] at hy
  exact h (position_mem hy.1 hy.2)

/-- The hypotheses of `C103_operators` are met: a full p shell and nine d electrons. -/
example : ∃ psi : Psi ℂ, IsState (nSpinOrbitals [(1, 0), (2, 0)]) psi ∧
    FullShell (position (intKeys [(1, 0), (2, 0)])) 1 (ampl (nSpinOrbitals [(1, 0), (2, 0)]) psi) ∧
    DipoleTable sympyGaunt ∧ norm2 psi = (1 : ℝ) := by
  have h : nSpinOrbitals [(1, 0), (2, 0)] = 16 := by decide
  have hs : range 15 ⊆ range 16 := by decide
  have hst := isState_single (R := ℂ) hs 1
  rw [h]
  refine ⟨_, hst, ?_, sympyGaunt_table, ?_⟩
  · rw [ampl_single hs 1]
    refine full_single (fun k hk => ?_) _
    have hl := (pd_layout fun _ => 0).1
    unfold impOrbs at hk
    rw [mem_Ico] at hk
    have : impStart (intKeys [(1, 0), (2, 0)]) 1 = 0 := hl
    rw [mem_range]
    omega
  · simp only [norm2, List.map_cons, List.map_nil, List.sum_cons, List.sum_nil, add_zero]
    exact Complex.normSq_one

/-- The hypotheses of `C103_main` are met: three ranks, any temperature. -/
example (sphHarm : SphHarm) (jn : SphericalJn) (T : ℝ) (hT : 0 < T) (radial : List (ℝ × ℝ)) :
    ∃ (L : MainLib) (o : MainOutput) (psis : _) (S : _),
      MainRun L (holeArgs 0 T radial) (fun _ => 0) holeParams 0 0 0 (holeLevels 0) o.energies psis S ∧ 0 < S.es.length ∧
      ∀ i < S.es.length, ∃ (t : ℝ) (X : ℕ → List (ℝ × ℝ)), getTraceDensityMatrix S.nBaths (S.psis.getD i []) 2 = .ok t ∧
        totalWeight (X 0) + totalWeight (X 1) + totalWeight (X 2) ≤ 2 / 5 * (10 * norm2 (S.psis.getD i []) - t) ∧
        ∀ c < 3, ∀ k (hk : k < S.w.length), o.spectra.xas.data i c k
          = -(lehmann (X c) ((S.w[k] : ℂ) + Complex.I * S.delta + (S.es.getD i 0 : ℂ))).im := by
  obtain ⟨solver, hS, htot⟩ := exists_solver
  obtain ⟨o, ho⟩ := C64_example hS htot sphHarm jn one_pos hT radial
  have h1 := (ho 3 (by decide) (fun _ _ _ _ => holeOrders) (fun _ _ _ _ => holeOrders_valid) (fun _ _ => holeOrders)
    (fun _ _ => holeOrders_valid)).canFinish
  obtain ⟨psis, S, hrun, hsp⟩ := C103_main (holeArgs_valid 0 T radial) sympyGaunt_large (by decide)
    (fun _ _ _ _ => holeOrders_valid) (fun _ _ => holeOrders_valid) h1 rfl hS (holeArgs_documented 0 T radial)
    sympyGaunt_rules sympyGaunt_table rfl
  refine ⟨_, o, psis, S, hrun, List.length_pos_iff.2 hrun.nonempty.2, fun i hi => ?_⟩
  obtain ⟨t, X, h1, h2, h3, -⟩ := hsp i hi
  exact ⟨t, X, h1, h3, fun c hc => (h2 c hc).2.1⟩

end

end Verif
