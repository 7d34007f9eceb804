/-
Spectral representation of the continued fraction.
-/
import Verif.Spec.Lehmann
import Verif.Lemmas.SpectraSign
import Verif.Lemmas.SpectraEigen
import Verif.Lemmas.SimulateValue
import Mathlib.Analysis.Matrix.Spectrum
import Mathlib.Analysis.SpecialFunctions.ImproperIntegrals
import Mathlib.MeasureTheory.Measure.Haar.NormedSpace

namespace Verif

open Finset Psr Spec Matrix MeasureTheory

noncomputable section

/-- The resolvent of a Hermitian matrix as a sum over its eigenvalues. -/
theorem inverse_lehmann {k : ℕ} {T : Matrix (Fin k) (Fin k) ℂ} (hT : T.IsHermitian) (i : Fin k) :
    ∃ p : Fin k → ℝ, (∀ j, 0 ≤ p j) ∧ ∑ j, p j = 1 ∧ ∀ z : ℂ, z.im ≠ 0 →
      (z • (1 : Matrix (Fin k) (Fin k) ℂ) - T)⁻¹ i i = ∑ j, (p j : ℂ) / (z - (hT.eigenvalues j : ℂ)) := by
  set U : Matrix (Fin k) (Fin k) ℂ := (hT.eigenvectorUnitary : Matrix (Fin k) (Fin k) ℂ) with hU
  have hUU : U * star U = 1 := Unitary.mul_star_self_of_mem hT.eigenvectorUnitary.2
  have hUU' : star U * U = 1 := Unitary.star_mul_self_of_mem hT.eigenvectorUnitary.2
  have hspec : T = U * diagonal (fun j => (hT.eigenvalues j : ℂ)) * star U := by
    have := hT.spectral_theorem
    rw [Unitary.conjStarAlgAut_apply] at this
    exact this
  refine ⟨fun j => Complex.normSq (U i j), fun j => Complex.normSq_nonneg _, ?_, fun z hz => ?_⟩
  · have h1 := congrFun (congrFun hUU i) i
    rw [mul_apply, one_apply_eq] at h1
    have h2 : ((∑ j, Complex.normSq (U i j) : ℝ) : ℂ) = 1 := by
      rw [← h1, Complex.ofReal_sum]
      refine sum_congr rfl fun j _ => ?_
      rw [star_apply]
      exact (Complex.mul_conj _).symm
    exact_mod_cast h2
  · have hne : ∀ j, z - (hT.eigenvalues j : ℂ) ≠ 0 := by
      intro j h
      apply hz
      have := congrArg Complex.im h
      simpa using this
    have hinv : (z • (1 : Matrix (Fin k) (Fin k) ℂ) - T)⁻¹
        = U * diagonal (fun j => (z - (hT.eigenvalues j : ℂ))⁻¹) * star U := by
      apply Matrix.inv_eq_right_inv
      have h1 : z • (1 : Matrix (Fin k) (Fin k) ℂ) - T = U * diagonal (fun j => z - (hT.eigenvalues j : ℂ)) * star U := by
        have h2 : diagonal (fun j => z - (hT.eigenvalues j : ℂ))
            = z • (1 : Matrix (Fin k) (Fin k) ℂ) - diagonal (fun j => (hT.eigenvalues j : ℂ)) := by
          rw [← diagonal_one, ← diagonal_smul, diagonal_sub]
          congr 1
          funext j
          simp
        rw [h2, mul_sub, sub_mul, ← hspec, mul_smul_comm, smul_mul_assoc, mul_one, hUU]
      rw [h1]
      calc U * diagonal (fun j => z - (hT.eigenvalues j : ℂ)) * star U
            * (U * diagonal (fun j => (z - (hT.eigenvalues j : ℂ))⁻¹) * star U)
          = U * (diagonal (fun j => z - (hT.eigenvalues j : ℂ)) * (star U * U)
            * diagonal (fun j => (z - (hT.eigenvalues j : ℂ))⁻¹)) * star U := by noncomm_ring
        _ = 1 := by
          rw [hUU', mul_one, diagonal_mul_diagonal]
          have : (diagonal fun j => (z - (hT.eigenvalues j : ℂ)) * (z - (hT.eigenvalues j : ℂ))⁻¹)
              = (1 : Matrix (Fin k) (Fin k) ℂ) := by
            rw [← diagonal_one]
            congr 1
            funext j
            exact mul_inv_cancel₀ (hne j)
          rw [this, mul_one, hUU]
    rw [hinv, mul_apply]
    refine sum_congr rfl fun j _ => ?_
    rw [mul_diagonal, star_apply, mul_right_comm, ← Complex.mul_conj, div_eq_mul_inv]
    rfl

/-- The energies of a spectral representation. -/
theorem lehmann_ofFn {k : ℕ} (ε p : Fin k → ℝ) (z : ℂ) :
    lehmann (List.ofFn fun j => (ε j, p j)) z = ∑ j, (p j : ℂ) / (z - (ε j : ℂ)) := by
  unfold lehmann
  rw [List.map_ofFn, List.sum_ofFn]
  rfl

theorem totalWeight_ofFn {k : ℕ} (ε p : Fin k → ℝ) : totalWeight (List.ofFn fun j => (ε j, p j)) = ∑ j, p j := by
  unfold totalWeight
  rw [List.map_ofFn, List.sum_ofFn]
  rfl

/-- A Lorentzian has area `π`. -/
theorem integral_lorentzian (ε : ℝ) {delta : ℝ} (hd : 0 < delta) (e : ℝ) :
    Integrable (fun w : ℝ => -((1 : ℂ) / ((w : ℂ) + Complex.I * (delta : ℂ) + (e : ℂ) - (ε : ℂ))).im) ∧
    ∫ w : ℝ, -((1 : ℂ) / ((w : ℂ) + Complex.I * (delta : ℂ) + (e : ℂ) - (ε : ℂ))).im = Real.pi := by
  have h1 : (fun w : ℝ => -((1 : ℂ) / ((w : ℂ) + Complex.I * (delta : ℂ) + (e : ℂ) - (ε : ℂ))).im)
      = fun w : ℝ => delta⁻¹ * (fun x : ℝ => (1 + x ^ 2)⁻¹) (delta⁻¹ * w + delta⁻¹ * (e - ε)) := by
    funext w
    rw [one_div, Complex.inv_im]
    have e1 : ((w : ℂ) + Complex.I * (delta : ℂ) + (e : ℂ) - (ε : ℂ)).im = delta := by simp
    have e2 : Complex.normSq ((w : ℂ) + Complex.I * (delta : ℂ) + (e : ℂ) - (ε : ℂ)) = (w + e - ε) ^ 2 + delta ^ 2 := by
      rw [Complex.normSq_apply, e1]
      simp
      ring
    rw [e1, e2]
    have h0 : delta ≠ 0 := hd.ne'
    have h2 : (w + e - ε) ^ 2 + delta ^ 2 ≠ 0 := by positivity
    have h3 : 1 + (delta⁻¹ * w + delta⁻¹ * (e - ε)) ^ 2 ≠ 0 := by positivity
    field_simp
    ring
  rw [h1]
  have h0 : delta⁻¹ ≠ 0 := (inv_pos.2 hd).ne'
  constructor
  · refine Integrable.const_mul ?_ _
    have := (integrable_inv_one_add_sq.comp_add_right (delta⁻¹ * (e - ε))).comp_mul_left' h0
    exact this
  · rw [integral_const_mul]
    have h2 := Measure.integral_comp_mul_left (fun y : ℝ => (fun x : ℝ => (1 + x ^ 2)⁻¹) (y + delta⁻¹ * (e - ε))) delta⁻¹
    rw [h2, integral_add_right_eq_self (fun x : ℝ => (1 + x ^ 2)⁻¹), integral_univ_inv_one_add_sq, inv_inv, abs_of_pos hd,
      smul_eq_mul, inv_mul_cancel_left₀ hd.ne']

/-- The area of a sum of Lorentzians. -/
theorem integral_lehmann (L : List (ℝ × ℝ)) {delta : ℝ} (hd : 0 < delta) (e : ℝ) :
    Integrable (fun w : ℝ => -(lehmann L ((w : ℂ) + Complex.I * (delta : ℂ) + (e : ℂ))).im) ∧
    ∫ w : ℝ, -(lehmann L ((w : ℂ) + Complex.I * (delta : ℂ) + (e : ℂ))).im = Real.pi * totalWeight L := by
  induction L with
  | nil => simp [lehmann, totalWeight]
  | cons p L ih =>
    obtain ⟨h1, h2⟩ := integral_lorentzian p.1 hd e
    have hf : (fun w : ℝ => -(lehmann (p :: L) ((w : ℂ) + Complex.I * (delta : ℂ) + (e : ℂ))).im)
        = fun w : ℝ => p.2 * -((1 : ℂ) / ((w : ℂ) + Complex.I * (delta : ℂ) + (e : ℂ) - (p.1 : ℂ))).im
          + -(lehmann L ((w : ℂ) + Complex.I * (delta : ℂ) + (e : ℂ))).im := by
      funext w
      unfold lehmann
      rw [List.map_cons, List.sum_cons, Complex.add_im, neg_add, div_eq_mul_one_div, Complex.im_ofReal_mul, mul_neg]
    rw [hf]
    refine ⟨(h1.const_mul _).add ih.1, ?_⟩
    rw [integral_add (h1.const_mul _) ih.1, integral_const_mul, h2, ih.2]
    unfold totalWeight
    rw [List.map_cons, List.sum_cons]
    ring

/-- The continued fraction as a sum of Lorentzians; the energies are expectation values of the tridiagonal
matrix. -/
theorem fraction_lehmann {alpha beta : List ℝ} {k : ℕ} (hk : 0 < k) (ha : alpha.length = k) (hb : beta.length = k - 1) :
    ∃ L : List (ℝ × ℝ), (∀ p ∈ L, 0 ≤ p.2) ∧ totalWeight L = 1 ∧ L.length = k ∧
      (∀ p ∈ L, ∃ u : Fin k → ℂ, star u ⬝ᵥ u = 1 ∧ star u ⬝ᵥ (tridiagonal alpha beta k *ᵥ u) = (p.1 : ℂ)) ∧
      ∀ z : ℂ, z.im ≠ 0 → continuedFraction alpha beta k z = .ok (lehmann L z) := by
  have hT := tridiagonal_hermitian alpha beta k
  obtain ⟨p, h1, h2, h3⟩ := inverse_lehmann hT ⟨0, hk⟩
  refine ⟨List.ofFn fun j => (hT.eigenvalues j, p j), ?_, ?_, by simp, ?_, fun z hz => ?_⟩
  · intro q hq
    obtain ⟨j, rfl⟩ := (List.mem_ofFn' _ _).1 hq
    exact h1 j
  · rw [totalWeight_ofFn, h2]
  · intro q hq
    obtain ⟨j, rfl⟩ := (List.mem_ofFn' _ _).1 hq
    refine ⟨hT.eigenvectorBasis j, ?_, ?_⟩
    · have := (orthonormal_iff_ite.1 hT.eigenvectorBasis.orthonormal) j j
      rw [if_pos rfl, EuclideanSpace.inner_eq_star_dotProduct, dotProduct_comm] at this
      exact this
    · have := (orthonormal_iff_ite.1 hT.eigenvectorBasis.orthonormal) j j
      rw [if_pos rfl, EuclideanSpace.inner_eq_star_dotProduct, dotProduct_comm] at this
      rw [hT.mulVec_eigenvectorBasis, dotProduct_smul, this]
      simp
  · rw [lehmann_ofFn, ← h3 z hz, continuedFraction_eq ha hb hz, cf_inverse hk hz]

theorem greenOnMesh_lehmann {alpha beta : List ℝ} {k : ℕ} {L : List (ℝ × ℝ)}
    (h : ∀ z : ℂ, z.im ≠ 0 → continuedFraction alpha beta k z = .ok (lehmann L z)) (omega : List ℝ) {delta : ℝ} (hd : delta ≠ 0)
    (e : ℝ) : greenOnMesh alpha beta k omega delta e
      = .ok (omega.map fun (w : ℝ) => lehmann L ((w : ℂ) + Complex.I * (delta : ℂ) + (e : ℂ))) := by
  unfold greenOnMesh
  exact mapM_ok _ _ _ fun w _ => h _ (by simpa using hd)

/-- `getGreen` as a sum of Lorentzians. -/
theorem getGreen_lehmann {n : ℕ} {psi : Psi ℂ} (hne : psi ≠ []) {hOp : Op ℕ ℂ} {K : ℕ} {cut : ℝ} {r : Option Restrictions}
    {hDict : OpResult ℂ} {fuel : ℕ} {e0 delta0 : ℝ} {omega0 : List ℝ} {x : List ℂ × OpResult ℂ}
    (h : getGreen n e0 psi hOp omega0 delta0 K cut r hDict fuel = .ok x) :
    ∃ L : List (ℝ × ℝ), (∀ p ∈ L, 0 ≤ p.2) ∧ totalWeight L = 1 ∧ L.length ≤ K ∧
      ∀ (e : ℝ) (omega : List ℝ) (delta : ℝ), delta ≠ 0 → getGreen n e psi hOp omega delta K cut r hDict fuel
        = .ok (omega.map fun (w : ℝ) => lehmann L ((w : ℂ) + Complex.I * (delta : ℂ) + (e : ℂ)), x.2) := by
  have hp : psi.length ≠ 0 := fun h => hne (List.length_eq_zero_iff.1 h)
  unfold getGreen at h ⊢
  rw [if_neg hp] at h
  simp only [if_neg hp]
  cases h1 : expandBasisAndHamiltonianSerial n hDict hOp cut (Dict.keys psi) r fuel with
  | error err => rw [h1] at h; cases h
  | ok a =>
    obtain ⟨H, index, hD⟩ := a
    rw [h1] at h
    simp only [ok_bind] at h ⊢
    cases h2 : psiVector index psi with
    | error err => rw [h2] at h; cases h
    | ok psi0 =>
      rw [h2] at h
      simp only [ok_bind] at h ⊢
      cases h3 : tridiagonalKrylov (H.toMatrix index.length) psi0 (min K index.length) with
      | error err => rw [h3] at h; cases h
      | ok ab =>
        rw [h3] at h
        simp only [ok_bind] at h ⊢
        obtain ⟨hk, ha, hb⟩ := tridiagonalKrylov_length h3
        have hm : min (min K index.length) index.length = min K index.length := by omega
        rw [hm] at hk ha hb
        obtain ⟨L, l1, l2, l3, -, l4⟩ := fraction_lehmann hk ha hb
        refine ⟨L, l1, l2, by omega, fun e omega delta hd => ?_⟩
        rw [greenOnMesh_lehmann l4 omega hd e]
        cases h4 : greenOnMesh ab.1 ab.2 (min K index.length) omega0 delta0 e0 with
        | error err => rw [h4] at h; cases h
        | ok g => rw [h4] at h; cases h; rfl

/-! ### getSpectra -/

/-- Other mesh and broadening. -/
def SpectraArgs.on (A : SpectraArgs) (w : List ℝ) (delta : ℝ) : SpectraArgs := { A with w := w, delta := delta }

theorem SpectraArgs.Valid.on {A : SpectraArgs} (hA : A.Valid) (w : List ℝ) {delta : ℝ} (hd : delta ≠ 0) : (A.on w delta).Valid :=
  ⟨hA.hop, hA.cut, hA.weight, hd, hA.krylov, hA.fuel⟩

theorem lehmann_scale (c : ℝ) (L : List (ℝ × ℝ)) (z : ℂ) :
    lehmann (L.map fun p => (p.1, c * p.2)) z = (c : ℂ) * lehmann L z := by
  unfold lehmann
  rw [List.map_map, ← List.sum_map_mul_left]
  congr 1
  refine List.map_congr_left fun p _ => ?_
  simp only [Function.comp_apply, Complex.ofReal_mul]
  ring

theorem totalWeight_scale (c : ℝ) (L : List (ℝ × ℝ)) : totalWeight (L.map fun p => (p.1, c * p.2)) = c * totalWeight L := by
  unfold totalWeight
  rw [List.map_map, ← List.sum_map_mul_left]
  rfl

/-- The spectrum of an excited state as a sum of Lorentzians. -/
theorem spectrumOf_lehmann (A : SpectraArgs) (psiR : Psi ℂ) (hpos : psiR ≠ [] → (0 : ℝ) < norm2 psiR) :
    ∃ L : List (ℝ × ℝ), (∀ p ∈ L, 0 ≤ p.2) ∧ totalWeight L = norm2 psiR ∧
      ∀ (w : List ℝ) (delta e : ℝ), delta ≠ 0 → ∀ g, spectrumOf (A.on w delta) psiR e = .ok g →
        g = w.map fun (x : ℝ) => lehmann L ((x : ℂ) + Complex.I * (delta : ℂ) + (e : ℂ)) := by
  by_cases hnil : psiR = []
  · subst hnil
    refine ⟨[], by simp, by simp [totalWeight, norm2], fun w delta e hd g hg => ?_⟩
    unfold spectrumOf at hg
    have h0 : getGreen (A.on w delta).n e (unit []) (A.on w delta).hOp (A.on w delta).w (A.on w delta).delta
        (A.on w delta).krylovSize (A.on w delta).cut (A.on w delta).restrictions [] (A.on w delta).fuel
        = .ok (List.replicate w.length 0, []) := rfl
    rw [h0] at hg
    simp only [ok_bind, pure_ok] at hg
    cases hg
    unfold scaleSpectrum lehmann
    simp [List.map_const']
  · have hp := hpos hnil
    have hne : unit psiR ≠ [] := by
      intro h
      apply hnil
      have := congrArg List.length h
      unfold unit at this
      rw [List.length_map] at this
      exact List.length_eq_zero_iff.1 this
    by_cases hex : ∃ w delta e g, delta ≠ 0 ∧ spectrumOf (A.on w delta) psiR e = .ok g
    · obtain ⟨w0, d0, e0, g0, -, hg0⟩ := hex
      unfold spectrumOf at hg0
      obtain ⟨x, hx, -⟩ := bind_ok hg0
      obtain ⟨L, l1, l2, -, l4⟩ := getGreen_lehmann hne hx
      refine ⟨L.map fun p => (p.1, norm2 psiR * p.2), ?_, by rw [totalWeight_scale, l2, mul_one], ?_⟩
      · intro p hpm
        obtain ⟨q, hq, rfl⟩ := List.mem_map.1 hpm
        exact mul_nonneg hp.le (l1 q hq)
      · intro w delta e hd g hg
        unfold spectrumOf at hg
        have := l4 e w delta hd
        have h1 : getGreen (A.on w delta).n e (unit psiR) (A.on w delta).hOp (A.on w delta).w (A.on w delta).delta
            (A.on w delta).krylovSize (A.on w delta).cut (A.on w delta).restrictions [] (A.on w delta).fuel = _ := this
        rw [h1] at hg
        simp only [ok_bind, pure_ok] at hg
        cases hg
        unfold scaleSpectrum
        rw [List.map_map]
        refine List.map_congr_left fun y _ => ?_
        rw [lehmann_scale, Function.comp_apply, Real.sq_sqrt hp.le]
    · exact ⟨[(0, norm2 psiR)], by simpa using hp.le, by simp [totalWeight], fun w delta e hd g hg =>
        absurd ⟨w, delta, e, g, hd, hg⟩ hex⟩

theorem lehmann_star (L : List (ℝ × ℝ)) (z : ℂ) : lehmann L (star z) = star (lehmann L z) := by
  unfold lehmann
  induction L with
  | nil => simp
  | cons p L ih =>
    simp only [List.map_cons, List.sum_cons, star_add, ← ih]
    congr 1
    simp [Complex.star_def, map_div₀]

/-- The area of a spectrum taken at `-(w + i delta)`. -/
theorem integral_lehmann_neg (L : List (ℝ × ℝ)) {delta : ℝ} (hd : 0 < delta) (e : ℝ) :
    Integrable (fun w : ℝ => (lehmann L (-((w : ℂ) + Complex.I * (delta : ℂ)) + (e : ℂ))).im) ∧
      ∫ w : ℝ, (lehmann L (-((w : ℂ) + Complex.I * (delta : ℂ)) + (e : ℂ))).im = Real.pi * totalWeight L := by
  obtain ⟨h1, h2⟩ := integral_lehmann L hd e
  have heq : (fun w : ℝ => (lehmann L (-((w : ℂ) + Complex.I * (delta : ℂ)) + (e : ℂ))).im)
      = fun w : ℝ => (fun w : ℝ => -(lehmann L ((w : ℂ) + Complex.I * (delta : ℂ) + (e : ℂ))).im) (-w) := by
    funext w
    have hz : -((w : ℂ) + Complex.I * (delta : ℂ)) + (e : ℂ)
        = star (((-w : ℝ) : ℂ) + Complex.I * (delta : ℂ) + (e : ℂ)) := by
      simp only [Complex.star_def, map_add, map_mul, Complex.conj_ofReal, Complex.conj_I, Complex.ofReal_neg, map_neg]
      ring
    rw [hz, lehmann_star]
    simp
  rw [heq]
  exact ⟨h1.comp_neg, by rw [integral_neg_eq_self (fun w : ℝ => -(lehmann L ((w : ℂ) + Complex.I * (delta : ℂ) + (e : ℂ))).im)]; exact h2⟩

end

end Verif
