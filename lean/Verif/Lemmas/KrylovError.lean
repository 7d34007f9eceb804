/-
The error of the continued fraction for a Krylov space that is not exhausted.
-/
import Verif.Lemmas.Convergence
import Verif.Lemmas.Lehmann
import Verif.Prop.Lanczos

namespace Verif

open Finset Spec Matrix

noncomputable section

/-- The spectral representation of a Hermitian matrix in a vector. -/
theorem spectral_vector {n : ℕ} {H : Matrix (Fin n) (Fin n) ℂ} (hH : H.IsHermitian) (v : Fin n → ℂ) :
    ∃ p : Fin n → ℝ, (∀ j, 0 ≤ p j) ∧
      (∀ z : ℂ, z.im ≠ 0 → Spec.resolvent H v z = ∑ j, (p j : ℂ) / (z - (hH.eigenvalues j : ℂ))) ∧
      ∀ m : ℕ, star v ⬝ᵥ ((H ^ m) *ᵥ v) = ((∑ j, p j * hH.eigenvalues j ^ m : ℝ) : ℂ) := by
  set U : Matrix (Fin n) (Fin n) ℂ := (hH.eigenvectorUnitary : Matrix (Fin n) (Fin n) ℂ) with hU
  have hUU : U * star U = 1 := Unitary.mul_star_self_of_mem hH.eigenvectorUnitary.2
  have hUU' : star U * U = 1 := Unitary.star_mul_self_of_mem hH.eigenvectorUnitary.2
  have hspec : H = U * diagonal (fun j => (hH.eigenvalues j : ℂ)) * star U := by
    have := hH.spectral_theorem
    rw [Unitary.conjStarAlgAut_apply] at this
    exact this
  set y : Fin n → ℂ := star U *ᵥ v with hy
  have hval : ∀ d : Fin n → ℂ, star v ⬝ᵥ ((U * diagonal d * star U) *ᵥ v) = ∑ j, (Complex.normSq (y j) : ℂ) * d j := by
    intro d
    have h1 : star v ⬝ᵥ ((U * diagonal d * star U) *ᵥ v) = star y ⬝ᵥ (diagonal d *ᵥ y) := by
      rw [hy, star_mulVec, star_eq_conjTranspose, conjTranspose_conjTranspose, ← mulVec_mulVec, ← mulVec_mulVec,
        dotProduct_mulVec (star v)]
    rw [h1]
    simp only [dotProduct, mulVec_diagonal, Pi.star_apply]
    refine sum_congr rfl fun j _ => ?_
    rw [← Complex.mul_conj]
    simp only [RCLike.star_def]
    ring
  refine ⟨fun j => Complex.normSq (y j), fun j => Complex.normSq_nonneg _, fun z hz => ?_, fun m => ?_⟩
  · have hne : ∀ j, z - (hH.eigenvalues j : ℂ) ≠ 0 := by
      intro j h
      apply hz
      have := congrArg Complex.im h
      simpa using this
    have hinv : (z • (1 : Matrix (Fin n) (Fin n) ℂ) - H)⁻¹
        = U * diagonal (fun j => (z - (hH.eigenvalues j : ℂ))⁻¹) * star U := by
      apply Matrix.inv_eq_right_inv
      have h1 : z • (1 : Matrix (Fin n) (Fin n) ℂ) - H = U * diagonal (fun j => z - (hH.eigenvalues j : ℂ)) * star U := by
        have h2 : diagonal (fun j => z - (hH.eigenvalues j : ℂ))
            = z • (1 : Matrix (Fin n) (Fin n) ℂ) - diagonal (fun j => (hH.eigenvalues j : ℂ)) := by
          rw [← diagonal_one, ← diagonal_smul, diagonal_sub]
          congr 1
          funext j
          simp
        rw [h2, mul_sub, sub_mul, ← hspec, mul_smul_comm, smul_mul_assoc, mul_one, hUU]
      rw [h1]
      calc U * diagonal (fun j => z - (hH.eigenvalues j : ℂ)) * star U
            * (U * diagonal (fun j => (z - (hH.eigenvalues j : ℂ))⁻¹) * star U)
          = U * (diagonal (fun j => z - (hH.eigenvalues j : ℂ)) * (star U * U)
            * diagonal (fun j => (z - (hH.eigenvalues j : ℂ))⁻¹)) * star U := by noncomm_ring
        _ = 1 := by
          rw [hUU', mul_one, diagonal_mul_diagonal]
          have : (diagonal fun j => (z - (hH.eigenvalues j : ℂ)) * (z - (hH.eigenvalues j : ℂ))⁻¹)
              = (1 : Matrix (Fin n) (Fin n) ℂ) := by
            rw [← diagonal_one]
            congr 1
            funext j
            exact mul_inv_cancel₀ (hne j)
          rw [this, mul_one, hUU]
    unfold Spec.resolvent
    rw [hinv, hval]
    exact sum_congr rfl fun j _ => (div_eq_mul_inv _ _).symm
  · have hpow : H ^ m = U * diagonal (fun j => (hH.eigenvalues j : ℂ) ^ m) * star U := by
      induction m with
      | zero =>
        simp only [pow_zero]
        rw [show (diagonal fun _ : Fin n => (1 : ℂ)) = 1 from diagonal_one, mul_one, hUU]
      | succ m ih =>
        rw [pow_succ, ih]
        refine (congrArg (fun A => U * diagonal (fun j => (hH.eigenvalues j : ℂ) ^ m) * star U * A) hspec).trans ?_
        calc U * diagonal (fun j => (hH.eigenvalues j : ℂ) ^ m) * star U
              * (U * diagonal (fun j => (hH.eigenvalues j : ℂ)) * star U)
            = U * (diagonal (fun j => (hH.eigenvalues j : ℂ) ^ m) * (star U * U)
              * diagonal (fun j => (hH.eigenvalues j : ℂ))) * star U := by noncomm_ring
          _ = _ := by
            rw [hUU', mul_one, diagonal_mul_diagonal]
            simp only [pow_succ]
    rw [hpow, hval, Complex.ofReal_sum]
    refine sum_congr rfl fun j _ => ?_
    push_cast
    rfl

/-- Eigenvalues are expectation values of unit vectors. -/
theorem eigenvalue_expectation {n : ℕ} {H : Matrix (Fin n) (Fin n) ℂ} (hH : H.IsHermitian) (j : Fin n) :
    ∃ u : Fin n → ℂ, star u ⬝ᵥ u = 1 ∧ star u ⬝ᵥ (H *ᵥ u) = (hH.eigenvalues j : ℂ) := by
  have h1 := (orthonormal_iff_ite.1 hH.eigenvectorBasis.orthonormal) j j
  rw [if_pos rfl, EuclideanSpace.inner_eq_star_dotProduct, dotProduct_comm] at h1
  refine ⟨hH.eigenvectorBasis j, h1, ?_⟩
  rw [hH.mulVec_eigenvectorBasis, dotProduct_smul, h1]
  simp

/-- The error of the continued fraction. -/
theorem krylov_error {n : ℕ} {H : Matrix (Fin n) (Fin n) ℂ} (hH : H.IsHermitian) {psi0 : Fin n → ℂ}
    (hnorm : star psi0 ⬝ᵥ psi0 = 1) {K : ℕ} {alpha beta : List ℝ} (h : tridiagonalKrylov H psi0 K = .ok (alpha, beta))
    {c w : ℝ} (hw : 0 < w) (hband : ∀ u : Fin n → ℂ, star u ⬝ᵥ u = 1 → |(star u ⬝ᵥ (H *ᵥ u)).re - c| ≤ w)
    {z : ℂ} (hz : z.im ≠ 0) :
    ∃ g, continuedFraction alpha beta (min K n) z = .ok g ∧ ‖g - Spec.resolvent H psi0 z‖
      ≤ 2 / (|z.im| * Real.sinh (2 * K * Real.arsinh (|z.im| / w))) := by
  have hpos : 0 ≤ 2 / (|z.im| * Real.sinh (2 * K * Real.arsinh (|z.im| / w))) := by
    have h1 : 0 ≤ Real.arsinh (|z.im| / w) := Real.arsinh_nonneg_iff.2 (by positivity)
    have h2 : 0 ≤ Real.sinh (2 * K * Real.arsinh (|z.im| / w)) := Real.sinh_nonneg_iff.2 (by positivity)
    positivity
  by_cases hKn : n ≤ K
  · refine ⟨_, C41_exact H hH psi0 hnorm K alpha beta h (Or.inl hKn) z hz, ?_⟩
    rw [sub_self, norm_zero]
    exact hpos
  have hmin : min K n = K := by omega
  obtain ⟨hk, ha, hb⟩ := tridiagonalKrylov_length h
  dsimp only at ha hb
  obtain ⟨-, -, -, V, -, hV, hT⟩ := C41_tridiagonal H hH psi0 hnorm K alpha beta h
  have hmom := C41_moments H hH psi0 hnorm K alpha beta h
  rw [hmin] at hk ha hb hV ⊢
  have hTH := tridiagonal_hermitian alpha beta K
  obtain ⟨p, p1, p2, p3⟩ := spectral_vector hH psi0
  set e0 : Fin K → ℂ := Pi.single ⟨0, hk⟩ 1 with he0
  obtain ⟨p', q1, q2, q3⟩ := spectral_vector hTH e0
  have hentry : ∀ A : Matrix (Fin K) (Fin K) ℂ, star e0 ⬝ᵥ (A *ᵥ e0) = A ⟨0, hk⟩ ⟨0, hk⟩ := by
    intro A
    have hst : star e0 = e0 := by
      rw [he0]
      ext j
      by_cases hj : j = ⟨0, hk⟩
      · subst hj; simp
      · simp [Pi.single_eq_of_ne hj]
    rw [hst, he0, Matrix.mulVec_single_one, single_dotProduct, one_mul]
    rfl
  refine ⟨_, continuedFraction_eq ha hb hz, ?_⟩
  have hinv := hentry ((z • (1 : Matrix (Fin K) (Fin K) ℂ) - tridiagonal alpha beta K)⁻¹)
  rw [show star e0 ⬝ᵥ ((z • (1 : Matrix (Fin K) (Fin K) ℂ) - tridiagonal alpha beta K)⁻¹ *ᵥ e0)
    = Spec.resolvent (tridiagonal alpha beta K) e0 z from rfl, q2 z hz] at hinv
  rw [← cf_inverse hk hz, ← hinv, p2 z hz]
  -- the energies of the tridiagonal matrix
  have hort : (krylovMat V K)ᴴ * krylovMat V K = 1 := by
    ext i j
    rw [mul_apply]
    simp only [conjTranspose_apply, krylovMat]
    have := hV i i.isLt j j.isLt
    rw [dotProduct] at this
    rw [show (∑ x, star (V i x) * V j x) = _ from this, one_apply]
    simp [Fin.ext_iff]
  have hmat : (krylovMat V K)ᴴ * H * krylovMat V K = tridiagonal alpha beta K := by
    ext i j
    have := hT ⟨i, by omega⟩ ⟨j, by omega⟩
    have e : tridiagonal alpha beta (min K n) ⟨i, by omega⟩ ⟨j, by omega⟩ = tridiagonal alpha beta K i j := by
      unfold tridiagonal
      simp only [Fin.ext_iff]
    rw [e] at this
    rw [← this, Matrix.mul_assoc]
    rfl
  have hbandT : ∀ u : Fin K → ℂ, star u ⬝ᵥ u = 1 → |(star u ⬝ᵥ (tridiagonal alpha beta K *ᵥ u)).re - c| ≤ w := by
    intro u u1
    have hadj : ∀ x : Fin n → ℂ, star (krylovMat V K *ᵥ u) ⬝ᵥ x = star u ⬝ᵥ ((krylovMat V K)ᴴ *ᵥ x) := by
      intro x
      rw [star_mulVec, dotProduct_mulVec]
    have := hband (krylovMat V K *ᵥ u) (by rw [hadj, mulVec_mulVec, hort, one_mulVec, u1])
    rw [hadj, mulVec_mulVec, mulVec_mulVec, hmat] at this
    exact this
  have he : ∀ j, |hH.eigenvalues j - c| ≤ w := by
    intro j
    obtain ⟨u, u1, u2⟩ := eigenvalue_expectation hH j
    have := hband u u1
    rwa [u2, Complex.ofReal_re] at this
  have he' : ∀ j, |hTH.eigenvalues j - c| ≤ w := by
    intro j
    obtain ⟨u, u1, u2⟩ := eigenvalue_expectation hTH j
    have := hbandT u u1
    rwa [u2, Complex.ofReal_re] at this
  have hmoments : ∀ m < 2 * K, ∑ j, p' j * hTH.eigenvalues j ^ m = ∑ j, p j * hH.eigenvalues j ^ m := by
    intro m hm
    have h1 := hmom m (by omega)
    rw [p3 m] at h1
    have h2 := q3 m
    rw [hentry] at h2
    have e : ∀ (k' : ℕ) (_ : k' = K) (h0 : 0 < k'),
        (tridiagonal alpha beta k' ^ m) ⟨0, h0⟩ ⟨0, h0⟩ = (tridiagonal alpha beta K ^ m) ⟨0, hk⟩ ⟨0, hk⟩ := by
      rintro _ rfl _
      rfl
    rw [e _ hmin, h2] at h1
    exact_mod_cast h1.symm
  have hone : ∑ j, p' j = 1 := by
    have h1 := p3 0
    rw [pow_zero, one_mulVec, hnorm] at h1
    have h2 := hmoments 0 (by omega)
    simp only [pow_zero, mul_one] at h1 h2
    rw [h2]
    exact_mod_cast h1.symm
  have := moments_close hk q1 p1 hw he' he hmoments hz
  rwa [hone, mul_one] at this

end

end Verif
