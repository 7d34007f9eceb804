/-
Two spectral representations with equal moments have nearly equal resolvents away from the real axis.
-/
import Mathlib.Analysis.SpecialFunctions.Trigonometric.Chebyshev.RootsExtrema
import Mathlib.Analysis.SpecialFunctions.Arsinh
import Mathlib.Analysis.SpecialFunctions.Trigonometric.Complex
import Mathlib.Analysis.Complex.Basic
import Mathlib.Algebra.BigOperators.Field

namespace Verif

open Finset Polynomial

noncomputable section

/-- `|cos θ|` is at least `|sinh (Im θ)|`. -/
theorem sinh_le_norm_cos (θ : ℂ) : Real.sinh |θ.im| ≤ ‖Complex.cos θ‖ := by
  have h0 : 0 ≤ Real.sinh |θ.im| := Real.sinh_nonneg_iff.2 (abs_nonneg _)
  refine le_of_sq_le_sq ?_ (norm_nonneg _)
  have h1 : Real.sinh |θ.im| ^ 2 = Real.sinh θ.im ^ 2 := by
    rcases abs_choice θ.im with h | h <;> rw [h]
    rw [Real.sinh_neg, neg_sq]
  rw [h1, ← Complex.normSq_eq_norm_sq, Complex.cos_eq θ, Complex.normSq_apply]
  have hre : (Complex.cos (θ.re : ℂ) * Complex.cosh (θ.im : ℂ) - Complex.sin (θ.re : ℂ) * Complex.sinh (θ.im : ℂ) * Complex.I).re
      = Real.cos θ.re * Real.cosh θ.im := by
    rw [← Complex.ofReal_cos, ← Complex.ofReal_cosh, ← Complex.ofReal_sin, ← Complex.ofReal_sinh]
    simp [-Complex.ofReal_cos, -Complex.ofReal_cosh, -Complex.ofReal_sin, -Complex.ofReal_sinh]
  have him : (Complex.cos (θ.re : ℂ) * Complex.cosh (θ.im : ℂ) - Complex.sin (θ.re : ℂ) * Complex.sinh (θ.im : ℂ) * Complex.I).im
      = -(Real.sin θ.re * Real.sinh θ.im) := by
    rw [← Complex.ofReal_cos, ← Complex.ofReal_cosh, ← Complex.ofReal_sin, ← Complex.ofReal_sinh]
    simp [-Complex.ofReal_cos, -Complex.ofReal_cosh, -Complex.ofReal_sin, -Complex.ofReal_sinh]
  rw [hre, him]
  nlinarith [Real.cosh_sq θ.im, Real.sin_sq_add_cos_sq θ.re, sq_nonneg (Real.cos θ.re), sq_nonneg (Real.sinh θ.im)]

/-- `|Im cos θ|` is at most `sinh |Im θ|`. -/
theorem abs_im_cos_le (θ : ℂ) : |(Complex.cos θ).im| ≤ Real.sinh |θ.im| := by
  have him : (Complex.cos θ).im = -(Real.sin θ.re * Real.sinh θ.im) := by
    rw [Complex.cos_eq θ, ← Complex.ofReal_cos, ← Complex.ofReal_cosh, ← Complex.ofReal_sin, ← Complex.ofReal_sinh]
    simp [-Complex.ofReal_cos, -Complex.ofReal_cosh, -Complex.ofReal_sin, -Complex.ofReal_sinh]
  have h2 : |Real.sinh θ.im| = Real.sinh |θ.im| := Real.abs_sinh θ.im
  rw [him, abs_neg, abs_mul, h2]
  exact mul_le_of_le_one_left (Real.sinh_nonneg_iff.2 (abs_nonneg _)) (Real.abs_sin_le_one _)

/-- Chebyshev polynomials grow away from the real axis. -/
theorem chebyshev_large (m : ℕ) (z : ℂ) :
    Real.sinh (m * Real.arsinh |z.im|) ≤ ‖(Chebyshev.T ℂ m).eval z‖ := by
  obtain ⟨θ, rfl⟩ := Complex.cos_surjective z
  have h := Chebyshev.T_complex_cos θ (m : ℤ)
  rw [h]
  refine le_trans ?_ (sinh_le_norm_cos _)
  rw [Real.sinh_le_sinh]
  have h1 : (((m : ℤ) : ℂ) * θ).im = m * θ.im := by simp
  rw [h1, abs_mul, abs_of_nonneg (Nat.cast_nonneg m : (0 : ℝ) ≤ m)]
  refine mul_le_mul_of_nonneg_left ?_ (Nat.cast_nonneg m)
  rw [← Real.arsinh_sinh |θ.im|, Real.arsinh_le_arsinh]
  exact abs_im_cos_le θ

/-- Sums of a polynomial agree if the moments up to its degree do. -/
theorem sum_poly {ι κ : Type} [Fintype ι] [Fintype κ] {p ε : ι → ℝ} {p' ε' : κ → ℝ} {K : ℕ}
    (hmom : ∀ m < K, ∑ j, p j * ε j ^ m = ∑ j, p' j * ε' j ^ m) (s : ℂ[X]) (hs : s.natDegree < K) :
    ∑ j, (p j : ℂ) * s.eval (ε j : ℂ) = ∑ j, (p' j : ℂ) * s.eval (ε' j : ℂ) := by
  have key : ∀ {τ : Type} [Fintype τ] (q η : τ → ℝ), ∑ j, (q j : ℂ) * s.eval (η j : ℂ)
      = ∑ i ∈ range (s.natDegree + 1), s.coeff i * ((∑ j, q j * η j ^ i : ℝ) : ℂ) := by
    intro τ _ q η
    simp only [eval_eq_sum_range, mul_sum, Complex.ofReal_sum]
    rw [sum_comm]
    refine sum_congr rfl fun i _ => sum_congr rfl fun j _ => ?_
    push_cast
    ring
  rw [key, key]
  refine sum_congr rfl fun i hi => ?_
  rw [hmom i (by rw [mem_range] at hi; omega)]

/-- Two spectral representations with energies within `w` of `c` and equal moments below `2 k`. -/
theorem moments_close {ι κ : Type} [Fintype ι] [Fintype κ] {p ε : ι → ℝ} {p' ε' : κ → ℝ} {k : ℕ} (hk : 0 < k)
    (hp : ∀ j, 0 ≤ p j) (hp' : ∀ j, 0 ≤ p' j) {c w : ℝ} (hw : 0 < w) (he : ∀ j, |ε j - c| ≤ w) (he' : ∀ j, |ε' j - c| ≤ w)
    (hmom : ∀ m < 2 * k, ∑ j, p j * ε j ^ m = ∑ j, p' j * ε' j ^ m) {z : ℂ} (hz : z.im ≠ 0) :
    ‖∑ j, (p j : ℂ) / (z - (ε j : ℂ)) - ∑ j, (p' j : ℂ) / (z - (ε' j : ℂ))‖
      ≤ 2 * (∑ j, p j) / (|z.im| * Real.sinh (2 * k * Real.arsinh (|z.im| / w))) := by
  have hwC : (w : ℂ) ≠ 0 := by exact_mod_cast hw.ne'
  set l : ℂ[X] := C ((w : ℂ)⁻¹) * X + C (-((w : ℂ)⁻¹ * (c : ℂ))) with hl
  have hlev : ∀ x : ℂ, l.eval x = (x - c) / w := by
    intro x
    rw [hl]
    simp only [eval_add, eval_mul, eval_C, eval_X]
    rw [div_eq_inv_mul]
    ring
  have hldeg : l.natDegree = 1 := by
    rw [hl]
    exact natDegree_linear (inv_ne_zero hwC)
  set q : ℂ[X] := (Chebyshev.T ℂ ((2 * k : ℕ) : ℤ)).comp l with hq
  have hqdeg : q.natDegree = 2 * k := by
    rw [hq, natDegree_comp, hldeg, mul_one, Chebyshev.natDegree_T, Int.natAbs_natCast]
  set Q : ℝ := Real.sinh (2 * k * Real.arsinh (|z.im| / w)) with hQ
  have hzpos : 0 < |z.im| := abs_pos.2 hz
  have hQpos : 0 < Q := by
    rw [hQ, Real.sinh_pos_iff]
    have : 0 < Real.arsinh (|z.im| / w) := Real.arsinh_pos_iff.2 (by positivity)
    positivity
  have hqz : Q ≤ ‖q.eval z‖ := by
    have h := chebyshev_large (2 * k) ((z - c) / w)
    have h1 : |((z - c) / (w : ℂ)).im| = |z.im| / w := by
      rw [Complex.div_ofReal_im, Complex.sub_im, Complex.ofReal_im, sub_zero, abs_div, abs_of_pos hw]
    rw [h1] at h
    rw [hq, eval_comp, hlev, hQ]
    push_cast at h ⊢
    exact h
  have hqz0 : q.eval z ≠ 0 := by
    intro h
    rw [h, norm_zero] at hqz
    linarith
  have hqx : ∀ x : ℝ, |x - c| ≤ w → ‖q.eval (x : ℂ)‖ ≤ 1 := by
    intro x hx
    have h1 : ((x : ℂ) - c) / w = (((x - c) / w : ℝ) : ℂ) := by push_cast; rfl
    have h2 := Chebyshev.algebraMap_eval_T (R := ℝ) (R' := ℂ) ((x - c) / w) ((2 * k : ℕ) : ℤ)
    rw [hq, eval_comp, hlev, h1]
    have h2' : (((Chebyshev.T ℝ ((2 * k : ℕ) : ℤ)).eval ((x - c) / w) : ℝ) : ℂ)
      = (Chebyshev.T ℂ ((2 * k : ℕ) : ℤ)).eval (((x - c) / w : ℝ) : ℂ) := h2
    rw [← h2', Complex.norm_real, Real.norm_eq_abs]
    refine Chebyshev.abs_eval_T_real_le_one _ ?_
    rw [abs_div, abs_of_pos hw]
    exact div_le_one_of_le₀ hx hw.le
  obtain ⟨s, hs⟩ := X_sub_C_dvd_sub_C_eval (p := q) (a := z)
  have hsdeg : s.natDegree < 2 * k := by
    by_cases hs0 : s = 0
    · rw [hs0, natDegree_zero]; omega
    · have h1 := congrArg natDegree hs
      rw [natDegree_sub_C, natDegree_mul (X_sub_C_ne_zero z) hs0, natDegree_X_sub_C, hqdeg] at h1
      omega
  have hne : ∀ x : ℝ, z - (x : ℂ) ≠ 0 := by
    intro x h
    apply hz
    have := congrArg Complex.im h
    simpa using this
  have hsplit : ∀ x : ℝ, 1 / (z - (x : ℂ)) = s.eval (x : ℂ) / q.eval z + q.eval (x : ℂ) / (q.eval z * (z - (x : ℂ))) := by
    intro x
    have h1 := congrArg (eval (x : ℂ)) hs
    simp only [eval_sub, eval_C, eval_mul, eval_X] at h1
    have := hne x
    field_simp
    linear_combination -h1
  have hrest : ∀ x : ℝ, |x - c| ≤ w → ‖q.eval (x : ℂ) / (q.eval z * (z - (x : ℂ)))‖ ≤ 1 / (|z.im| * Q) := by
    intro x hx
    rw [norm_div, norm_mul]
    have h1 : |z.im| ≤ ‖z - (x : ℂ)‖ := by
      have := Complex.abs_im_le_norm (z - (x : ℂ))
      simpa using this
    refine div_le_div₀ zero_le_one (hqx x hx) (by positivity) ?_
    rw [mul_comm]
    exact mul_le_mul hqz h1 hzpos.le (norm_nonneg _)
  have hsum : ∀ {τ : Type} [Fintype τ] (P η : τ → ℝ), ∑ j, (P j : ℂ) / (z - (η j : ℂ))
      = (∑ j, (P j : ℂ) * s.eval (η j : ℂ)) / q.eval z
        + ∑ j, (P j : ℂ) * (q.eval (η j : ℂ) / (q.eval z * (z - (η j : ℂ)))) := by
    intro τ _ P η
    rw [Finset.sum_div, ← sum_add_distrib]
    refine sum_congr rfl fun j _ => ?_
    rw [div_eq_mul_one_div, hsplit]
    ring
  have hbd : ∀ {τ : Type} [Fintype τ] (P η : τ → ℝ), (∀ j, 0 ≤ P j) → (∀ j, |η j - c| ≤ w) →
      ‖∑ j, (P j : ℂ) * (q.eval (η j : ℂ) / (q.eval z * (z - (η j : ℂ))))‖ ≤ (∑ j, P j) * (1 / (|z.im| * Q)) := by
    intro τ _ P η hP hη
    refine (norm_sum_le _ _).trans ?_
    rw [sum_mul]
    refine sum_le_sum fun j _ => ?_
    rw [norm_mul, Complex.norm_real, Real.norm_of_nonneg (hP j)]
    exact mul_le_mul_of_nonneg_left (hrest _ (hη j)) (hP j)
  have htot : ∑ j, p' j = ∑ j, p j := by
    have := hmom 0 (by omega)
    simpa using this.symm
  rw [hsum p ε, hsum p' ε', sum_poly hmom s hsdeg, add_sub_add_left_eq_sub]
  refine (norm_sub_le _ _).trans ((add_le_add (hbd p ε hp he) (hbd p' ε' hp' he')).trans (le_of_eq ?_))
  rw [htot]
  ring

end

end Verif
