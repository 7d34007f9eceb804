/-
Vectors with a small residual are close to eigenvectors.
-/
import Verif.Lemmas.Weyl
import Verif.Lemmas.Cutoff
import Verif.Spec.Inexact
import Mathlib.Analysis.InnerProductSpace.Spectrum

namespace Verif

open Finset ComplexConjugate Spec

local notation "⟪" x ", " y "⟫" => Inner.inner ℂ x y

section
variable {E : Type} [NormedAddCommGroup E] [InnerProductSpace ℂ E] [FiniteDimensional ℂ E] {T : E →ₗ[ℂ] E}
  (hT : T.IsSymmetric) {x : E} (hx : ‖x‖ = 1) {e r : ℝ} (hr : ‖T x - (e : ℂ) • x‖ ≤ r)

theorem residual_inner (hT : T.IsSymmetric) (x : E) (e : ℝ) (i : Fin (Module.finrank ℂ E)) :
    ⟪hT.eigenvectorBasis rfl i, T x - (e : ℂ) • x⟫
      = ((hT.eigenvalues rfl i - e : ℝ) : ℂ) * ⟪hT.eigenvectorBasis rfl i, x⟫ := by
  rw [inner_sub_right, inner_smul_right, ← hT, hT.apply_eigenvectorBasis, inner_smul_left]
  simp only [RCLike.conj_ofReal]
  push_cast
  rw [sub_mul]
  rfl

theorem residual_sum (hT : T.IsSymmetric) (x : E) (e : ℝ) :
    ‖T x - (e : ℂ) • x‖ ^ 2 = ∑ i, (hT.eigenvalues rfl i - e) ^ 2 * ‖⟪hT.eigenvectorBasis rfl i, x⟫‖ ^ 2 := by
  rw [← (hT.eigenvectorBasis rfl).sum_sq_norm_inner_right]
  refine sum_congr rfl fun i _ => ?_
  rw [residual_inner, norm_mul, mul_pow, Complex.norm_real, Real.norm_eq_abs, sq_abs]

include hx hr in
/-- An energy with a small residual is close to an eigenvalue. -/
theorem near_eigenvalue (hT : T.IsSymmetric) : ∃ (lam : ℝ) (y : E), ‖y‖ = 1 ∧ T y = (lam : ℂ) • y ∧ |lam - e| ≤ r := by
  by_contra hc
  push Not at hc
  have h0 : 0 ≤ r := (norm_nonneg _).trans hr
  have h1 : ∀ i, r ^ 2 < (hT.eigenvalues rfl i - e) ^ 2 := by
    intro i
    have := hc (hT.eigenvalues rfl i) (hT.eigenvectorBasis rfl i) ((hT.eigenvectorBasis rfl).orthonormal.1 i)
      (hT.apply_eigenvectorBasis rfl i)
    rw [← sq_abs (hT.eigenvalues rfl i - e)]
    exact pow_lt_pow_left₀ this h0 two_ne_zero
  have h2 : ∑ i, ‖⟪hT.eigenvectorBasis rfl i, x⟫‖ ^ 2 = 1 := by
    rw [(hT.eigenvectorBasis rfl).sum_sq_norm_inner_right, hx, one_pow]
  have h3 : ‖T x - (e : ℂ) • x‖ ^ 2 ≤ r ^ 2 := pow_le_pow_left₀ (norm_nonneg _) hr 2
  rw [residual_sum hT] at h3
  obtain ⟨i, hi⟩ : ∃ i, ⟪hT.eigenvectorBasis rfl i, x⟫ ≠ 0 := by
    by_contra hz
    push Not at hz
    simp [hz] at h2
  have h4 : ∑ i, r ^ 2 * ‖⟪hT.eigenvectorBasis rfl i, x⟫‖ ^ 2
      < ∑ i, (hT.eigenvalues rfl i - e) ^ 2 * ‖⟪hT.eigenvectorBasis rfl i, x⟫‖ ^ 2 := by
    refine sum_lt_sum (fun j _ => mul_le_mul_of_nonneg_right (h1 j).le (sq_nonneg _)) ⟨i, mem_univ i, ?_⟩
    exact mul_lt_mul_of_pos_right (h1 i) (pow_pos (norm_pos_iff.2 hi) 2)
  rw [← mul_sum, h2, mul_one] at h4
  exact absurd h3 (not_le.2 h4)

include hx hr in
/-- A vector with a small residual is close to an eigenvector if the eigenvalue is isolated. -/
theorem near_eigenvector (hT : T.IsSymmetric) {lam g : ℝ} (hg : r < g)
    (hiso : ∀ (mu : ℝ) (y : E), ‖y‖ = 1 → T y = (mu : ℂ) • y → mu = lam ∨ g ≤ |mu - e|) :
    ∃ y : E, ‖y‖ = 1 ∧ T y = (lam : ℂ) • y ∧ ‖x - y‖ ^ 2 ≤ 2 * (r / g) ^ 2 := by
  classical
  have h0 : 0 ≤ r := (norm_nonneg _).trans hr
  have hg0 : 0 < g := h0.trans_lt hg
  set b := hT.eigenvectorBasis rfl with hb
  set s : Finset (Fin (Module.finrank ℂ E)) := {i | hT.eigenvalues rfl i = lam} with hs
  set c : Fin (Module.finrank ℂ E) → ℂ := fun i => ⟪b i, x⟫ with hc
  have h2 : ∑ i, ‖c i‖ ^ 2 = 1 := by
    rw [hc, b.sum_sq_norm_inner_right, hx, one_pow]
  -- the weight outside the eigenspace
  have h3 : ∑ i ∈ sᶜ, ‖c i‖ ^ 2 ≤ (r / g) ^ 2 := by
    have h3 : ‖T x - (e : ℂ) • x‖ ^ 2 ≤ r ^ 2 := pow_le_pow_left₀ (norm_nonneg _) hr 2
    rw [residual_sum hT] at h3
    rw [div_pow, le_div_iff₀ (pow_pos hg0 2), mul_comm, mul_sum]
    refine le_trans ?_ h3
    refine (sum_le_sum fun i hi => ?_).trans (sum_le_univ_sum_of_nonneg fun i =>
      mul_nonneg (sq_nonneg (hT.eigenvalues rfl i - e)) (sq_nonneg ‖c i‖))
    refine mul_le_mul_of_nonneg_right ?_ (sq_nonneg _)
    rw [mem_compl, hs, mem_filter, not_and] at hi
    rcases hiso _ _ (b.orthonormal.1 i) (hT.apply_eigenvectorBasis rfl i) with h | h
    · exact absurd h (hi (mem_univ _))
    · rw [← sq_abs (hT.eigenvalues rfl i - e)]
      exact pow_le_pow_left₀ hg0.le h 2
  set p : E := ∑ i ∈ s, c i • b i with hp
  have hpp : ⟪p, x⟫ = ((∑ i ∈ s, ‖c i‖ ^ 2 : ℝ) : ℂ) := by
    rw [hp, sum_inner, Complex.ofReal_sum]
    refine sum_congr rfl fun i _ => ?_
    rw [inner_smul_left, Complex.conj_mul']
    push_cast
    rfl
  have hpn : ‖p‖ ^ 2 = ∑ i ∈ s, ‖c i‖ ^ 2 := by
    have := b.orthonormal.inner_sum c c s
    rw [← inner_self_eq_norm_sq (𝕜 := ℂ), hp, this, map_sum]
    refine sum_congr rfl fun i _ => ?_
    rw [Complex.conj_mul', ← Complex.ofReal_pow]
    rfl
  have hTp : T p = (lam : ℂ) • p := by
    rw [hp, map_sum, smul_sum]
    refine sum_congr rfl fun i hi => ?_
    rw [hs, mem_filter] at hi
    rw [map_smul, hb, hT.apply_eigenvectorBasis, hi.2, smul_comm]
    rfl
  have hsplit : ‖p‖ ^ 2 + ∑ i ∈ sᶜ, ‖c i‖ ^ 2 = 1 := by
    rw [hpn, sum_add_sum_compl, h2]
  have hrg : (r / g) ^ 2 < 1 := by
    have h1 : r / g < 1 := (div_lt_one hg0).2 hg
    have h2 : 0 ≤ r / g := div_nonneg h0 hg0.le
    nlinarith
  have hp0 : 0 < ‖p‖ := by
    rw [norm_pos_iff]
    intro h
    rw [h, norm_zero] at hsplit
    norm_num at hsplit
    linarith
  have hp1 : ‖p‖ ≤ 1 := by
    have : 0 ≤ ∑ i ∈ sᶜ, ‖c i‖ ^ 2 := sum_nonneg fun i _ => sq_nonneg _
    nlinarith
  refine ⟨((‖p‖⁻¹ : ℝ) : ℂ) • p, ?_, ?_, ?_⟩
  · rw [norm_smul, Complex.norm_real, norm_inv, norm_norm, inv_mul_cancel₀ hp0.ne']
  · rw [map_smul, hTp, smul_comm]
  · have hn : ‖((‖p‖⁻¹ : ℝ) : ℂ) • p‖ = 1 := by
      rw [norm_smul, Complex.norm_real, norm_inv, norm_norm, inv_mul_cancel₀ hp0.ne']
    have hi : RCLike.re ⟪x, ((‖p‖⁻¹ : ℝ) : ℂ) • p⟫ = ‖p‖ := by
      rw [inner_smul_right, ← inner_conj_symm, hpp, ← hpn, Complex.conj_ofReal, ← Complex.ofReal_mul]
      show ‖p‖⁻¹ * ‖p‖ ^ 2 = ‖p‖
      field_simp
    rw [norm_sub_sq (𝕜 := ℂ), hi, hn, hx]
    nlinarith

end

/-! ### Product states -/

section
variable {s : Finset (Finset ℕ)} {h h' : Finset ℕ → Finset ℕ → ℂ}

/-- The length of `D y` for a matrix `D` with column and row sums at most `c`. -/
theorem schur_test {D : Finset ℕ → Finset ℕ → ℂ} {c : ℝ} (hcol : ∀ T ∈ s, ∑ S ∈ s, ‖D S T‖ ≤ c)
    (hrow : ∀ S ∈ s, ∑ T ∈ s, ‖D S T‖ ≤ c) (y : Finset ℕ → ℂ) :
    ∑ S ∈ s, Complex.normSq (∑ T ∈ s, D S T * y T) ≤ c ^ 2 * ∑ T ∈ s, Complex.normSq (y T) := by
  have h1 : ∀ S ∈ s, Complex.normSq (∑ T ∈ s, D S T * y T) ≤ c * ∑ T ∈ s, ‖D S T‖ * ‖y T‖ ^ 2 := by
    intro S hS
    rw [Complex.normSq_eq_norm_sq]
    have h2 : ‖∑ T ∈ s, D S T * y T‖ ≤ ∑ T ∈ s, ‖D S T‖ * ‖y T‖ :=
      (norm_sum_le _ _).trans (le_of_eq (sum_congr rfl fun T _ => norm_mul _ _))
    have h3 : (∑ T ∈ s, ‖D S T‖ * ‖y T‖) ^ 2 ≤ (∑ T ∈ s, ‖D S T‖) * ∑ T ∈ s, ‖D S T‖ * ‖y T‖ ^ 2 :=
      sum_sq_le_sum_mul_sum_of_sq_eq_mul s (fun T _ => norm_nonneg _) (fun T _ => by positivity) (fun T _ => by ring)
    refine (pow_le_pow_left₀ (norm_nonneg _) h2 2).trans (h3.trans ?_)
    exact mul_le_mul_of_nonneg_right (hrow S hS) (sum_nonneg fun T _ => by positivity)
  refine (sum_le_sum h1).trans ?_
  rw [← mul_sum, sum_comm]
  have h4 : ∑ T ∈ s, ∑ S ∈ s, ‖D S T‖ * ‖y T‖ ^ 2 ≤ c * ∑ T ∈ s, Complex.normSq (y T) := by
    rw [mul_sum]
    refine sum_le_sum fun T hT => ?_
    rw [← sum_mul, Complex.normSq_eq_norm_sq]
    exact mul_le_mul_of_nonneg_right (hcol T hT) (sq_nonneg _)
  rcases s.eq_empty_or_nonempty with rfl | ⟨T, hT⟩
  · simp
  · have hc0 : 0 ≤ c := (sum_nonneg fun S _ => norm_nonneg _).trans (hcol T hT)
    calc c * ∑ T ∈ s, ∑ S ∈ s, ‖D S T‖ * ‖y T‖ ^ 2 ≤ c * (c * ∑ T ∈ s, Complex.normSq (y T)) :=
          mul_le_mul_of_nonneg_left h4 hc0
      _ = c ^ 2 * ∑ T ∈ s, Complex.normSq (y T) := by ring

/-- The residual for a slightly different matrix. -/
theorem residual_close (hh : ∀ S ∈ s, ∀ T ∈ s, h S T = star (h T S)) (hh' : ∀ S ∈ s, ∀ T ∈ s, h' S T = star (h' T S))
    {c : ℝ} (hc0 : 0 ≤ c) (hc : ∀ T ∈ s, ∑ S ∈ s, ‖h S T - h' S T‖ ≤ c) {y : Finset ℕ → ℂ}
    (hy : ∑ S ∈ s, Complex.normSq (y S) = 1) {e r : ℝ} (hr0 : 0 ≤ r)
    (hr : ∑ S ∈ s, Complex.normSq (∑ T ∈ s, h S T * y T - e * y S) ≤ r ^ 2) :
    ∑ S ∈ s, Complex.normSq (∑ T ∈ s, h' S T * y T - e * y S) ≤ (r + c) ^ 2 := by
  have hrow : ∀ S ∈ s, ∑ T ∈ s, ‖h S T - h' S T‖ ≤ c := by
    intro S hS
    refine le_trans (le_of_eq (sum_congr rfl fun T hT => ?_)) (hc S hS)
    rw [hh S hS T hT, hh' S hS T hT, ← star_sub, norm_star]
  have h1 := schur_test hc hrow y
  rw [hy, mul_one, ← norm_onStates] at h1
  rw [← norm_onStates] at hr
  rw [← norm_onStates]
  have e1 : (onStates s fun S => ∑ T ∈ s, h' S T * y T - e * y S)
      = (onStates s fun S => ∑ T ∈ s, h S T * y T - e * y S) - onStates s fun S => ∑ T ∈ s, (h S T - h' S T) * y T := by
    apply PiLp.ext
    intro S
    simp only [onStates, PiLp.sub_apply, sub_mul, sum_sub_distrib]
    ring
  rw [e1]
  refine pow_le_pow_left₀ (norm_nonneg _) ((norm_sub_le _ _).trans (add_le_add ?_ ?_)) 2
  · exact le_of_sq_le_sq hr hr0
  · exact le_of_sq_le_sq h1 hc0

end

end Verif
