/-
Small changes of the coefficients change the continued fraction by little.
-/
import Verif.Lemmas.Fraction
import Mathlib.Algebra.Order.BigOperators.Group.Finset
import Mathlib.Algebra.BigOperators.Field
import Mathlib.Tactic.NoncommRing
import Mathlib.Data.List.GetD

namespace Verif

open Matrix Spec Finset

noncomputable section

variable {n : ℕ}

/-- `x* x` as a sum. -/
theorem star_dot_self (x : Fin n → ℂ) : star x ⬝ᵥ x = ((∑ i, ‖x i‖ ^ 2 : ℝ) : ℂ) := by
  rw [Complex.ofReal_sum]
  refine sum_congr rfl fun i _ => ?_
  rw [Complex.ofReal_pow]
  exact Complex.conj_mul' (x i)

/-- Cauchy-Schwarz. -/
theorem norm_star_dot_le (x y : Fin n → ℂ) :
    ‖star x ⬝ᵥ y‖ ^ 2 ≤ (∑ i, ‖x i‖ ^ 2) * ∑ i, ‖y i‖ ^ 2 := by
  have h1 : ‖star x ⬝ᵥ y‖ ≤ ∑ i, ‖x i‖ * ‖y i‖ := by
    refine (norm_sum_le _ _).trans (le_of_eq (sum_congr rfl fun i _ => ?_))
    rw [norm_mul, Pi.star_apply, norm_star]
  exact (pow_le_pow_left₀ (norm_nonneg _) h1 2).trans (sum_mul_sq_le_sq_mul_sq _ _ _)

/-- The resolvent makes a vector longer by at most the inverse distance to the real axis. -/
theorem resolvent_vector_le {H : Matrix (Fin n) (Fin n) ℂ} (hH : H.IsHermitian) {z : ℂ} (hz : z.im ≠ 0) (v : Fin n → ℂ) :
    ∑ i, ‖((z • (1 : Matrix (Fin n) (Fin n) ℂ) - H)⁻¹ *ᵥ v) i‖ ^ 2 ≤ (∑ i, ‖v i‖ ^ 2) / z.im ^ 2 := by
  set A := z • (1 : Matrix (Fin n) (Fin n) ℂ) - H with hA
  set x := A⁻¹ *ᵥ v with hx
  have hdet : IsUnit A.det := (Matrix.isUnit_iff_isUnit_det A).1 (isUnit_resolvent hH hz)
  have hAx : A *ᵥ x = v := by
    rw [hx, mulVec_mulVec, mul_nonsing_inv _ hdet, one_mulVec]
  have h2 : star x ⬝ᵥ (A *ᵥ x) = z * ((∑ i, ‖x i‖ ^ 2 : ℝ) : ℂ) - star x ⬝ᵥ (H *ᵥ x) := by
    rw [hA, sub_mulVec, smul_mulVec, one_mulVec, dotProduct_sub, dotProduct_smul, star_dot_self, smul_eq_mul]
  rw [hAx] at h2
  have hcs := norm_star_dot_le x v
  set s := ∑ i, ‖x i‖ ^ 2 with hs
  set t := ∑ i, ‖v i‖ ^ 2 with ht
  have h3 : z.im * s = (star x ⬝ᵥ v).im := by
    rw [h2, Complex.sub_im, hermitian_real hH, sub_zero, Complex.mul_im, Complex.ofReal_re, Complex.ofReal_im,
      mul_zero, zero_add]
  have hs0 : 0 ≤ s := sum_nonneg fun i _ => by positivity
  have hd : 0 < |z.im| := abs_pos.2 hz
  have h4 : |z.im| * s ≤ ‖star x ⬝ᵥ v‖ := by
    rw [← abs_of_nonneg hs0, ← abs_mul, h3]
    exact Complex.abs_im_le_norm _
  have h6 : z.im ^ 2 * s ^ 2 ≤ s * t := by
    have := pow_le_pow_left₀ (mul_nonneg hd.le hs0) h4 2
    rw [mul_pow, sq_abs] at this
    exact this.trans hcs
  rw [le_div_iff₀ (by positivity)]
  rcases hs0.eq_or_lt with h | h
  · rw [← h, zero_mul]
    exact sum_nonneg fun i _ => by positivity
  · refine le_of_mul_le_mul_right ?_ h
    calc s * z.im ^ 2 * s = z.im ^ 2 * s ^ 2 := by ring
      _ ≤ s * t := h6
      _ = t * s := mul_comm _ _

/-- Two Hermitian matrices whose difference has row sums up to `c`. -/
theorem resolvent_matrix_close {H H' : Matrix (Fin n) (Fin n) ℂ} (hH : H.IsHermitian) (hH' : H'.IsHermitian) {z : ℂ}
    (hz : z.im ≠ 0) {c : ℝ} (hc0 : 0 ≤ c) (hc : ∀ i, ∑ j, ‖H i j - H' i j‖ ≤ c) (v : Fin n → ℂ) :
    ‖Spec.resolvent H v z - Spec.resolvent H' v z‖ ≤ c * (∑ i, ‖v i‖ ^ 2) / z.im ^ 2 := by
  unfold Spec.resolvent
  set A := z • (1 : Matrix (Fin n) (Fin n) ℂ) - H with hA
  set B := z • (1 : Matrix (Fin n) (Fin n) ℂ) - H' with hB
  set Ac := (star z) • (1 : Matrix (Fin n) (Fin n) ℂ) - H with hAc
  have hzc : (star z).im ≠ 0 := by
    rw [Complex.star_def, Complex.conj_im]
    exact neg_ne_zero.2 hz
  have hAd : IsUnit A.det := (Matrix.isUnit_iff_isUnit_det A).1 (isUnit_resolvent hH hz)
  have hBd : IsUnit B.det := (Matrix.isUnit_iff_isUnit_det B).1 (isUnit_resolvent hH' hz)
  have hAH : Aᴴ = Ac := by
    rw [hA, hAc, conjTranspose_sub, conjTranspose_smul, conjTranspose_one, hH.eq]
  have hdiff : A⁻¹ - B⁻¹ = A⁻¹ * (H - H') * B⁻¹ := by
    have e : H - H' = B - A := by rw [hA, hB]; abel
    rw [e]
    calc A⁻¹ - B⁻¹ = A⁻¹ * (B * B⁻¹) - (A⁻¹ * A) * B⁻¹ := by
          rw [mul_nonsing_inv _ hBd, nonsing_inv_mul _ hAd, mul_one, one_mul]
      _ = _ := by noncomm_ring
  set x := Ac⁻¹ *ᵥ v with hx
  set y := B⁻¹ *ᵥ v with hy
  have hxs : ∑ i, ‖x i‖ ^ 2 ≤ (∑ i, ‖v i‖ ^ 2) / z.im ^ 2 := by
    have := resolvent_vector_le hH hzc v
    rw [Complex.star_def, Complex.conj_im, neg_sq] at this
    exact this
  have hys : ∑ i, ‖y i‖ ^ 2 ≤ (∑ i, ‖v i‖ ^ 2) / z.im ^ 2 := resolvent_vector_le hH' hz v
  have hval : star v ⬝ᵥ (A⁻¹ *ᵥ v) - star v ⬝ᵥ (B⁻¹ *ᵥ v) = ∑ i, ∑ j, star (x i) * ((H i j - H' i j) * y j) := by
    rw [← dotProduct_sub, ← sub_mulVec, hdiff, ← mulVec_mulVec, ← mulVec_mulVec, dotProduct_mulVec]
    have e1 : star v ᵥ* A⁻¹ = star x := by
      rw [hx, star_mulVec, conjTranspose_nonsing_inv, ← hAH, conjTranspose_conjTranspose]
    rw [e1, ← hy]
    clear_value y x
    simp only [dotProduct, mulVec, mul_sum, Pi.star_apply, Matrix.sub_apply]
  have hcol : ∀ j, ∑ i, ‖H i j - H' i j‖ ≤ c := by
    intro j
    refine le_trans (le_of_eq (sum_congr rfl fun i _ => ?_)) (hc j)
    rw [← norm_star (H j i - H' j i), star_sub, hH.apply i j, hH'.apply i j]
  have hz2 : (0 : ℝ) < z.im ^ 2 := by positivity
  rw [hval]
  calc ‖∑ i, ∑ j, star (x i) * ((H i j - H' i j) * y j)‖
      ≤ ∑ i, ∑ j, ‖star (x i) * ((H i j - H' i j) * y j)‖ :=
        (norm_sum_le _ _).trans (sum_le_sum fun i _ => norm_sum_le _ _)
    _ ≤ ∑ i, ∑ j, (‖H i j - H' i j‖ * ‖x i‖ ^ 2 + ‖H i j - H' i j‖ * ‖y j‖ ^ 2) / 2 := by
        refine sum_le_sum fun i _ => sum_le_sum fun j _ => ?_
        rw [norm_mul, norm_mul, norm_star]
        nlinarith [mul_nonneg (norm_nonneg (H i j - H' i j)) (sq_nonneg (‖x i‖ - ‖y j‖))]
    _ = (∑ i, (∑ j, ‖H i j - H' i j‖) * ‖x i‖ ^ 2 + ∑ j, (∑ i, ‖H i j - H' i j‖) * ‖y j‖ ^ 2) / 2 := by
        simp only [← sum_div, sum_add_distrib, sum_mul]
        rw [sum_comm (f := fun i j => ‖H i j - H' i j‖ * ‖y j‖ ^ 2)]
    _ ≤ (∑ i, c * ‖x i‖ ^ 2 + ∑ j, c * ‖y j‖ ^ 2) / 2 := by
        gcongr with i _ j _
        · exact hc i
        · exact hcol j
    _ ≤ c * (∑ i, ‖v i‖ ^ 2) / z.im ^ 2 := by
        rw [← mul_sum, ← mul_sum]
        have h1 := mul_le_mul_of_nonneg_left hxs hc0
        have h2 := mul_le_mul_of_nonneg_left hys hc0
        rw [← mul_div_assoc] at h1 h2
        linarith

/-- Two vectors. -/
theorem resolvent_vector_close {H : Matrix (Fin n) (Fin n) ℂ} (hH : H.IsHermitian) {z : ℂ} (hz : z.im ≠ 0)
    (v v' : Fin n → ℂ) {a a' ρ : ℝ} (ha0 : 0 ≤ a) (ha0' : 0 ≤ a') (hρ : 0 ≤ ρ) (ha : ∑ i, ‖v i‖ ^ 2 ≤ a ^ 2)
    (ha' : ∑ i, ‖v' i‖ ^ 2 ≤ a' ^ 2) (hd : ∑ i, ‖v i - v' i‖ ^ 2 ≤ ρ ^ 2) :
    ‖Spec.resolvent H v z - Spec.resolvent H v' z‖ ≤ ρ * (a + a') / |z.im| := by
  unfold Spec.resolvent
  set R := (z • (1 : Matrix (Fin n) (Fin n) ℂ) - H)⁻¹ with hR
  have hzp : 0 < |z.im| := abs_pos.2 hz
  have hval : star v ⬝ᵥ (R *ᵥ v) - star v' ⬝ᵥ (R *ᵥ v') = star (v - v') ⬝ᵥ (R *ᵥ v) + star v' ⬝ᵥ (R *ᵥ (v - v')) := by
    rw [star_sub, sub_dotProduct, mulVec_sub, dotProduct_sub]
    ring
  have hb : ∀ (x y : Fin n → ℂ) {p q : ℝ}, 0 ≤ p → 0 ≤ q → ∑ i, ‖x i‖ ^ 2 ≤ p ^ 2 → ∑ i, ‖y i‖ ^ 2 ≤ q ^ 2 →
      ‖star x ⬝ᵥ (R *ᵥ y)‖ ≤ p * q / |z.im| := by
    intro x y p q hp hq h1 h2
    refine le_of_sq_le_sq ?_ (by positivity)
    refine (norm_star_dot_le _ _).trans ?_
    have h3 := resolvent_vector_le hH hz y
    rw [div_pow, mul_pow, sq_abs, mul_div_assoc]
    refine mul_le_mul h1 (h3.trans ?_) (sum_nonneg fun i _ => by positivity) (by positivity)
    gcongr
  rw [hval]
  refine (norm_add_le _ _).trans ?_
  have h1 := hb (v - v') v hρ ha0 hd ha
  have h2 := hb v' (v - v') ha0' hρ ha' hd
  have e : ρ * (a + a') / |z.im| = ρ * a / |z.im| + a' * ρ / |z.im| := by ring
  rw [e]
  exact add_le_add h1 h2

/-- One element of the resolvents. -/
theorem resolvent_close {H H' : Matrix (Fin n) (Fin n) ℂ} (hH : H.IsHermitian) (hH' : H'.IsHermitian) {z : ℂ}
    (hz : z.im ≠ 0) {c : ℝ} (hc : ∀ i, ∑ j, ‖H i j - H' i j‖ ≤ c) (p : Fin n) :
    ‖(z • (1 : Matrix (Fin n) (Fin n) ℂ) - H)⁻¹ p p - (z • (1 : Matrix (Fin n) (Fin n) ℂ) - H')⁻¹ p p‖ ≤ c / z.im ^ 2 := by
  have hc0 : 0 ≤ c := (sum_nonneg fun j _ => norm_nonneg _).trans (hc p)
  have := resolvent_matrix_close hH hH' hz hc0 hc (Pi.single p 1)
  have hst : star (Pi.single p 1 : Fin n → ℂ) = Pi.single p 1 := by
    ext j
    by_cases hj : j = p
    · subst hj; simp
    · simp [Pi.single_eq_of_ne hj]
  have hentry : ∀ A : Matrix (Fin n) (Fin n) ℂ, star (Pi.single p 1 : Fin n → ℂ) ⬝ᵥ (A *ᵥ Pi.single p 1) = A p p := by
    intro A
    rw [hst, Matrix.mulVec_single_one, single_dotProduct, one_mul]
    rfl
  have hone : ∑ i, ‖(Pi.single p 1 : Fin n → ℂ) i‖ ^ 2 = 1 := by
    rw [sum_eq_single p]
    · simp
    · intro j _ hj; simp [Pi.single_eq_of_ne hj]
    · intro h; exact absurd (mem_univ p) h
  unfold Spec.resolvent at this
  rwa [hentry, hentry, hone, mul_one] at this

theorem tridiagonal_rows {alpha beta alpha' beta' : List ℝ} {K : ℕ} {ε : ℝ} (hε : 0 ≤ ε)
    (ha : ∀ i < K, |alpha.getD i 0 - alpha'.getD i 0| ≤ ε) (hb : ∀ i, i + 1 < K → |beta.getD i 0 - beta'.getD i 0| ≤ ε)
    (i : Fin K) : ∑ j, ‖tridiagonal alpha beta K i j - tridiagonal alpha' beta' K i j‖ ≤ 3 * ε := by
  have hentry : ∀ j : Fin K, ‖tridiagonal alpha beta K i j - tridiagonal alpha' beta' K i j‖
      ≤ if i.val ≤ j.val + 1 ∧ j.val ≤ i.val + 1 then ε else 0 := by
    intro j
    unfold tridiagonal
    by_cases h1 : i = j
    · subst h1
      simp only [if_true]
      rw [if_pos ⟨by omega, by omega⟩, ← Complex.ofReal_sub, Complex.norm_real]
      exact ha i i.isLt
    · rw [if_neg h1, if_neg h1]
      have h1' : i.val ≠ j.val := fun h => h1 (Fin.ext h)
      by_cases h2 : i.val + 1 = j.val
      · rw [if_pos h2, if_pos h2, if_pos ⟨by omega, by omega⟩, ← Complex.ofReal_sub, Complex.norm_real]
        exact hb i (by omega)
      · rw [if_neg h2, if_neg h2]
        by_cases h3 : j.val + 1 = i.val
        · rw [if_pos h3, if_pos h3, if_pos ⟨by omega, by omega⟩, ← Complex.ofReal_sub, Complex.norm_real]
          exact hb j (by omega)
        · rw [if_neg h3, if_neg h3, if_neg (by omega), sub_zero, norm_zero]
  refine (sum_le_sum fun j _ => hentry j).trans ?_
  rw [← sum_filter, sum_const, nsmul_eq_mul]
  refine mul_le_mul_of_nonneg_right ?_ hε
  have hcard : (univ.filter fun j : Fin K => i.val ≤ j.val + 1 ∧ j.val ≤ i.val + 1).card ≤ 3 := by
    rw [← card_map Fin.valEmbedding]
    have hsub : (univ.filter fun j : Fin K => i.val ≤ j.val + 1 ∧ j.val ≤ i.val + 1).map Fin.valEmbedding
        ⊆ Finset.Icc (i.val - 1) (i.val + 1) := by
      intro m hm
      rw [mem_map] at hm
      obtain ⟨j, hj, rfl⟩ := hm
      rw [mem_filter] at hj
      rw [Finset.mem_Icc]
      exact ⟨by have := hj.2.1; simp only [Fin.valEmbedding_apply]; omega, hj.2.2⟩
    refine (card_le_card hsub).trans ?_
    rw [Nat.card_Icc]
    omega
  exact_mod_cast hcard

/-- Coefficients within `ε` of each other. -/
theorem fraction_close {alpha beta alpha' beta' : List ℝ} {K : ℕ} (hK : 0 < K) {ε : ℝ} (hε : 0 ≤ ε)
    (ha : ∀ i < K, |alpha.getD i 0 - alpha'.getD i 0| ≤ ε) (hb : ∀ i, i + 1 < K → |beta.getD i 0 - beta'.getD i 0| ≤ ε)
    {z : ℂ} (hz : z.im ≠ 0) :
    ‖cfG (fun i => alpha.getD i 0) (fun i => beta.getD i 0) K z K
      - cfG (fun i => alpha'.getD i 0) (fun i => beta'.getD i 0) K z K‖ ≤ 3 * ε / z.im ^ 2 := by
  rw [← cf_inverse hK hz, ← cf_inverse hK hz]
  exact resolvent_close (tridiagonal_hermitian _ _ _) (tridiagonal_hermitian _ _ _) hz (tridiagonal_rows hε ha hb) _

/-- A fraction whose chain is cut after `k` steps. -/
theorem cfG_cut (a b : ℕ → ℝ) {k K : ℕ} (hk : 0 < k) (hkK : k < K) (hb : b (k - 1) = 0) (z : ℂ) :
    cfG a b K z K = cfG a b k z k := by
  have key : ∀ m, m < k → cfG a b K z (K - k + (m + 1)) = cfG a b k z (m + 1) := by
    intro m
    induction m with
    | zero =>
      intro _
      show cfG a b K z ((K - k) + 1) = cfG a b k z (0 + 1)
      rw [cfG, cfG]
      have e : K - 1 - (K - k) = k - 1 := by omega
      rw [e, Nat.sub_zero, hb]
      simp
    | succ m ih =>
      intro hm
      have ih := ih (by omega)
      show cfG a b K z ((K - k + (m + 1)) + 1) = cfG a b k z ((m + 1) + 1)
      rw [cfG, cfG, ih]
      have e : K - 1 - (K - k + (m + 1)) = k - 1 - (m + 1) := by omega
      rw [e]
  have := key (k - 1) (by omega)
  rw [show k - 1 + 1 = k by omega, show K - k + k = K by omega] at this
  exact this

theorem cfG_congr {a b a' b' : ℕ → ℝ} {k : ℕ} (ha : ∀ i < k, a i = a' i) (hb : ∀ i, i + 1 < k → b i = b' i) (z : ℂ) :
    ∀ m ≤ k, cfG a b k z m = cfG a' b' k z m := by
  intro m
  induction m with
  | zero => intro _; rfl
  | succ m ih =>
    intro hm
    rw [cfG, cfG, ih (by omega), ha _ (by omega)]
    by_cases h0 : m = 0
    · subst h0; simp [cfG]
    · rw [hb _ (by omega)]

/-- Coefficients within `ε` of a shorter chain. -/
theorem fraction_breakdown {alpha beta alpha' beta' : List ℝ} {k K : ℕ} (hk : 0 < k) (hkK : k ≤ K) {ε : ℝ} (hε : 0 ≤ ε)
    (ha : ∀ i < k, |alpha.getD i 0 - alpha'.getD i 0| ≤ ε) (hb : ∀ i, i + 1 < k → |beta.getD i 0 - beta'.getD i 0| ≤ ε)
    (hend : k < K → |beta'.getD (k - 1) 0| ≤ ε) {z : ℂ} (hz : z.im ≠ 0) :
    ‖cfG (fun i => alpha.getD i 0) (fun i => beta.getD i 0) k z k
      - cfG (fun i => alpha'.getD i 0) (fun i => beta'.getD i 0) K z K‖ ≤ 3 * ε / z.im ^ 2 := by
  rcases hkK.eq_or_lt with rfl | hlt
  · exact fraction_close hk hε ha hb hz
  · let f : ℕ → ℝ := fun i => if i < k then alpha.getD i 0 else alpha'.getD i 0
    let g : ℕ → ℝ := fun i => if i + 1 < k then beta.getD i 0 else if i + 1 = k then 0 else beta'.getD i 0
    have hf : ∀ i < K, ((List.range K).map f).getD i 0 = f i := by
      intro i hi
      rw [List.getD_eq_getElem _ _ (by simpa using hi)]
      simp
    have hg : ∀ i < K, ((List.range K).map g).getD i 0 = g i := by
      intro i hi
      rw [List.getD_eq_getElem _ _ (by simpa using hi)]
      simp
    have h1 : cfG (fun i => alpha.getD i 0) (fun i => beta.getD i 0) k z k
        = cfG (fun i => ((List.range K).map f).getD i 0) (fun i => ((List.range K).map g).getD i 0) K z K := by
      rw [cfG_cut _ _ hk hlt (by rw [hg _ (by omega)]; simp only [g]; rw [if_neg (by omega), if_pos (by omega)])]
      refine cfG_congr (fun i hi => ?_) (fun i hi => ?_) z k le_rfl
      · rw [hf i (by omega)]; simp only [f]; rw [if_pos hi]
      · rw [hg i (by omega)]; simp only [g]; rw [if_pos hi]
    rw [h1]
    refine fraction_close (by omega) hε (fun i hi => ?_) (fun i hi => ?_) hz
    · rw [hf i hi]
      simp only [f]
      split
      · next h => exact ha i h
      · rw [sub_self, abs_zero]; exact hε
    · rw [hg i (by omega)]
      simp only [g]
      split
      · next h => exact hb i h
      · split
        · next h =>
          rw [zero_sub, abs_neg]
          have := hend hlt
          rwa [show k - 1 = i by omega] at this
        · rw [sub_self, abs_zero]; exact hε

end

end Verif
