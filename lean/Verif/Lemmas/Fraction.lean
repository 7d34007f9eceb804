/-
The continued fraction as an element of the inverse of a tridiagonal matrix.
-/
import Verif.Model.Lanczos
import Verif.Spec.Lanczos
import Mathlib.Tactic.Linarith
import Mathlib.Tactic.Positivity
import Mathlib.LinearAlgebra.Matrix.ToLin

set_option linter.unusedSimpArgs false

namespace Verif

open Matrix Spec Finset

noncomputable section

/-- Value of the continued fraction after `m` passes. -/
def cfG (a b : ℕ → ℝ) (k : ℕ) (z : ℂ) : ℕ → ℂ
  | 0 => 0
  | m + 1 => 1 / (z - a (k - 1 - m) - (b (k - 1 - m) : ℂ) ^ 2 * cfG a b k z m)

theorem cf_bounds (a b : ℕ → ℝ) (k : ℕ) {z : ℂ} (hz : z.im ≠ 0) (m : ℕ) :
    (cfG a b k z m).im * z.im ≤ 0 ∧ (z - a (k - 1 - m) - (b (k - 1 - m) : ℂ) ^ 2 * cfG a b k z m) ≠ 0 ∧
    (cfG a b k z (m + 1)).im * z.im < 0 ∧ ‖cfG a b k z (m + 1)‖ ≤ 1 / |z.im| := by
  have key : ∀ g : ℂ, g.im * z.im ≤ 0 → ∀ (x y : ℝ),
      (z - x - (y : ℂ) ^ 2 * g) ≠ 0 ∧ (1 / (z - x - (y : ℂ) ^ 2 * g)).im * z.im < 0 ∧
      ‖1 / (z - x - (y : ℂ) ^ 2 * g)‖ ≤ 1 / |z.im| := by
    intro g hg x y
    set d := z - x - (y : ℂ) ^ 2 * g with hd
    have him : d.im = z.im - y ^ 2 * g.im := by
      rw [hd]
      simp [← Complex.ofReal_pow]
    have hpos : 0 < z.im ^ 2 := by positivity
    have hprod : z.im ^ 2 ≤ d.im * z.im := by
      rw [him]
      have : 0 ≤ y ^ 2 * (-(g.im * z.im)) := mul_nonneg (sq_nonneg _) (by linarith)
      nlinarith
    have hd0 : d ≠ 0 := by
      intro h
      rw [h] at hprod
      simp at hprod
      exact hz hprod
    have hns : 0 < Complex.normSq d := Complex.normSq_pos.2 hd0
    refine ⟨hd0, ?_, ?_⟩
    · rw [one_div, Complex.inv_im]
      have : -d.im / Complex.normSq d * z.im = -(d.im * z.im / Complex.normSq d) := by ring
      rw [this]
      have : 0 < d.im * z.im / Complex.normSq d := div_pos (by linarith) hns
      linarith
    · rw [norm_div, norm_one]
      have hle : |z.im| ≤ ‖d‖ := by
        refine le_trans ?_ (Complex.abs_im_le_norm d)
        have h1 : |z.im| * |z.im| ≤ |d.im| * |z.im| := by
          rw [← abs_mul, ← abs_mul]
          calc |z.im * z.im| = z.im ^ 2 := by rw [abs_mul_self]; ring
            _ ≤ d.im * z.im := hprod
            _ ≤ |d.im * z.im| := le_abs_self _
        exact le_of_mul_le_mul_right h1 (abs_pos.2 hz)
      exact one_div_le_one_div_of_le (abs_pos.2 hz) hle
  have hneg : ∀ m, (cfG a b k z m).im * z.im ≤ 0 := by
    intro m
    induction m with
    | zero => simp [cfG]
    | succ m ih => exact (key _ ih _ _).2.1.le
  exact ⟨hneg m, (key _ (hneg m) _ _).1, (key _ (hneg m) _ _).2.1, (key _ (hneg m) _ _).2.2⟩

theorem pyGet_nat {α : Type} {l : List α} {i : ℕ} (h : i < l.length) (d : α) : pyGet l (i : ℤ) = .ok (l.getD i d) := by
  unfold pyGet pyIndex
  rw [if_pos (by omega), if_pos (by exact_mod_cast h)]
  simp [h]

theorem continuedFraction_eq {alpha beta : List ℝ} {k : ℕ} (ha : alpha.length = k) (hb : beta.length = k - 1)
    {z : ℂ} (hz : z.im ≠ 0) :
    continuedFraction alpha beta k z = .ok (cfG (fun i => alpha.getD i 0) (fun i => beta.getD i 0) k z k) := by
  have key : ∀ m ≤ k, ((List.range' (k - m) m).reverse).foldlM (fractionBody alpha beta k z) 0
      = .ok (cfG (fun i => alpha.getD i 0) (fun i => beta.getD i 0) k z m) := by
    intro m
    induction m with
    | zero => intro _; rfl
    | succ m ih =>
      intro hm
      have e : List.range' (k - (m + 1)) (m + 1) = (k - 1 - m) :: List.range' (k - m) m := by
        rw [List.range'_succ]
        congr 1
        · omega
        · congr 1; omega
      rw [e, List.reverse_cons, List.foldlM_append, ih (by omega)]
      have h1 : fractionBody alpha beta k z (cfG (fun i => alpha.getD i 0) (fun i => beta.getD i 0) k z m) (k - 1 - m)
          = .ok (cfG (fun i => alpha.getD i 0) (fun i => beta.getD i 0) k z (m + 1)) := by
        unfold fractionBody
        rw [pyGet_nat (by omega) 0]
        have hd := (cf_bounds (fun i => alpha.getD i 0) (fun i => beta.getD i 0) k hz m).2.1
        by_cases h : k - 1 - m = k - 1
        · have hm0 : m = 0 := by omega
          subst hm0
          simp only [cfG, mul_zero, sub_zero] at hd ⊢
          simp only [bind, Except.bind]
          unfold npDiv
          rw [if_pos h, if_neg hd]
        · rw [pyGet_nat (by omega) 0]
          simp only [bind, Except.bind, if_neg h]
          unfold npDiv
          rw [if_neg hd]
          rfl
      refine Eq.trans (?_ : _ = fractionBody alpha beta k z (cfG (fun i => alpha.getD i 0) (fun i => beta.getD i 0) k z m)
        (k - 1 - m)) h1
      change (List.foldlM (fractionBody alpha beta k z) _ [k - 1 - m]) = _
      rw [List.foldlM_cons]
      rw [h1]
      rfl
  have h := key k (le_refl k)
  rw [Nat.sub_self, ← List.range_eq_range'] at h
  exact h

/-! ### Hermitian matrices have an inverse away from the real axis -/

theorem hermitian_real {n : ℕ} {H : Matrix (Fin n) (Fin n) ℂ} (hH : H.IsHermitian) (x : Fin n → ℂ) :
    (star x ⬝ᵥ (H *ᵥ x)).im = 0 := by
  have : star (star x ⬝ᵥ (H *ᵥ x)) = star x ⬝ᵥ (H *ᵥ x) := by
    rw [← Matrix.star_dotProduct_star, star_star, Matrix.star_mulVec, hH.eq, dotProduct_comm,
      Matrix.dotProduct_mulVec, dotProduct_comm]
  have h2 := congrArg Complex.im this
  rw [← starRingEnd_apply, Complex.conj_im] at h2
  linarith

theorem isUnit_resolvent {n : ℕ} {H : Matrix (Fin n) (Fin n) ℂ} (hH : H.IsHermitian) {z : ℂ} (hz : z.im ≠ 0) :
    IsUnit (z • (1 : Matrix (Fin n) (Fin n) ℂ) - H) := by
  rw [← Matrix.mulVec_injective_iff_isUnit]
  rw [← Matrix.coe_mulVecLin, ← LinearMap.ker_eq_bot, LinearMap.ker_eq_bot']
  intro x hx
  rw [Matrix.mulVecLin_apply, Matrix.sub_mulVec, Matrix.smul_mulVec, Matrix.one_mulVec, sub_eq_zero] at hx
  have h1 : z * (star x ⬝ᵥ x) = star x ⬝ᵥ (H *ᵥ x) := by
    rw [← hx, dotProduct_smul, smul_eq_mul]
  have h2 := hermitian_real hH x
  rw [← h1] at h2
  have h3 : star x ⬝ᵥ x = ((∑ i, Complex.normSq (x i) : ℝ) : ℂ) := by
    rw [Complex.ofReal_sum]
    refine sum_congr rfl fun i _ => ?_
    rw [Complex.normSq_eq_conj_mul_self]
    rfl
  rw [h3, Complex.mul_im, Complex.ofReal_re, Complex.ofReal_im, mul_zero, zero_add] at h2
  have h4 : ∑ i, Complex.normSq (x i) = 0 := (mul_eq_zero.1 h2).resolve_left hz
  rw [sum_eq_zero_iff_of_nonneg (fun i _ => Complex.normSq_nonneg _)] at h4
  funext i
  exact Complex.normSq_eq_zero.1 (h4 i (mem_univ i))

theorem tridiagonal_hermitian (alpha beta : List ℝ) (k : ℕ) : (tridiagonal alpha beta k).IsHermitian := by
  ext i j
  rw [Matrix.conjTranspose_apply]
  unfold tridiagonal
  by_cases h1 : i = j
  · subst h1
    simp
  · have h1' : j ≠ i := fun h => h1 h.symm
    rw [if_neg h1, if_neg h1']
    by_cases h2 : i.val + 1 = j.val
    · rw [if_pos h2, if_neg (by omega), if_pos h2]
      exact Complex.conj_ofReal _
    · rw [if_neg h2]
      by_cases h3 : j.val + 1 = i.val
      · rw [if_pos h3, if_neg h2]
        exact Complex.conj_ofReal _
      · rw [if_neg h3, if_neg h2]
        simp

/-- A row of a tridiagonal matrix. -/
theorem tridiagonal_row (alpha beta : List ℝ) (k : ℕ) (x : ℕ → ℂ) (hx : x k = 0) (i : Fin k) :
    (tridiagonal alpha beta k *ᵥ fun j => x j) i
      = (if i.val = 0 then 0 else (beta.getD (i.val - 1) 0 : ℝ) * x (i.val - 1))
        + (alpha.getD i 0 : ℝ) * x i + (beta.getD i 0 : ℝ) * x (i.val + 1) := by
  have hfun : ∀ j : Fin k, tridiagonal alpha beta k i j * x j
      = (if j.val + 1 = i.val then (beta.getD j 0 : ℝ) * x j else 0)
        + (if j = i then (alpha.getD i 0 : ℝ) * x i else 0)
        + (if j.val = i.val + 1 then (beta.getD i 0 : ℝ) * x (i.val + 1) else 0) := by
    intro j
    unfold tridiagonal
    by_cases h1 : i = j
    · subst h1
      simp
    · have h1' : j ≠ i := fun h => h1 h.symm
      have h1'' : j.val ≠ i.val := fun h => h1' (Fin.ext h)
      simp only [if_neg h1, if_neg h1']
      by_cases h2 : i.val + 1 = j.val
      · rw [if_pos h2, if_neg (by omega), if_pos h2.symm, h2]; ring
      · rw [if_neg h2]
        by_cases h3 : j.val + 1 = i.val
        · rw [if_pos h3, if_pos h3, if_neg (by omega)]; ring
        · rw [if_neg h3, if_neg h3, if_neg (fun h => h2 h.symm)]; ring
  unfold mulVec dotProduct
  rw [sum_congr rfl fun j _ => hfun j, sum_add_distrib, sum_add_distrib]
  congr 1
  · congr 1
    · by_cases h0 : i.val = 0
      · rw [if_pos h0]
        refine sum_eq_zero fun j _ => ?_
        rw [if_neg (by omega)]
      · rw [if_neg h0, sum_eq_single (⟨i.val - 1, by omega⟩ : Fin k)]
        · rw [if_pos (by simp; omega)]
        · intro j _ hj
          rw [if_neg]
          intro h
          exact hj (Fin.ext (by simp; omega))
        · intro h; exact absurd (mem_univ _) h
    · rw [sum_ite_eq' univ i]
      simp
  · by_cases h : i.val + 1 < k
    · rw [sum_eq_single (⟨i.val + 1, h⟩ : Fin k)]
      · simp
      · intro j _ hj
        rw [if_neg]
        intro h'
        exact hj (Fin.ext (by simpa using h'))
      · intro h; exact absurd (mem_univ _) h
    · have hk : i.val + 1 = k := by omega
      rw [sum_eq_zero, hk, hx, mul_zero]
      intro j _
      rw [if_neg (by omega)]

/-- The first column of the inverse of `z - T`. -/
def cfX (a b : ℕ → ℝ) (k : ℕ) (z : ℂ) : ℕ → ℂ
  | 0 => cfG a b k z k
  | i + 1 => (b i : ℂ) * cfG a b k z (k - 1 - i) * cfX a b k z i

theorem cf_inverse {alpha beta : List ℝ} {k : ℕ} (hk : 0 < k) {z : ℂ} (hz : z.im ≠ 0) :
    (z • (1 : Matrix (Fin k) (Fin k) ℂ) - tridiagonal alpha beta k)⁻¹ ⟨0, hk⟩ ⟨0, hk⟩
      = cfG (fun i => alpha.getD i 0) (fun i => beta.getD i 0) k z k := by
  set a := fun i => alpha.getD i 0 with ha
  set b := fun i => beta.getD i 0 with hb
  set A := z • (1 : Matrix (Fin k) (Fin k) ℂ) - tridiagonal alpha beta k with hA
  have hxk : cfX a b k z k = 0 := by
    obtain ⟨m, rfl⟩ : ∃ m, k = m + 1 := ⟨k - 1, by omega⟩
    rw [cfX]
    simp [cfG]
  -- the equations
  have hden : ∀ i < k, cfG a b k z (k - i) * (z - a i - (b i : ℂ) ^ 2 * cfG a b k z (k - 1 - i)) = 1 := by
    intro i hi
    have e : k - i = (k - 1 - i) + 1 := by omega
    rw [e, cfG]
    have hd := (cf_bounds a b k hz (k - 1 - i)).2.1
    have e2 : k - 1 - (k - 1 - i) = i := by omega
    rw [e2] at hd ⊢
    rw [one_div, inv_mul_cancel₀ hd]
  have hsolve : A *ᵥ (fun j : Fin k => cfX a b k z j) = Pi.single ⟨0, hk⟩ 1 := by
    funext i
    rw [hA, Matrix.sub_mulVec, Matrix.smul_mulVec, Matrix.one_mulVec, Pi.sub_apply, Pi.smul_apply, smul_eq_mul,
      tridiagonal_row alpha beta k _ hxk i]
    change z * cfX a b k z i - ((if i.val = 0 then 0 else (b (i.val - 1) : ℂ) * cfX a b k z (i.val - 1))
      + (a i : ℂ) * cfX a b k z i + (b i : ℂ) * cfX a b k z (i.val + 1)) = _
    have hnext : cfX a b k z (i.val + 1) = (b i : ℂ) * cfG a b k z (k - 1 - i) * cfX a b k z i := rfl
    rw [hnext]
    by_cases h0 : i.val = 0
    · have hi : i = ⟨0, hk⟩ := Fin.ext h0
      rw [if_pos h0, hi, Pi.single_eq_same]
      have := hden 0 hk
      simp only [cfX, Nat.sub_zero] at this ⊢
      rw [← this]; ring
    · have hi : i ≠ ⟨0, hk⟩ := fun h => h0 (by rw [h])
      rw [if_neg h0, Pi.single_eq_of_ne hi]
      obtain ⟨j, hj⟩ : ∃ j, i.val = j + 1 := ⟨i.val - 1, by omega⟩
      have := hden i i.isLt
      rw [hj] at this ⊢
      simp only [Nat.add_sub_cancel]
      have hx : cfX a b k z (j + 1) = (b j : ℂ) * cfG a b k z (k - (j + 1)) * cfX a b k z j := by
        have e : k - (j + 1) = k - 1 - j := by omega
        rw [e]; rfl
      rw [hx]
      linear_combination (b j : ℂ) * cfX a b k z j * this
  have hU : IsUnit A := isUnit_resolvent (tridiagonal_hermitian _ _ _) hz
  have hdet : IsUnit A.det := (Matrix.isUnit_iff_isUnit_det A).1 hU
  have h1 : (fun j : Fin k => cfX a b k z j) = A⁻¹ *ᵥ Pi.single ⟨0, hk⟩ 1 := by
    rw [← hsolve, Matrix.mulVec_mulVec, Matrix.nonsing_inv_mul _ hdet, Matrix.one_mulVec]
  have h2 := congrFun h1 ⟨0, hk⟩
  rw [Matrix.mulVec_single_one] at h2
  exact h2.symm

end

end Verif
