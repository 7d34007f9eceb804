/-
The Lanczos recursion: orthonormality, tridiagonal form, Krylov space.
-/
import Verif.Lemmas.Fraction
import Mathlib.LinearAlgebra.Matrix.Block
import Mathlib.LinearAlgebra.Matrix.ToLinearEquiv
import Mathlib.LinearAlgebra.Dimension.Constructions
import Mathlib.LinearAlgebra.FiniteDimensional.Basic

set_option linter.unusedSimpArgs false
set_option linter.unusedSectionVars false

namespace Verif

open Matrix Spec Finset

noncomputable section

variable {n : ℕ}

theorem ip_hermitian {H : Matrix (Fin n) (Fin n) ℂ} (hH : H.IsHermitian) (x y : Fin n → ℂ) :
    star x ⬝ᵥ (H *ᵥ y) = star (H *ᵥ x) ⬝ᵥ y := by
  rw [Matrix.star_mulVec, hH.eq, Matrix.dotProduct_mulVec]

theorem ip_star (x y : Fin n → ℂ) : star (star x ⬝ᵥ y) = star y ⬝ᵥ x := by
  rw [← Matrix.star_dotProduct_star, star_star, dotProduct_comm]

theorem ip_self (x : Fin n → ℂ) : star x ⬝ᵥ x = ((∑ i, Complex.normSq (x i) : ℝ) : ℂ) := by
  rw [Complex.ofReal_sum]
  refine sum_congr rfl fun i _ => ?_
  rw [Complex.normSq_eq_conj_mul_self]
  rfl

theorem getD_set (l : List ℝ) (i j : ℕ) (x : ℝ) :
    (l.set i x).getD j 0 = if i = j ∧ i < l.length then x else l.getD j 0 := by
  rw [List.getD_eq_getElem?_getD, List.getD_eq_getElem?_getD, List.getElem?_set]
  by_cases h : i = j
  · subst h
    by_cases h2 : i < l.length
    · simp [h2]
    · simp [h2]
  · simp [h]

/-- After `k` Krylov vectors: `H V = V T + w e_k†` with orthonormal `V`. -/
structure Decomp (H : Matrix (Fin n) (Fin n) ℂ) (V : ℕ → Fin n → ℂ) (alpha beta : List ℝ)
    (w : Fin n → ℂ) (k : ℕ) : Prop where
  pos : 0 < k
  ortho : OrthonormalUpTo V k
  perp : ∀ i < k, star (V i) ⬝ᵥ w = 0
  step : ∀ i < k, H *ᵥ V i = (if i = 0 then 0 else ((beta.getD (i - 1) 0 : ℝ) : ℂ) • V (i - 1))
    + ((alpha.getD i 0 : ℝ) : ℂ) • V i
    + (if i + 1 < k then ((beta.getD i 0 : ℝ) : ℂ) • V (i + 1) else w)
  beta_pos : ∀ i, i + 1 < k → 0 < beta.getD i 0

theorem decomp_first {H : Matrix (Fin n) (Fin n) ℂ} (hH : H.IsHermitian) {psi0 : Fin n → ℂ}
    (hnorm : star psi0 ⬝ᵥ psi0 = 1) {alpha beta : List ℝ} (ha : 0 < alpha.length) :
    Decomp H (fun _ => psi0) (alpha.set 0 (star (H *ᵥ psi0) ⬝ᵥ psi0).re) beta
      (H *ᵥ psi0 - ((star (H *ᵥ psi0) ⬝ᵥ psi0).re : ℂ) • psi0) 1 := by
  have hre : (((star (H *ᵥ psi0) ⬝ᵥ psi0).re : ℝ) : ℂ) = star (H *ᵥ psi0) ⬝ᵥ psi0 := by
    have := hermitian_real hH psi0
    rw [ip_hermitian hH] at this
    exact Complex.ext rfl (by simpa using this.symm)
  refine ⟨by omega, ?_, ?_, ?_, ?_⟩
  · intro i hi j hj
    have h1 : i = 0 := by omega
    have h2 : j = 0 := by omega
    rw [h1, h2, if_pos rfl, hnorm]
  · intro i hi
    rw [dotProduct_sub, dotProduct_smul, hnorm, ip_hermitian hH, hre, smul_eq_mul, mul_one, sub_self]
  · intro i hi
    have h1 : i = 0 := by omega
    subst h1
    rw [if_pos rfl, if_neg (by omega), getD_set, if_pos ⟨rfl, ha⟩, zero_add, add_sub_cancel]
  · intro i hi; omega

/-- The next Krylov vector keeps the decomposition. -/
theorem Decomp.next {H : Matrix (Fin n) (Fin n) ℂ} (hH : H.IsHermitian) {V : ℕ → Fin n → ℂ}
    {alpha beta : List ℝ} {w : Fin n → ℂ} {k : ℕ} (h : Decomp H V alpha beta w k)
    (ha : k < alpha.length) (hb : k - 1 < beta.length) {b : ℝ}
    (hbe : b = Real.sqrt (∑ i, Complex.normSq (w i))) (hb0 : b ≠ 0) {v : Fin n → ℂ}
    (hv : v = fun i => w i / b) {a : ℝ} (hae : a = (star (H *ᵥ v) ⬝ᵥ v).re) :
    Decomp H (fun i => if i = k then v else V i) (alpha.set k a) (beta.set (k - 1) b)
      (H *ᵥ v - (a : ℂ) • v - (b : ℂ) • V (k - 1)) (k + 1) := by
  have hpos := h.pos
  have hbpos : 0 < b := lt_of_le_of_ne (hbe ▸ Real.sqrt_nonneg _) (Ne.symm hb0)
  have hsq : ((∑ i, Complex.normSq (w i) : ℝ)) = b ^ 2 := by
    rw [hbe, Real.sq_sqrt (sum_nonneg fun i _ => Complex.normSq_nonneg _)]
  have hbC : (b : ℂ) ≠ 0 := by exact_mod_cast hb0
  have hv' : v = (b : ℂ)⁻¹ • w := by
    rw [hv]; funext i; rw [Pi.smul_apply, smul_eq_mul, div_eq_inv_mul]
  have hwv : w = (b : ℂ) • v := by rw [hv', smul_smul, mul_inv_cancel₀ hbC, one_smul]
  have hVv : ∀ i < k, star (V i) ⬝ᵥ v = 0 := by
    intro i hi
    rw [hv', dotProduct_smul, h.perp i hi, smul_zero]
  have hvV : ∀ i < k, star v ⬝ᵥ V i = 0 := by
    intro i hi
    rw [← ip_star, hVv i hi, star_zero]
  have hvv : star v ⬝ᵥ v = 1 := by
    have hsb : star (b : ℂ)⁻¹ = (b : ℂ)⁻¹ := by
      rw [← Complex.ofReal_inv]; exact Complex.conj_ofReal _
    rw [hv', star_smul, smul_dotProduct, dotProduct_smul, ip_self, hsq, hsb, smul_eq_mul, smul_eq_mul,
      Complex.ofReal_pow]
    field_simp
  have hwb : star w ⬝ᵥ v = (b : ℂ) := by
    rw [hwv, star_smul, smul_dotProduct, hvv, smul_eq_mul, mul_one]
    exact Complex.conj_ofReal _
  have hre : (a : ℂ) = star v ⬝ᵥ (H *ᵥ v) := by
    have h1 := hermitian_real hH v
    rw [ip_hermitian hH, hae]
    rw [ip_hermitian hH] at h1
    exact Complex.ext rfl (by simpa using h1.symm)
  refine ⟨by omega, ?_, ?_, ?_, ?_⟩
  · intro i hi j hj
    dsimp only
    by_cases h1 : i = k <;> by_cases h2 : j = k
    · rw [if_pos h1, if_pos h2, hvv, if_pos (by omega)]
    · rw [if_pos h1, if_neg h2, hvV j (by omega), if_neg (by omega)]
    · rw [if_neg h1, if_pos h2, hVv i (by omega), if_neg (by omega)]
    · rw [if_neg h1, if_neg h2, h.ortho i (by omega) j (by omega)]
  · intro i hi
    beta_reduce
    rw [dotProduct_sub, dotProduct_sub, dotProduct_smul, dotProduct_smul, smul_eq_mul, smul_eq_mul]
    by_cases h1 : i = k
    · rw [if_pos h1, ← hre, hvv, hvV _ (by omega)]
      ring
    · rw [if_neg h1, hVv i (by omega), ip_hermitian hH, h.step i (by omega), h.ortho i (by omega) (k - 1) (by omega)]
      rw [star_add, star_add, add_dotProduct, add_dotProduct]
      have e1 : star (if i = 0 then 0 else ((beta.getD (i - 1) 0 : ℝ) : ℂ) • V (i - 1)) ⬝ᵥ v = 0 := by
        by_cases h0 : i = 0
        · rw [if_pos h0, star_zero, zero_dotProduct]
        · rw [if_neg h0, star_smul, smul_dotProduct, hVv _ (by omega), smul_zero]
      have e2 : star (((alpha.getD i 0 : ℝ) : ℂ) • V i) ⬝ᵥ v = 0 := by
        rw [star_smul, smul_dotProduct, hVv _ (by omega), smul_zero]
      rw [e1, e2]
      by_cases h2 : i + 1 < k
      · rw [if_pos h2, star_smul, smul_dotProduct, hVv _ h2, if_neg (by omega)]
        simp
      · rw [if_neg h2, hwb, if_pos (by omega)]
        ring
  · intro i hi
    beta_reduce
    by_cases h1 : i = k
    · subst h1
      rw [if_pos rfl, if_neg (by omega), if_neg (by omega), if_neg (by omega), getD_set, getD_set,
        if_pos ⟨rfl, hb⟩, if_pos ⟨rfl, ha⟩]
      abel
    · have ea : (alpha.set k a).getD i 0 = alpha.getD i 0 := by rw [getD_set, if_neg (by omega)]
      have e : (if i = 0 then (0 : Fin n → ℂ) else (((beta.set (k - 1) b).getD (i - 1) 0 : ℝ) : ℂ) •
          (if i - 1 = k then v else V (i - 1)))
          = if i = 0 then 0 else ((beta.getD (i - 1) 0 : ℝ) : ℂ) • V (i - 1) := by
        by_cases h0 : i = 0
        · rw [if_pos h0, if_pos h0]
        · rw [if_neg h0, if_neg h0, if_neg (show ¬ i - 1 = k by omega), getD_set, if_neg (by omega)]
      rw [e, if_neg h1, h.step i (by omega), if_pos (show i + 1 < k + 1 by omega), ea, getD_set]
      congr 1
      by_cases h2 : i + 1 < k
      · rw [if_pos h2, if_neg (by omega), if_neg (by omega)]
      · rw [if_neg h2, if_pos ⟨by omega, hb⟩, if_pos (by omega), hwv]
  · intro i hi
    rw [getD_set]
    split
    · exact hbpos
    · next hc => exact h.beta_pos i (by omega)

/-! ### the loop -/

/-- The loop either goes through, with a decomposition, or stops at a zero vector. -/
theorem krylovLoop_spec {H : Matrix (Fin n) (Fin n) ℂ} (hH : H.IsHermitian) :
    ∀ (m j : ℕ) (s : Krylov n) (V : ℕ → Fin n → ℂ), Decomp H V s.alpha s.beta s.w j → V (j - 1) = s.v0 →
      j + m ≤ s.alpha.length → j + m ≤ s.beta.length + 1 →
      (∃ s' V', krylovLoop H m j s = .ok s' ∧ Decomp H V' s'.alpha s'.beta s'.w (j + m) ∧ V' 0 = V 0 ∧
        s'.alpha.length = s.alpha.length ∧ s'.beta.length = s.beta.length) ∨
      (krylovLoop H m j s = .error .valueError ∧ ∃ j' V' alpha beta, j ≤ j' ∧ j' < j + m ∧
        Decomp H V' alpha beta 0 j' ∧ V' 0 = V 0) := by
  intro m
  induction m with
  | zero =>
    intro j s V hd hv _ _
    exact Or.inl ⟨s, V, rfl, hd, rfl, rfl, rfl⟩
  | succ m ih =>
    intro j s V hd hv ha hb
    have hj := hd.pos
    by_cases h0 : Real.sqrt (∑ i, Complex.normSq (s.w i)) = 0
    · right
      have hw : s.w = 0 := by
        rw [Real.sqrt_eq_zero (sum_nonneg fun i _ => Complex.normSq_nonneg _),
          sum_eq_zero_iff_of_nonneg fun i _ => Complex.normSq_nonneg _] at h0
        funext i
        exact Complex.normSq_eq_zero.1 (h0 i (mem_univ i))
      refine ⟨?_, j, V, s.alpha, s.beta, le_refl _, by omega, hw ▸ hd, rfl⟩
      rw [krylovLoop]
      unfold krylovVector
      simp only [h0, ne_eq, not_true_eq_false, if_false]
      rfl
    · have hstep : krylovVector j s = .ok { s with
          beta := s.beta.set (j - 1) (Real.sqrt (∑ i, Complex.normSq (s.w i)))
          v1 := fun i => s.w i / (Real.sqrt (∑ i, Complex.normSq (s.w i)) : ℝ) } := by
        unfold krylovVector
        simp only [ne_eq, h0, not_false_eq_true, if_true]
      have hloop : krylovLoop H (m + 1) j s = krylovLoop H m (j + 1) (krylovAlpha j { s with
          beta := s.beta.set (j - 1) (Real.sqrt (∑ i, Complex.normSq (s.w i)))
          v1 := fun i => s.w i / (Real.sqrt (∑ i, Complex.normSq (s.w i)) : ℝ) }
          (H *ᵥ fun i => s.w i / (Real.sqrt (∑ i, Complex.normSq (s.w i)) : ℝ))) := by
        rw [krylovLoop, hstep]
        rfl
      have hnext := hd.next hH (by omega) (by omega) rfl h0 rfl rfl
      rw [hloop]
      set s' := krylovAlpha j { s with
          beta := s.beta.set (j - 1) (Real.sqrt (∑ i, Complex.normSq (s.w i)))
          v1 := fun i => s.w i / (Real.sqrt (∑ i, Complex.normSq (s.w i)) : ℝ) }
          (H *ᵥ fun i => s.w i / (Real.sqrt (∑ i, Complex.normSq (s.w i)) : ℝ)) with hs'
      have hd' : Decomp H (fun i => if i = j then (fun i => s.w i / (Real.sqrt (∑ i, Complex.normSq (s.w i)) : ℝ)) else V i)
          s'.alpha s'.beta s'.w (j + 1) := by
        have e : s'.w = (H *ᵥ fun i => s.w i / (Real.sqrt (∑ i, Complex.normSq (s.w i)) : ℝ))
            - (((star (H *ᵥ fun i => s.w i / (Real.sqrt (∑ i, Complex.normSq (s.w i)) : ℝ)) ⬝ᵥ
              fun i => s.w i / (Real.sqrt (∑ i, Complex.normSq (s.w i)) : ℝ)).re : ℝ) : ℂ) •
              (fun i => s.w i / ((Real.sqrt (∑ i, Complex.normSq (s.w i)) : ℝ) : ℂ))
            - ((Real.sqrt (∑ i, Complex.normSq (s.w i)) : ℝ) : ℂ) • V (j - 1) := by
          rw [hs', krylovAlpha, hv]
          dsimp only
          rw [getD_set, if_pos ⟨rfl, by omega⟩]
        rw [e]
        exact hnext
      have hla : s'.alpha.length = s.alpha.length := by rw [hs', krylovAlpha, List.length_set]
      have hlb : s'.beta.length = s.beta.length := by rw [hs', krylovAlpha, List.length_set]
      have hV0 : (fun i => if i = j then (fun i => s.w i / ((Real.sqrt (∑ i, Complex.normSq (s.w i)) : ℝ) : ℂ)) else V i) 0
          = V 0 := by
        dsimp only
        rw [if_neg (by omega)]
      rcases ih (j + 1) s' _ hd' (by simp [hs', krylovAlpha]) (by omega) (by omega) with
        ⟨s'', V', h1, h2, h3, h4, h5⟩ | ⟨h1, j', V', al, be, h2, h3, h4, h5⟩
      · refine Or.inl ⟨s'', V', h1, ?_, h3.trans hV0, h4.trans hla, h5.trans hlb⟩
        have : j + (m + 1) = j + 1 + m := by omega
        rw [this]; exact h2
      · exact Or.inr ⟨h1, j', V', al, be, by omega, by omega, h4, h5.trans hV0⟩

theorem tridiagonalKrylov_spec {H : Matrix (Fin n) (Fin n) ℂ} (hH : H.IsHermitian) {psi0 : Fin n → ℂ}
    (hnorm : star psi0 ⬝ᵥ psi0 = 1) (K : ℕ) (hK : 0 < min K n) :
    (∃ alpha beta V w, tridiagonalKrylov H psi0 K = .ok (alpha, beta) ∧ alpha.length = min K n ∧
      beta.length = min K n - 1 ∧ V 0 = psi0 ∧ Decomp H V alpha beta w (min K n)) ∨
    (tridiagonalKrylov H psi0 K = .error .valueError ∧ ∃ j V alpha beta, j < min K n ∧ V 0 = psi0 ∧
      Decomp H V alpha beta 0 j) := by
  set k := min K n with hk
  have halloc : krylovAlloc psi0 k = .ok ⟨List.replicate k 0, List.replicate (k - 1) 0, psi0, 0, 0⟩ := by
    unfold krylovAlloc
    rw [if_neg (by omega)]
  set s0 : Krylov n := krylovFirst ⟨List.replicate k 0, List.replicate (k - 1) 0, psi0, 0, 0⟩ (H *ᵥ psi0) with hs0
  have hrun : tridiagonalKrylov H psi0 K = (krylovLoop H (k - 1) 1 s0).bind fun s => .ok (s.alpha, s.beta) := by
    unfold tridiagonalKrylov
    simp only [← hk, halloc]
    rfl
  have hd : Decomp H (fun _ => psi0) s0.alpha s0.beta s0.w 1 := by
    rw [hs0, krylovFirst]
    exact decomp_first hH hnorm (by simpa using hK)
  have hla : s0.alpha.length = k := by rw [hs0, krylovFirst, List.length_set, List.length_replicate]
  have hlb : s0.beta.length = k - 1 := by rw [hs0, krylovFirst, List.length_replicate]
  rcases krylovLoop_spec hH (k - 1) 1 s0 _ hd rfl (by omega) (by omega) with
    ⟨s', V', h1, h2, h3, h4, h5⟩ | ⟨h1, j', V', al, be, h2, h3, h4, h5⟩
  · left
    refine ⟨s'.alpha, s'.beta, V', s'.w, ?_, h4.trans hla, h5.trans hlb, h3, ?_⟩
    · rw [hrun, h1]; rfl
    · have : 1 + (k - 1) = k := by omega
      rw [this] at h2; exact h2
  · right
    refine ⟨?_, j', V', al, be, by omega, h5, h4⟩
    rw [hrun, h1]; rfl

/-! ### consequences of the decomposition -/

section
variable {H : Matrix (Fin n) (Fin n) ℂ} {V : ℕ → Fin n → ℂ} {alpha beta : List ℝ} {w : Fin n → ℂ} {k : ℕ}

/-- The matrix of the Krylov vectors. -/
def krylovMat (V : ℕ → Fin n → ℂ) (k : ℕ) : Matrix (Fin n) (Fin k) ℂ := fun i j => V j i

theorem krylovMat_mulVec (V : ℕ → Fin n → ℂ) (k : ℕ) (x : Fin k → ℂ) :
    krylovMat V k *ᵥ x = ∑ j : Fin k, x j • V j := by
  funext i
  rw [Finset.sum_apply]
  unfold mulVec dotProduct
  refine sum_congr rfl fun j _ => ?_
  rw [Pi.smul_apply, smul_eq_mul, mul_comm]
  rfl

theorem Decomp.ortho_mat (h : Decomp H V alpha beta w k) : (krylovMat V k)ᴴ * krylovMat V k = 1 := by
  ext i j
  rw [Matrix.mul_apply, Matrix.one_apply]
  have := h.ortho i i.isLt j j.isLt
  simp only [Fin.ext_iff]
  rw [← this]
  rfl

/-- `⟨V i | V x⟩ = x i`. -/
theorem Decomp.coord (h : Decomp H V alpha beta w k) (x : Fin k → ℂ) (i : Fin k) :
    star (V i) ⬝ᵥ (krylovMat V k *ᵥ x) = x i := by
  rw [krylovMat_mulVec, dotProduct_sum, sum_eq_single i]
  · rw [dotProduct_smul, h.ortho i i.isLt i i.isLt, if_pos rfl, smul_eq_mul, mul_one]
  · intro j _ hj
    rw [dotProduct_smul, h.ortho i i.isLt j j.isLt, if_neg (fun e => hj (Fin.ext e.symm)), smul_zero]
  · intro h'; exact absurd (mem_univ _) h'

theorem Decomp.perp_mat (h : Decomp H V alpha beta w k) (x : Fin k → ℂ) :
    star w ⬝ᵥ (krylovMat V k *ᵥ x) = 0 := by
  rw [krylovMat_mulVec, dotProduct_sum]
  refine sum_eq_zero fun j _ => ?_
  rw [dotProduct_smul, ← ip_star, h.perp j j.isLt, star_zero, smul_zero]

/-- `H V x = V T x + x_{k-1} w`. -/
theorem Decomp.apply (h : Decomp H V alpha beta w k) (x : ℕ → ℂ) (hx : x k = 0) :
    H *ᵥ (krylovMat V k *ᵥ fun j => x j)
      = krylovMat V k *ᵥ (tridiagonal alpha beta k *ᵥ fun j => x j) + x (k - 1) • w := by
  have hpos := h.pos
  rw [krylovMat_mulVec, krylovMat_mulVec, Matrix.mulVec_sum]
  have e1 : ∀ j : Fin k, H *ᵥ (x j • V j) = (if j.val = 0 then 0 else (x j * (beta.getD (j.val - 1) 0 : ℝ)) • V (j.val - 1))
      + (x j * (alpha.getD j 0 : ℝ)) • V j
      + (if j.val + 1 < k then (x j * (beta.getD j 0 : ℝ)) • V (j.val + 1) else x j • w) := by
    intro j
    rw [Matrix.mulVec_smul, h.step j j.isLt, smul_add, smul_add, smul_smul]
    congr 1
    · congr 1
      split
      · rw [smul_zero]
      · rw [smul_smul]
    · split
      · rw [smul_smul]
      · rfl
  rw [sum_congr rfl fun j _ => e1 j]
  have e2 : ∀ j : Fin k, (tridiagonal alpha beta k *ᵥ fun j : Fin k => x j) j • V j
      = (if j.val = 0 then 0 else ((beta.getD (j.val - 1) 0 : ℝ) * x (j.val - 1)) • V j)
        + ((alpha.getD j 0 : ℝ) * x j) • V j + ((beta.getD j 0 : ℝ) * x (j.val + 1)) • V j := by
    intro j
    rw [tridiagonal_row alpha beta k x hx j, add_smul, add_smul]
    congr 1
    congr 1
    split
    · rw [zero_smul]
    · rfl
  rw [sum_congr rfl fun j _ => e2 j]
  -- sums over numbers
  rw [Fin.sum_univ_eq_sum_range (fun j => (if j = 0 then 0 else (x j * (beta.getD (j - 1) 0 : ℝ)) • V (j - 1))
      + (x j * (alpha.getD j 0 : ℝ)) • V j
      + (if j + 1 < k then (x j * (beta.getD j 0 : ℝ)) • V (j + 1) else x j • w)) k,
    Fin.sum_univ_eq_sum_range (fun j => (if j = 0 then 0 else ((beta.getD (j - 1) 0 : ℝ) * x (j - 1)) • V j)
        + ((alpha.getD j 0 : ℝ) * x j) • V j + ((beta.getD j 0 : ℝ) * x (j + 1)) • V j) k]
  obtain ⟨m, rfl⟩ : ∃ m, k = m + 1 := ⟨k - 1, by omega⟩
  simp only [sum_add_distrib]
  have f1 : ∑ j ∈ range (m + 1), (if j = 0 then (0 : Fin n → ℂ) else (x j * (beta.getD (j - 1) 0 : ℝ)) • V (j - 1))
      = ∑ j ∈ range (m + 1), ((beta.getD j 0 : ℝ) * x (j + 1)) • V j := by
    rw [sum_range_succ', if_pos rfl, add_zero, sum_range_succ, hx, mul_zero, zero_smul, add_zero]
    refine sum_congr rfl fun j _ => ?_
    rw [if_neg (by omega), Nat.add_sub_cancel, mul_comm]
  have f2 : ∑ j ∈ range (m + 1), (if j + 1 < m + 1 then (x j * (beta.getD j 0 : ℝ)) • V (j + 1) else x j • w)
      = ∑ j ∈ range (m + 1), (if j = 0 then (0 : Fin n → ℂ) else ((beta.getD (j - 1) 0 : ℝ) * x (j - 1)) • V j)
        + x m • w := by
    rw [sum_range_succ, if_neg (by omega), sum_range_succ' _ m, if_pos rfl, add_zero]
    congr 1
    refine sum_congr rfl fun j hj => ?_
    rw [mem_range] at hj
    rw [if_pos (by omega), if_neg (by omega), Nat.add_sub_cancel, mul_comm]
  rw [f1, f2, Nat.add_sub_cancel]
  have f3 : ∀ j, x j * (alpha.getD j 0 : ℝ) = (alpha.getD j 0 : ℝ) * x j := fun j => mul_comm _ _
  simp only [f3]
  abel

/-- The powers of the tridiagonal matrix on the first unit vector, as a sequence. -/
def powerCol (alpha beta : List ℝ) (k m : ℕ) (j : ℕ) : ℂ :=
  if h : j < k then ((tridiagonal alpha beta k ^ m) *ᵥ Pi.single ⟨0, by omega⟩ 1) ⟨j, h⟩ else 0

theorem powerCol_eq (alpha beta : List ℝ) {k : ℕ} (hk : 0 < k) (m : ℕ) :
    (fun j : Fin k => powerCol alpha beta k m j) = (tridiagonal alpha beta k ^ m) *ᵥ Pi.single ⟨0, hk⟩ 1 := by
  funext j
  unfold powerCol
  rw [dif_pos j.isLt]

theorem powerCol_next (alpha beta : List ℝ) {k : ℕ} (hk : 0 < k) (m : ℕ) :
    (fun j : Fin k => powerCol alpha beta k (m + 1) j)
      = tridiagonal alpha beta k *ᵥ fun j : Fin k => powerCol alpha beta k m j := by
  rw [powerCol_eq alpha beta hk, powerCol_eq alpha beta hk, Matrix.mulVec_mulVec, ← pow_succ']

theorem powerCol_last (alpha beta : List ℝ) (k m : ℕ) : powerCol alpha beta k m k = 0 := by
  unfold powerCol
  rw [dif_neg (by omega)]

theorem powerCol_zero (alpha beta : List ℝ) {k : ℕ} (j : ℕ) :
    powerCol alpha beta k 0 j = if j = 0 ∧ 0 < k then 1 else 0 := by
  unfold powerCol
  by_cases h : j < k
  · rw [dif_pos h, pow_zero, Matrix.one_mulVec]
    by_cases h0 : j = 0
    · subst h0
      rw [Pi.single_eq_same, if_pos ⟨rfl, h⟩]
    · rw [Pi.single_eq_of_ne (by simpa [Fin.ext_iff] using h0), if_neg (fun e => h0 e.1)]
  · rw [dif_neg h, if_neg (by omega)]

theorem powerCol_succ (alpha beta : List ℝ) {k : ℕ} (m : ℕ) {j : ℕ} (hj : j < k) :
    powerCol alpha beta k (m + 1) j
      = (if j = 0 then 0 else (beta.getD (j - 1) 0 : ℝ) * powerCol alpha beta k m (j - 1))
        + (alpha.getD j 0 : ℝ) * powerCol alpha beta k m j
        + (beta.getD j 0 : ℝ) * powerCol alpha beta k m (j + 1) := by
  have hk : 0 < k := by omega
  have h1 := tridiagonal_row alpha beta k (powerCol alpha beta k m) (powerCol_last alpha beta k m) ⟨j, hj⟩
  rw [powerCol_eq alpha beta hk m, Matrix.mulVec_mulVec, ← pow_succ'] at h1
  have h2 : powerCol alpha beta k (m + 1) j = ((tridiagonal alpha beta k ^ (m + 1)) *ᵥ Pi.single ⟨0, hk⟩ 1) ⟨j, hj⟩ := by
    unfold powerCol
    rw [dif_pos hj]
  rw [h2]
  exact h1

/-- Component `j` of `T^m e_0` is zero for `j > m`, and the product of the `beta` for `j = m`. -/
theorem powerCol_tri (alpha beta : List ℝ) {k : ℕ} (hk : 0 < k) (m : ℕ) :
    (∀ j, m < j → powerCol alpha beta k m j = 0) ∧
    (m < k → powerCol alpha beta k m m = ((∏ i ∈ range m, beta.getD i 0 : ℝ) : ℂ)) := by
  induction m with
  | zero =>
    constructor
    · intro j hj; rw [powerCol_zero, if_neg (by omega)]
    · intro _; rw [powerCol_zero, if_pos ⟨rfl, hk⟩]; simp
  | succ m ih =>
    constructor
    · intro j hj
      by_cases h : j < k
      · rw [powerCol_succ alpha beta m h, if_neg (by omega), ih.1 (j - 1) (by omega), ih.1 j (by omega),
          ih.1 (j + 1) (by omega)]
        simp
      · unfold powerCol; rw [dif_neg h]
    · intro h
      rw [powerCol_succ alpha beta m h, if_neg (by omega), ih.1 (m + 1) (by omega), ih.1 (m + 1 + 1) (by omega),
        Nat.add_sub_cancel, ih.2 (by omega), prod_range_succ]
      push_cast
      ring

/-- `H^m psi = V T^m e_0` while the Krylov space is not left. -/
theorem Decomp.power (h : Decomp H V alpha beta w k) (m : ℕ) (hm : m < k) :
    (H ^ m) *ᵥ V 0 = krylovMat V k *ᵥ fun j => powerCol alpha beta k m j := by
  induction m with
  | zero =>
    rw [pow_zero, Matrix.one_mulVec, krylovMat_mulVec, sum_eq_single ⟨0, h.pos⟩]
    · rw [powerCol_zero, if_pos ⟨rfl, h.pos⟩, one_smul]
    · intro j _ hj
      rw [powerCol_zero, if_neg (fun e => hj (Fin.ext e.1)), zero_smul]
    · intro h'; exact absurd (mem_univ _) h'
  | succ m ih =>
    rw [pow_succ', ← Matrix.mulVec_mulVec, ih (by omega), h.apply _ (powerCol_last _ _ _ _),
      (powerCol_tri alpha beta h.pos m).1 (k - 1) (by omega), zero_smul, add_zero,
      ← powerCol_next alpha beta h.pos]

theorem Decomp.power_last (h : Decomp H V alpha beta w k) :
    (H ^ k) *ᵥ V 0 = krylovMat V k *ᵥ (fun j => powerCol alpha beta k k j)
      + ((∏ i ∈ range (k - 1), beta.getD i 0 : ℝ) : ℂ) • w := by
  have hpos := h.pos
  obtain ⟨m, rfl⟩ : ∃ m, k = m + 1 := ⟨k - 1, by omega⟩
  rw [pow_succ', ← Matrix.mulVec_mulVec, h.power m (by omega), h.apply _ (powerCol_last _ _ _ _),
    ← powerCol_next alpha beta h.pos, Nat.add_sub_cancel, (powerCol_tri alpha beta h.pos m).2 (by omega)]

/-- If `w = 0` the powers stay in the Krylov space for ever. -/
theorem Decomp.power_all (h : Decomp H V alpha beta 0 k) (m : ℕ) :
    (H ^ m) *ᵥ V 0 = krylovMat V k *ᵥ fun j => powerCol alpha beta k m j := by
  induction m with
  | zero => exact h.power 0 h.pos
  | succ m ih =>
    rw [pow_succ', ← Matrix.mulVec_mulVec, ih, h.apply _ (powerCol_last _ _ _ _),
      smul_zero, add_zero,
      ← powerCol_next alpha beta h.pos]

/-- Independent: `psi, H psi, …, H^{k-1} psi`. -/
theorem Decomp.independent (h : Decomp H V alpha beta w k) :
    LinearIndependent ℂ (fun i : Fin k => (H ^ i.val) *ᵥ V 0) := by
  rw [Fintype.linearIndependent_iff]
  intro c hc
  set A : Matrix (Fin k) (Fin k) ℂ := fun j i => powerCol alpha beta k i j with hA
  have hAc : A *ᵥ c = 0 := by
    funext j
    have h1 := congrArg (fun v => star (V j) ⬝ᵥ v) hc
    beta_reduce at h1
    rw [dotProduct_sum, dotProduct_zero] at h1
    rw [Pi.zero_apply, ← h1]
    change ∑ i : Fin k, powerCol alpha beta k i j * c i = _
    refine sum_congr rfl fun i _ => ?_
    rw [dotProduct_smul, h.power i i.isLt, h.coord, smul_eq_mul, mul_comm]
  have htri : A.BlockTriangular id := by
    intro j i hij
    exact (powerCol_tri alpha beta h.pos i).1 j hij
  have hdet : A.det ≠ 0 := by
    rw [Matrix.det_of_upperTriangular htri, prod_ne_zero_iff]
    intro i _
    rw [hA]
    dsimp only
    rw [(powerCol_tri alpha beta h.pos i).2 i.isLt]
    have := i.isLt
    exact_mod_cast (prod_pos fun j hj => h.beta_pos j (by rw [mem_range] at hj; omega)).ne'
  have := Matrix.eq_zero_of_mulVec_eq_zero hdet hAc
  intro i
  rw [this]; rfl

/-- Dependent once `w = 0`. -/
theorem Decomp.dependent (h : Decomp H V alpha beta 0 k) {m : ℕ} (hm : k < m) :
    ¬ LinearIndependent ℂ (fun i : Fin m => (H ^ i.val) *ᵥ V 0) := by
  intro hli
  have e : (fun i : Fin m => (H ^ i.val) *ᵥ V 0)
      = (krylovMat V k).mulVecLin ∘ fun i : Fin m => fun j : Fin k => powerCol alpha beta k i j := by
    funext i
    rw [h.power_all]
    rfl
  rw [e] at hli
  have := (hli.of_comp _).fintype_card_le_finrank
  simp at this
  omega

/-- `w = 0` if `psi, …, H^k psi` are dependent. -/
theorem Decomp.exhausted (h : Decomp H V alpha beta w k)
    (hdep : ¬ LinearIndependent ℂ (fun i : Fin (k + 1) => (H ^ i.val) *ᵥ V 0)) : w = 0 := by
  by_contra hw
  apply hdep
  have hsnoc : (fun i : Fin (k + 1) => (H ^ i.val) *ᵥ V 0)
      = Fin.snoc (α := fun _ => Fin n → ℂ) (fun i : Fin k => (H ^ i.val) *ᵥ V 0) ((H ^ k) *ᵥ V 0) := by
    funext i
    refine Fin.lastCases ?_ (fun i => ?_) i
    · simp
    · simp
  rw [hsnoc, linearIndependent_finSnoc]
  refine ⟨h.independent, ?_⟩
  intro hmem
  -- everything in the span is orthogonal to w
  have hspan : ∀ y ∈ Submodule.span ℂ (Set.range fun i : Fin k => (H ^ i.val) *ᵥ V 0), star w ⬝ᵥ y = 0 := by
    intro y hy
    induction hy using Submodule.span_induction with
    | mem y hy =>
      obtain ⟨i, rfl⟩ := hy
      dsimp only
      rw [h.power i i.isLt, h.perp_mat]
    | zero => rw [dotProduct_zero]
    | add a b _ _ ha hb => rw [dotProduct_add, ha, hb, add_zero]
    | smul c a _ ha => rw [dotProduct_smul, ha, smul_zero]
  have h1 := hspan _ hmem
  rw [h.power_last, dotProduct_add, h.perp_mat, zero_add, dotProduct_smul, smul_eq_mul, mul_eq_zero] at h1
  rcases h1 with h1 | h1
  · have : (0 : ℝ) < ∏ i ∈ range (k - 1), beta.getD i 0 :=
      prod_pos fun j hj => h.beta_pos j (by rw [mem_range] at hj; omega)
    have h2 : (∏ i ∈ range (k - 1), beta.getD i 0 : ℝ) = 0 := by exact_mod_cast h1
    linarith
  · rw [ip_self] at h1
    have h2 : ∑ i, Complex.normSq (w i) = 0 := by exact_mod_cast h1
    rw [sum_eq_zero_iff_of_nonneg (fun i _ => Complex.normSq_nonneg _)] at h2
    exact hw (funext fun i => Complex.normSq_eq_zero.1 (h2 i (mem_univ i)))

/-- The resolvent in the exhausted Krylov space. -/
theorem Decomp.resolvent_eq (h : Decomp H V alpha beta 0 k) (hH : H.IsHermitian) {z : ℂ} (hz : z.im ≠ 0) :
    Spec.resolvent H (V 0) z
      = (z • (1 : Matrix (Fin k) (Fin k) ℂ) - tridiagonal alpha beta k)⁻¹ ⟨0, h.pos⟩ ⟨0, h.pos⟩ := by
  set T := tridiagonal alpha beta k
  set A := z • (1 : Matrix (Fin k) (Fin k) ℂ) - T with hA
  set x : Fin k → ℂ := A⁻¹ *ᵥ Pi.single ⟨0, h.pos⟩ 1 with hx
  have hTU : IsUnit A.det := (Matrix.isUnit_iff_isUnit_det _).1 (isUnit_resolvent (tridiagonal_hermitian _ _ _) hz)
  have hHU : IsUnit (z • (1 : Matrix (Fin n) (Fin n) ℂ) - H).det :=
    (Matrix.isUnit_iff_isUnit_det _).1 (isUnit_resolvent hH hz)
  have hAx : A *ᵥ x = Pi.single ⟨0, h.pos⟩ 1 := by
    rw [hx, Matrix.mulVec_mulVec, Matrix.mul_nonsing_inv _ hTU, Matrix.one_mulVec]
  -- the vector as a sequence
  let xs : ℕ → ℂ := fun j => if hj : j < k then x ⟨j, hj⟩ else 0
  have hxs : (fun j : Fin k => xs j) = x := by
    funext j; simp only [xs, dif_pos j.isLt]
  have happ := h.apply xs (by simp [xs])
  rw [hxs, smul_zero, add_zero] at happ
  have hsol : (z • (1 : Matrix (Fin n) (Fin n) ℂ) - H) *ᵥ (krylovMat V k *ᵥ x) = V 0 := by
    rw [Matrix.sub_mulVec, Matrix.smul_mulVec, Matrix.one_mulVec, happ, ← Matrix.mulVec_smul, ← Matrix.mulVec_sub]
    have : z • x - T *ᵥ x = A *ᵥ x := by
      rw [hA, Matrix.sub_mulVec, Matrix.smul_mulVec, Matrix.one_mulVec]
    rw [this, hAx, krylovMat_mulVec, sum_eq_single ⟨0, h.pos⟩]
    · rw [Pi.single_eq_same, one_smul]
    · intro j _ hj
      rw [Pi.single_eq_of_ne hj, zero_smul]
    · intro h'; exact absurd (mem_univ _) h'
  have hinv : (z • (1 : Matrix (Fin n) (Fin n) ℂ) - H)⁻¹ *ᵥ V 0 = krylovMat V k *ᵥ x := by
    conv_lhs => rw [← hsol]
    rw [Matrix.mulVec_mulVec, Matrix.nonsing_inv_mul _ hHU, Matrix.one_mulVec]
  unfold Spec.resolvent
  rw [hinv]
  have := h.coord x ⟨0, h.pos⟩
  rw [this, hx, Matrix.mulVec_single_one]
  rfl

/-- The moments. -/
theorem Decomp.moments (h : Decomp H V alpha beta w k) (hH : H.IsHermitian) (m : ℕ) (hm : m < 2 * k) :
    star (V 0) ⬝ᵥ ((H ^ m) *ᵥ V 0) = (tridiagonal alpha beta k ^ m) ⟨0, h.pos⟩ ⟨0, h.pos⟩ := by
  have hHm : ∀ i, (H ^ i).IsHermitian := fun i => hH.pow i
  have hTm : ∀ i, (tridiagonal alpha beta k ^ i).IsHermitian := fun i => (tridiagonal_hermitian _ _ _).pow i
  have hT00 : (tridiagonal alpha beta k ^ m) ⟨0, h.pos⟩ ⟨0, h.pos⟩ = powerCol alpha beta k m 0 := by
    unfold powerCol
    rw [dif_pos h.pos, Matrix.mulVec_single_one]
    rfl
  by_cases hmk : m < k
  · rw [h.power m hmk, hT00]
    exact h.coord (fun j => powerCol alpha beta k m j) ⟨0, h.pos⟩
  · -- m = i + 1 + j with i, j < k
    obtain ⟨i, hi⟩ : ∃ i, m = i + k ∧ i < k := ⟨m - k, by omega, by omega⟩
    obtain ⟨hmi, hik⟩ := hi
    have e1 : (H ^ m) *ᵥ V 0 = (H ^ i) *ᵥ ((H ^ k) *ᵥ V 0) := by
      rw [Matrix.mulVec_mulVec, ← pow_add, hmi]
    rw [e1, ip_hermitian (hHm i), h.power i hik, h.power_last, dotProduct_add, dotProduct_smul]
    have e2 : star (krylovMat V k *ᵥ fun j : Fin k => powerCol alpha beta k i j) ⬝ᵥ w = 0 := by
      rw [← ip_star, h.perp_mat, star_zero]
    rw [e2, smul_zero, add_zero]
    have e3 : star (krylovMat V k *ᵥ fun j : Fin k => powerCol alpha beta k i j) ⬝ᵥ
        (krylovMat V k *ᵥ fun j : Fin k => powerCol alpha beta k k j)
        = star (fun j : Fin k => powerCol alpha beta k i j) ⬝ᵥ fun j : Fin k => powerCol alpha beta k k j := by
      rw [Matrix.star_mulVec, Matrix.dotProduct_mulVec, Matrix.vecMul_vecMul, h.ortho_mat, Matrix.vecMul_one]
    rw [e3, powerCol_eq alpha beta h.pos i, powerCol_eq alpha beta h.pos k, ← ip_hermitian (hTm i),
      Matrix.mulVec_mulVec, ← pow_add, ← hmi]
    simp

end

end

end Verif
