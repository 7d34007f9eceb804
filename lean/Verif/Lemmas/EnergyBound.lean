/-
The energies of a Hermitian operator are bounded by the sum of the magnitudes of its strengths.
-/
import Verif.Spec.Convergence
import Verif.Lemmas.Operators
import Verif.Lemmas.ApplyOp
import Mathlib.Algebra.BigOperators.Field

namespace Verif

open Finset Psr Spec

noncomputable section

/-- A product of ladder operators takes a product state to at most one product state, with amplitude `±1`. -/
theorem product_single_or (p : List (ℕ × Bool)) (T : Finset ℕ) (x : ℂ) :
    product p (single T x) = 0 ∨ ∃ S y, ‖y‖ = ‖x‖ ∧ product p (single T x) = single S y := by
  induction p with
  | nil => exact Or.inr ⟨T, x, rfl, rfl⟩
  | cons q p ih =>
    have hcons : product (q :: p) (single T x) = ladder q.1 q.2 (product p (single T x)) := rfl
    rw [hcons]
    rcases ih with h | ⟨S, y, hy, h⟩
    · rw [h, ladder_zero]; exact Or.inl rfl
    · rw [h]
      have hs : ∀ i U, ‖((sgn i U : ℤ) : ℂ) * y‖ = ‖x‖ := by
        intro i U
        rw [norm_mul, ← hy]
        unfold sgn
        simp
      obtain ⟨i, b⟩ := q
      cases b
      · dsimp only
        rw [ladder_single_a]
        split
        · exact Or.inr ⟨_, _, hs _ _, rfl⟩
        · exact Or.inl rfl
      · dsimp only
        rw [ladder_single_c]
        split
        · exact Or.inl rfl
        · exact Or.inr ⟨_, _, hs _ _, rfl⟩

theorem sum_norm_product_le (s : Finset (Finset ℕ)) (p : List (ℕ × Bool)) (T : Finset ℕ) :
    ∑ S ∈ s, ‖product p (single T (1 : ℂ)) S‖ ≤ 1 := by
  rcases product_single_or p T 1 with h | ⟨U, y, hy, h⟩
  · rw [h]; simp
  · rw [h]
    unfold Spec.single
    calc ∑ S ∈ s, ‖if S = U then y else 0‖ = ∑ S ∈ s, if S = U then ‖y‖ else 0 := by
          refine sum_congr rfl fun S _ => ?_
          split <;> simp
      _ ≤ 1 := by
          rw [sum_ite_eq' s U]
          split
          · rw [hy]; simp
          · norm_num

theorem sum_norm_matrixElement_le (s : Finset (Finset ℕ)) (op : Op ℕ ℂ) (T : Finset ℕ) :
    ∑ S ∈ s, ‖matrixElement op S T‖ ≤ (op.map fun q => ‖q.2‖).sum := by
  unfold matrixElement operator opSpec
  induction op with
  | nil => simp
  | cons q op ih =>
    simp only [List.map_cons, List.sum_cons]
    refine (sum_le_sum fun S _ => norm_add_le _ _).trans ?_
    rw [sum_add_distrib]
    refine add_le_add ?_ ih
    simp only [norm_mul, ← mul_sum]
    exact mul_le_of_le_one_right (norm_nonneg _) (sum_norm_product_le s _ T)

theorem norm_column_le (op : Op ℕ ℂ) (cut : ℝ) (r : Option Restrictions) (T S : Finset ℕ) :
    ‖column op cut r T S‖ ≤ ‖matrixElement op S T‖ := by
  unfold column
  split
  · exact le_rfl
  · simp

theorem energiesWithin_all {n : ℕ} {op : Op ℕ ℂ} (hop : OpInSystem n op) (hdict : Dict.NodupKeys op) (hh : isHermitianOp op)
    (cut : ℝ) (r : Option Restrictions) (X : Set (Finset ℕ)) {w : ℝ} (hw : (op.map fun q => ‖q.2‖).sum ≤ w) :
    EnergiesWithin n (hamiltonian n op cut r) X 0 w := by
  intro v _ hv
  rw [sub_zero]
  refine (Complex.abs_re_le_norm _).trans ?_
  have hn : ∑ S ∈ (range n).powerset, ‖v S‖ ^ 2 = 1 := by
    have h : ((∑ S ∈ (range n).powerset, ‖v S‖ ^ 2 : ℝ) : ℂ) = 1 := by
      rw [← hv]
      unfold innerProduct
      push_cast
      refine sum_congr rfl fun S _ => ?_
      exact (Complex.conj_mul' (v S)).symm
    exact_mod_cast h
  have hin : innerProduct n v (hamiltonian n op cut r v)
      = ∑ S ∈ (range n).powerset, ∑ T ∈ (range n).powerset, star (v S) * (column op cut r T S * v T) := by
    unfold innerProduct
    refine sum_congr rfl fun S hS => ?_
    unfold hamiltonian
    rw [if_pos (mem_powerset.1 hS), mul_sum]
  have hw0 : ∑ S ∈ (range n).powerset, ∑ T ∈ (range n).powerset, ‖matrixElement op S T‖ * ‖v T‖ ^ 2 ≤ w := by
    rw [sum_comm]
    calc ∑ T ∈ (range n).powerset, ∑ S ∈ (range n).powerset, ‖matrixElement op S T‖ * ‖v T‖ ^ 2
        ≤ ∑ T ∈ (range n).powerset, w * ‖v T‖ ^ 2 := by
          refine sum_le_sum fun T _ => ?_
          rw [← sum_mul]
          exact mul_le_mul_of_nonneg_right ((sum_norm_matrixElement_le _ op T).trans hw) (by positivity)
      _ = w := by rw [← mul_sum, hn, mul_one]
  have hw1 : ∑ S ∈ (range n).powerset, ∑ T ∈ (range n).powerset, ‖matrixElement op S T‖ * ‖v S‖ ^ 2 ≤ w := by
    calc ∑ S ∈ (range n).powerset, ∑ T ∈ (range n).powerset, ‖matrixElement op S T‖ * ‖v S‖ ^ 2
        ≤ ∑ S ∈ (range n).powerset, w * ‖v S‖ ^ 2 := by
          refine sum_le_sum fun S hS => ?_
          rw [← sum_mul]
          refine mul_le_mul_of_nonneg_right ?_ (by positivity)
          refine le_trans (le_of_eq ?_) ((sum_norm_matrixElement_le (range n).powerset op S).trans hw)
          refine sum_congr rfl fun T hT => ?_
          rw [matrixElement_hermitian hdict hop hh (mem_powerset.1 hS) (mem_powerset.1 hT), norm_star]
      _ = w := by rw [← mul_sum, hn, mul_one]
  rw [hin]
  calc ‖∑ S ∈ (range n).powerset, ∑ T ∈ (range n).powerset, star (v S) * (column op cut r T S * v T)‖
      ≤ ∑ S ∈ (range n).powerset, ∑ T ∈ (range n).powerset, ‖star (v S) * (column op cut r T S * v T)‖ :=
        (norm_sum_le _ _).trans (sum_le_sum fun S _ => norm_sum_le _ _)
    _ ≤ ∑ S ∈ (range n).powerset, ∑ T ∈ (range n).powerset,
          (‖matrixElement op S T‖ * ‖v T‖ ^ 2 + ‖matrixElement op S T‖ * ‖v S‖ ^ 2) / 2 := by
        refine sum_le_sum fun S _ => sum_le_sum fun T _ => ?_
        rw [norm_mul, norm_mul, norm_star]
        have h1 := norm_column_le op cut r T S
        have h2 : ‖v S‖ * (‖column op cut r T S‖ * ‖v T‖) ≤ ‖v S‖ * (‖matrixElement op S T‖ * ‖v T‖) := by gcongr
        refine h2.trans ?_
        nlinarith [sq_nonneg (‖v S‖ - ‖v T‖), norm_nonneg (matrixElement op S T)]
    _ ≤ w := by
        simp only [← sum_div, sum_add_distrib]
        linarith

end

end Verif
