/-
The lowest eigenvalues of two symmetric operators whose expectation values are close.
-/
import Verif.Lemmas.Variational

namespace Verif

open Finset ComplexConjugate Spec

local notation "⟪" x ", " y "⟫" => Inner.inner ℂ x y

section
variable {E : Type} [NormedAddCommGroup E] [InnerProductSpace ℂ E] {T T' : E →ₗ[ℂ] E}

/-- Weyl's inequality. -/
theorem minmax_close (hsym : T.IsSymmetric) {k : ℕ} {x : Fin k → E} {e : Fin k → ℝ} (hx : Orthonormal ℂ x)
    (hT : ∀ v, T (x v) = (e v : ℂ) • x v) (hmono : Monotone e)
    (hlow : ∀ z, (∀ v, ⟪x v, z⟫ = 0) → ∀ v, e v * ‖z‖ ^ 2 ≤ (⟪z, T z⟫).re) (i : Fin k)
    {u : Fin (i.val + 1) → E} (hu : Orthonormal ℂ u) {d : Fin (i.val + 1) → ℝ}
    (hd : ∀ v w, ⟪u v, T' (u w)⟫ = if v = w then (d w : ℂ) else 0) {B c : ℝ} (hB : ∀ v, d v ≤ B)
    (hc : ∀ y, (⟪y, T y⟫).re ≤ (⟪y, T' y⟫).re + c * ‖y‖ ^ 2) : e i ≤ B + c := by
  let f : (Fin (i.val + 1) → ℂ) →ₗ[ℂ] (Fin i.val → ℂ) :=
    LinearMap.pi fun w => (innerSL ℂ (x ⟨w.val, w.isLt.trans i.isLt⟩)).toLinearMap.comp
      (Fintype.linearCombination ℂ u)
  have hker : LinearMap.ker f ≠ ⊥ := by
    refine LinearMap.ker_ne_bot_of_finrank_lt ?_
    simp
  obtain ⟨a, ha, hne⟩ := (Submodule.ne_bot_iff _).1 hker
  set y : E := ∑ v, a v • u v with hy
  have hortho : ∀ w < i, ⟪x w, y⟫ = 0 := by
    intro w hw
    have := congrFun (LinearMap.mem_ker.1 ha) ⟨w.val, hw⟩
    simpa [f, Fintype.linearCombination_apply, hy] using this
  have h1 := lower_bound hsym hx hT hmono hlow i y hortho
  have h2 : (⟪y, T' y⟫).re = ∑ v, d v * ‖a v‖ ^ 2 := by
    rw [hy, form_sum hd, Complex.ofReal_re]
  have h3 : ‖y‖ ^ 2 = ∑ v, ‖a v‖ ^ 2 := orthonormal_normSq hu a
  have hpos : 0 < ‖y‖ ^ 2 := by
    rw [h3]
    obtain ⟨v, hv⟩ := Function.ne_iff.1 hne
    refine Finset.sum_pos' (fun v _ => sq_nonneg _) ⟨v, mem_univ _, ?_⟩
    have : 0 < ‖a v‖ := norm_pos_iff.2 hv
    exact pow_pos this 2
  have h4 : ∑ v, d v * ‖a v‖ ^ 2 ≤ B * ‖y‖ ^ 2 := by
    rw [h3, Finset.mul_sum]
    exact Finset.sum_le_sum fun v _ => mul_le_mul_of_nonneg_right (hB v) (sq_nonneg _)
  have h5 := hc y
  rw [h2] at h5
  refine le_of_mul_le_mul_right ?_ hpos
  rw [add_mul]
  linarith

end

section
variable {s : Finset (Finset ℕ)} {h h' : Finset ℕ → Finset ℕ → ℂ} {es es' : List ℝ} {x x' : ℕ → Finset ℕ → ℂ}

/-- Eigenvalues of two operators in the same space of product states. -/
theorem LowestIn.weyl (H : LowestIn s h es x) (H' : LowestIn s h' es' x') (hh : ∀ S ∈ s, ∀ T ∈ s, h S T = star (h T S)) {c : ℝ}
    (hc : ∀ y : Finset ℕ → ℂ, (∑ S ∈ s, ∑ T ∈ s, star (y S) * h S T * y T).re
      ≤ (∑ S ∈ s, ∑ T ∈ s, star (y S) * h' S T * y T).re + c * ∑ S ∈ s, Complex.normSq (y S)) (i : ℕ)
    (hi : i < es.length) (hi' : i < es'.length) : es[i] ≤ es'[i] + c := by
  have hlt : ∀ v : Fin (i + 1), v.val < es'.length := fun v => lt_of_le_of_lt (Nat.lt_succ_iff.1 v.isLt) hi'
  refine minmax_close (T' := matrixOn s h') (matrixOn_symmetric hh) H.orthonormal H.map H.mono H.lowest ⟨i, hi⟩
    (u := fun v => onStates s (x' v.val)) (d := fun v => es'[v.val]'(hlt v)) ?_ ?_ ?_ ?_
  · rw [orthonormal_iff_ite]
    intro v w
    rw [inner_onStates, H'.ortho v (hlt v) w (hlt w)]
    simp only [Fin.ext_iff]
  · intro v w
    have := H'.map ⟨w.val, hlt w⟩
    dsimp only at this
    rw [this, inner_smul_right, inner_onStates, H'.ortho v (hlt v) w (hlt w)]
    simp only [Fin.ext_iff]
    split <;> simp
  · intro v
    rcases (Nat.lt_succ_iff.1 v.isLt).lt_or_eq with h | h
    · exact List.pairwise_iff_getElem.1 H'.asc _ _ _ _ h
    · simp only [h]; exact le_rfl
  · intro y
    obtain ⟨y, rfl⟩ := onStates_surj y
    rw [form_onStates, form_onStates, norm_onStates]
    exact hc y

/-- Expectation values differ by at most the largest sum of magnitudes in a column of the difference. -/
theorem form_close (hh : ∀ S ∈ s, ∀ T ∈ s, h S T = star (h T S)) (hh' : ∀ S ∈ s, ∀ T ∈ s, h' S T = star (h' T S)) {c : ℝ}
    (hc : ∀ T ∈ s, ∑ S ∈ s, ‖h S T - h' S T‖ ≤ c) (y : Finset ℕ → ℂ) :
    (∑ S ∈ s, ∑ T ∈ s, star (y S) * h S T * y T).re
      ≤ (∑ S ∈ s, ∑ T ∈ s, star (y S) * h' S T * y T).re + c * ∑ S ∈ s, Complex.normSq (y S) := by
  rw [← sub_le_iff_le_add', ← Complex.sub_re]
  refine (Complex.re_le_norm _).trans ?_
  rw [← sum_sub_distrib]
  simp only [← sum_sub_distrib]
  have hcol : ∀ S ∈ s, ∑ T ∈ s, ‖h S T - h' S T‖ ≤ c := by
    intro S hS
    refine le_trans (le_of_eq (sum_congr rfl fun T hT => ?_)) (hc S hS)
    rw [hh S hS T hT, hh' S hS T hT, ← star_sub, norm_star]
  calc ‖∑ S ∈ s, ∑ T ∈ s, (star (y S) * h S T * y T - star (y S) * h' S T * y T)‖
      ≤ ∑ S ∈ s, ∑ T ∈ s, ‖star (y S) * h S T * y T - star (y S) * h' S T * y T‖ :=
        (norm_sum_le _ _).trans (sum_le_sum fun S _ => norm_sum_le _ _)
    _ ≤ ∑ S ∈ s, ∑ T ∈ s, (‖h S T - h' S T‖ * Complex.normSq (y S) + ‖h S T - h' S T‖ * Complex.normSq (y T)) / 2 := by
        refine sum_le_sum fun S _ => sum_le_sum fun T _ => ?_
        rw [← sub_mul, ← mul_sub, norm_mul, norm_mul, norm_star, Complex.normSq_eq_norm_sq, Complex.normSq_eq_norm_sq]
        nlinarith [mul_nonneg (norm_nonneg (h S T - h' S T)) (sq_nonneg (‖y S‖ - ‖y T‖))]
    _ = (∑ S ∈ s, (∑ T ∈ s, ‖h S T - h' S T‖) * Complex.normSq (y S)
          + ∑ T ∈ s, (∑ S ∈ s, ‖h S T - h' S T‖) * Complex.normSq (y T)) / 2 := by
        simp only [← sum_div, sum_add_distrib, sum_mul]
        rw [sum_comm (f := fun S T => ‖h S T - h' S T‖ * Complex.normSq (y T))]
    _ ≤ (∑ S ∈ s, c * Complex.normSq (y S) + ∑ T ∈ s, c * Complex.normSq (y T)) / 2 := by
        refine div_le_div_of_nonneg_right (add_le_add ?_ ?_) (by norm_num)
        · exact sum_le_sum fun S hS => mul_le_mul_of_nonneg_right (hcol S hS) (Complex.normSq_nonneg _)
        · exact sum_le_sum fun T hT => mul_le_mul_of_nonneg_right (hc T hT) (Complex.normSq_nonneg _)
    _ = c * ∑ S ∈ s, Complex.normSq (y S) := by
        rw [← mul_sum]; ring

end

end Verif
