/-
The lowest part of a complete set of eigenvectors.
-/
import Verif.Spec.Eigen
import Mathlib.LinearAlgebra.Matrix.NonsingularInverse

namespace Verif

open Finset Spec Matrix

/-- The first eigenpairs of a complete sorted set are the lowest ones. -/
theorem isLowest_take {H : Mat ℂ} {d : ℕ} {p : EigenPairs} (h : EigenOf H d p) (hlen : p.es.length = d)
    (hsort : p.es.Pairwise (· ≤ ·)) (k : ℕ) : IsLowest H d ⟨p.es.take k, p.vecs⟩ := by
  intro y hy v hv
  simp only [List.length_take, lt_min_iff] at hv hy
  simp only [List.getElem_take]
  let V : Matrix (Fin d) (Fin d) ℂ := fun i v => p.vecs i v
  let Y : Fin d → ℂ := fun i => y i
  let e : Fin d → ℝ := fun v => p.es[v.val]'(by omega)
  let A : Matrix (Fin d) (Fin d) ℂ := fun i j => H i j
  have hVV : Vᴴ * V = 1 := by
    ext a b
    rw [mul_apply, one_apply]
    have := h.ortho a (by omega) b (by omega)
    rw [← Fin.sum_univ_eq_sum_range (fun i => star (p.vecs i a) * p.vecs i b) d] at this
    simp only [conjTranspose_apply, Fin.ext_iff]
    exact this
  have hVV' : V * Vᴴ = 1 := mul_eq_one_comm.1 hVV
  have hAV : A * V = V * diagonal (fun v => (e v : ℂ)) := by
    ext a b
    rw [mul_apply, mul_diagonal]
    have := h.eigen b (by omega) a a.2
    rw [← Fin.sum_univ_eq_sum_range (fun j => H a j * p.vecs j b) d] at this
    rw [mul_comm]
    exact this
  let c : Fin d → ℂ := Vᴴ *ᵥ Y
  have hYc : Y = V *ᵥ c := by simp [c, mulVec_mulVec, hVV']
  have hc : ∀ w : Fin d, w.val < k → c w = 0 := by
    intro w hw
    have := hy w ⟨hw, by omega⟩
    rw [← Fin.sum_univ_eq_sum_range (fun i => star (p.vecs i w) * y i) d] at this
    exact this
  have hn : (∑ i ∈ range d, Complex.normSq (y i)) = ∑ w, Complex.normSq (c w) := by
    have h1 : star Y ⬝ᵥ Y = star c ⬝ᵥ c := by
      rw [hYc, star_mulVec, ← dotProduct_mulVec, mulVec_mulVec, hVV, one_mulVec]
    have h2 : ∀ z : Fin d → ℂ, star z ⬝ᵥ z = ((∑ i, Complex.normSq (z i) : ℝ) : ℂ) := by
      intro z
      rw [Complex.ofReal_sum]
      exact Finset.sum_congr rfl fun i _ => (Complex.normSq_eq_conj_mul_self).symm
    rw [h2, h2] at h1
    rw [← Fin.sum_univ_eq_sum_range (fun i => Complex.normSq (y i)) d]
    exact_mod_cast h1
  have hE : energyOf H d y = ∑ w, e w * Complex.normSq (c w) := by
    have h1 : star Y ⬝ᵥ (A *ᵥ Y) = star c ⬝ᵥ (diagonal (fun v => (e v : ℂ)) *ᵥ c) := by
      conv_lhs => rw [hYc, star_mulVec, mulVec_mulVec, hAV, ← mulVec_mulVec, ← dotProduct_mulVec, mulVec_mulVec, hVV,
        one_mulVec]
    have h2 : star c ⬝ᵥ (diagonal (fun v => (e v : ℂ)) *ᵥ c) = ((∑ w, e w * Complex.normSq (c w) : ℝ) : ℂ) := by
      rw [Complex.ofReal_sum]
      refine Finset.sum_congr rfl fun i _ => ?_
      rw [mulVec_diagonal, Complex.ofReal_mul, Complex.normSq_eq_conj_mul_self, Pi.star_apply]
      change star (c i) * _ = _ * (star (c i) * c i)
      ring
    have h3 : energyOf H d y = (star Y ⬝ᵥ (A *ᵥ Y)).re := by
      unfold energyOf
      congr 1
      rw [← Fin.sum_univ_eq_sum_range (fun i => ∑ j ∈ range d, star (y i) * H i j * y j) d]
      refine Finset.sum_congr rfl fun i _ => ?_
      rw [← Fin.sum_univ_eq_sum_range (fun j => star (y i) * H i j * y j) d, mulVec, dotProduct, Finset.mul_sum]
      refine Finset.sum_congr rfl fun j _ => ?_
      rw [mul_assoc]
      rfl
    rw [h3, h1, h2, Complex.ofReal_re]
  rw [hn, hE, Finset.mul_sum]
  refine Finset.sum_le_sum fun w _ => ?_
  by_cases hw : w.val < k
  · rw [hc w hw]
    simp
  · refine mul_le_mul_of_nonneg_right ?_ (Complex.normSq_nonneg _)
    exact List.pairwise_iff_getElem.1 hsort v w.val hv.2 (by omega) (by omega)

end Verif
