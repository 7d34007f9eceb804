/-
The order of nearly exact eigenvalues.
-/
import Verif.Lemmas.Inexact
import Mathlib.Algebra.Order.Chebyshev

namespace Verif

open Finset ComplexConjugate Spec

local notation "⟪" x ", " y "⟫" => Inner.inner ℂ x y

section
variable {E : Type} [NormedAddCommGroup E] [InnerProductSpace ℂ E] {T : E →ₗ[ℂ] E}

/-- Among `i + 1` orthonormal vectors there is a combination orthogonal to `i` given vectors. -/
theorem exists_combination {i : ℕ} {u : Fin (i + 1) → E} (hu : Orthonormal ℂ u) (x : Fin i → E) :
    ∃ a : Fin (i + 1) → ℂ, (∀ w, ⟪x w, ∑ v, a v • u v⟫ = 0) ∧ 0 < ‖∑ v, a v • u v‖ ^ 2 := by
  let f : (Fin (i + 1) → ℂ) →ₗ[ℂ] (Fin i → ℂ) :=
    LinearMap.pi fun w => (innerSL ℂ (x w)).toLinearMap.comp (Fintype.linearCombination ℂ u)
  have hker : LinearMap.ker f ≠ ⊥ := by
    refine LinearMap.ker_ne_bot_of_finrank_lt ?_
    simp
  obtain ⟨a, ha, hne⟩ := (Submodule.ne_bot_iff _).1 hker
  refine ⟨a, fun w => ?_, ?_⟩
  · have := congrFun (LinearMap.mem_ker.1 ha) w
    simpa [f, Fintype.linearCombination_apply] using this
  · rw [orthonormal_normSq hu]
    obtain ⟨v, hv⟩ := Function.ne_iff.1 hne
    refine sum_pos' (fun v _ => sq_nonneg _) ⟨v, mem_univ _, pow_pos (norm_pos_iff.2 hv) 2⟩

/-- A combination of short vectors. -/
theorem norm_combination {k : ℕ} {r : Fin k → E} {D : ℝ} (hD : 0 ≤ D) (hr : ∀ v, ‖r v‖ ≤ D) (c : Fin k → ℂ) {q : ℝ} (hq : 0 ≤ q)
    (hc : ∑ v, ‖c v‖ ^ 2 ≤ q ^ 2) : ‖∑ v, c v • r v‖ ≤ Real.sqrt k * D * q := by
  have h1 : ‖∑ v, c v • r v‖ ≤ (∑ v, ‖c v‖) * D := by
    rw [sum_mul]
    refine (norm_sum_le _ _).trans (sum_le_sum fun v _ => ?_)
    rw [norm_smul]
    exact mul_le_mul_of_nonneg_left (hr v) (norm_nonneg _)
  have h2 : ∑ v, ‖c v‖ ≤ Real.sqrt k * q := by
    refine le_of_sq_le_sq ?_ (by positivity)
    have := sq_sum_le_card_mul_sum_sq (s := (univ : Finset (Fin k))) (f := fun v => ‖c v‖)
    rw [card_univ, Fintype.card_fin] at this
    rw [mul_pow, Real.sq_sqrt (by positivity)]
    exact this.trans (mul_le_mul_of_nonneg_left hc (by positivity))
  refine h1.trans ?_
  calc (∑ v, ‖c v‖) * D ≤ Real.sqrt k * q * D := mul_le_mul_of_nonneg_right h2 hD
    _ = Real.sqrt k * D * q := by ring

section
variable {k : ℕ} {x : Fin k → E} {e : Fin k → ℝ} {D : ℝ} (hx : Orthonormal ℂ x)
  (hr : ∀ v, ‖T (x v) - (e v : ℂ) • x v‖ ≤ D)

include hx in
/-- What `T` does to a combination, up to the residuals. -/
theorem form_near (c : Fin k → ℂ) : ⟪∑ v, c v • x v, T (∑ v, c v • x v)⟫ = ((∑ v, e v * ‖c v‖ ^ 2 : ℝ) : ℂ)
    + ⟪∑ v, c v • x v, ∑ v, c v • (T (x v) - (e v : ℂ) • x v)⟫ := by
  have h1 : T (∑ v, c v • x v) = (∑ v, (c v * e v) • x v) + ∑ v, c v • (T (x v) - (e v : ℂ) • x v) := by
    rw [map_sum, ← sum_add_distrib]
    refine sum_congr rfl fun v _ => ?_
    rw [map_smul, smul_sub, smul_smul]
    abel
  rw [h1, inner_add_right]
  congr 1
  rw [hx.inner_sum c (fun v => c v * e v) univ, Complex.ofReal_sum]
  refine sum_congr rfl fun v _ => ?_
  rw [← mul_assoc, Complex.conj_mul']
  push_cast
  ring

include hx hr in
theorem near_lower_bound (hsym : T.IsSymmetric) (hD : 0 ≤ D) (hmono : Monotone e)
    (hlow : ∀ z, (∀ v, ⟪x v, z⟫ = 0) → ∀ v, (e v - D) * ‖z‖ ^ 2 ≤ (⟪z, T z⟫).re) (i : Fin k) (y : E)
    (hy : ∀ w < i, ⟪x w, y⟫ = 0) : (e i - (2 * Real.sqrt k + 1) * D) * ‖y‖ ^ 2 ≤ (⟪y, T y⟫).re := by
  set c : Fin k → ℂ := fun v => ⟪x v, y⟫ with hc
  set p : E := ∑ v, c v • x v with hp
  set R : E := ∑ v, c v • (T (x v) - (e v : ℂ) • x v) with hR
  set z : E := y - p with hz
  have hxz : ∀ v, ⟪x v, z⟫ = 0 := by
    intro v
    rw [hz, inner_sub_right, hp, hx.inner_right_fintype, sub_self]
  have hpz : ⟪p, z⟫ = 0 := by
    rw [hp, sum_inner]
    exact sum_eq_zero fun v _ => by rw [inner_smul_left, hxz, mul_zero]
  have hpn : ‖p‖ ^ 2 = ∑ v, ‖c v‖ ^ 2 := orthonormal_normSq hx c
  have hTp : T p = (∑ v, (c v * e v) • x v) + R := by
    rw [hp, hR, map_sum, ← sum_add_distrib]
    refine sum_congr rfl fun v _ => ?_
    rw [map_smul, smul_sub, smul_smul]
    abel
  have hzTp : ⟪z, T p⟫ = ⟪z, R⟫ := by
    rw [hTp, inner_add_right, inner_sum, sum_eq_zero, zero_add]
    intro v _
    rw [inner_smul_right, ← inner_conj_symm, hxz, map_zero, mul_zero]
  have hpTz : ⟪p, T z⟫ = conj ⟪z, R⟫ := by
    rw [← hsym p z, ← inner_conj_symm, hzTp]
  have hpp := form_near (T := T) (e := e) hx c
  rw [← hp, ← hR] at hpp
  have hy' : y = p + z := by rw [hz]; abel
  have hE : (⟪y, T y⟫).re = (∑ v, e v * ‖c v‖ ^ 2) + (⟪p, R⟫).re + 2 * (⟪z, R⟫).re + (⟪z, T z⟫).re := by
    rw [hy', map_add, inner_add_left, inner_add_right, inner_add_right, hpTz, hzTp, hpp]
    simp only [Complex.add_re, Complex.ofReal_re, Complex.conj_re]
    ring
  have hN : ‖y‖ ^ 2 = ‖p‖ ^ 2 + ‖z‖ ^ 2 := by
    rw [hy', sq, norm_add_sq_eq_norm_sq_add_norm_sq_of_inner_eq_zero _ _ hpz, ← sq, ← sq]
  have hRn : ‖R‖ ≤ Real.sqrt k * D * ‖p‖ := norm_combination hD hr c (norm_nonneg p) hpn.symm.le
  have h1 : -(‖p‖ * ‖R‖) ≤ (⟪p, R⟫).re := by
    have := (abs_le.1 ((Complex.abs_re_le_norm _).trans (norm_inner_le_norm p R))).1
    exact this
  have h2 : -(‖z‖ * ‖R‖) ≤ (⟪z, R⟫).re := by
    have := (abs_le.1 ((Complex.abs_re_le_norm _).trans (norm_inner_le_norm z R))).1
    exact this
  have h3 : e i * ‖p‖ ^ 2 ≤ ∑ v, e v * ‖c v‖ ^ 2 := by
    rw [hpn, mul_sum]
    refine sum_le_sum fun v _ => ?_
    rcases lt_or_ge v i with h | h
    · rw [hc]
      dsimp only
      rw [hy v h]
      simp
    · exact mul_le_mul_of_nonneg_right (hmono h) (sq_nonneg _)
  have h4 := hlow z hxz i
  have h5 : ‖p‖ * ‖R‖ ≤ Real.sqrt k * D * ‖p‖ ^ 2 := by
    calc ‖p‖ * ‖R‖ ≤ ‖p‖ * (Real.sqrt k * D * ‖p‖) := mul_le_mul_of_nonneg_left hRn (norm_nonneg _)
      _ = _ := by ring
  have hkD : 0 ≤ Real.sqrt k * D := by positivity
  have h6 : ‖z‖ * ‖R‖ ≤ Real.sqrt k * D * (‖p‖ * ‖z‖) := by
    calc ‖z‖ * ‖R‖ ≤ ‖z‖ * (Real.sqrt k * D * ‖p‖) := mul_le_mul_of_nonneg_left hRn (norm_nonneg _)
      _ = _ := by ring
  have h7 : Real.sqrt k * D * (‖p‖ ^ 2 + 2 * (‖p‖ * ‖z‖)) ≤ Real.sqrt k * D * (2 * (‖p‖ ^ 2 + ‖z‖ ^ 2)) :=
    mul_le_mul_of_nonneg_left (by nlinarith [sq_nonneg (‖p‖ - ‖z‖), sq_nonneg ‖z‖]) hkD
  have h8 : 0 ≤ D * ‖p‖ ^ 2 := by positivity
  rw [hE, hN]
  nlinarith

include hx hr in
theorem near_upper_bound (hD : 0 ≤ D) (B : ℝ) (c : Fin k → ℂ) (hB : ∀ v, c v ≠ 0 → e v ≤ B) :
    (⟪∑ v, c v • x v, T (∑ v, c v • x v)⟫).re ≤ (B + Real.sqrt k * D) * ‖∑ v, c v • x v‖ ^ 2 := by
  have hpn : ‖∑ v, c v • x v‖ ^ 2 = ∑ v, ‖c v‖ ^ 2 := orthonormal_normSq hx c
  have hRn := norm_combination hD hr c (norm_nonneg (∑ v, c v • x v)) hpn.symm.le
  rw [form_near (e := e) hx c, Complex.add_re, Complex.ofReal_re, add_mul]
  refine add_le_add ?_ ?_
  · rw [hpn, mul_sum]
    refine sum_le_sum fun v _ => ?_
    by_cases h : c v = 0
    · simp [h]
    · exact mul_le_mul_of_nonneg_right (hB v h) (sq_nonneg _)
  · refine (Complex.re_le_norm _).trans ((norm_inner_le_norm _ _).trans ?_)
    calc _ ≤ ‖∑ v, c v • x v‖ * (Real.sqrt k * D * ‖∑ v, c v • x v‖) := mul_le_mul_of_nonneg_left hRn (norm_nonneg _)
      _ = _ := by ring

end

/-- Exact and nearly exact lowest eigenvalues. -/
theorem near_order (hsym : T.IsSymmetric) {k k' : ℕ} {x : Fin k → E} {e : Fin k → ℝ} {D : ℝ} (hD : 0 ≤ D)
    (hx : Orthonormal ℂ x) (hr : ∀ v, ‖T (x v) - (e v : ℂ) • x v‖ ≤ D) (hmono : Monotone e)
    (hlow : ∀ z, (∀ v, ⟪x v, z⟫ = 0) → ∀ v, (e v - D) * ‖z‖ ^ 2 ≤ (⟪z, T z⟫).re)
    {x' : Fin k' → E} {e' : Fin k' → ℝ} (hx' : Orthonormal ℂ x') (hT' : ∀ v, T (x' v) = (e' v : ℂ) • x' v)
    (hmono' : Monotone e') (hlow' : ∀ z, (∀ v, ⟪x' v, z⟫ = 0) → ∀ v, e' v * ‖z‖ ^ 2 ≤ (⟪z, T z⟫).re)
    (i : ℕ) (hi : i < k) (hi' : i < k') :
    |e ⟨i, hi⟩ - e' ⟨i, hi'⟩| ≤ (2 * Real.sqrt k + 1) * D := by
  have hk : 0 ≤ Real.sqrt k * D := by positivity
  rw [abs_le]
  constructor
  · -- the exact one is not much higher
    have hinj : Function.Injective fun v : Fin (i + 1) => (⟨v.val, by omega⟩ : Fin k) := fun a b h => by
      simpa [Fin.ext_iff] using h
    obtain ⟨a, h1, h2⟩ := exists_combination (hx.comp _ hinj) fun w : Fin i => x' ⟨w.val, by omega⟩
    set y := ∑ v, a v • (x ∘ fun v : Fin (i + 1) => (⟨v.val, by omega⟩ : Fin k)) v with hy
    have h3 := lower_bound hsym hx' hT' hmono' hlow' ⟨i, hi'⟩ y fun w hw => h1 ⟨w.val, hw⟩
    -- as a combination of all vectors
    let c : Fin k → ℂ := fun v => if h : v.val < i + 1 then a ⟨v.val, h⟩ else 0
    have hyc : y = ∑ v, c v • x v := by
      rw [hy]
      refine sum_of_injOn (fun v : Fin (i + 1) => (⟨v.val, by omega⟩ : Fin k)) (fun a _ b _ h => hinj h) (fun _ _ => by simp) ?_ ?_
      · intro v _ hv
        have : ¬ v.val < i + 1 := fun h => hv ⟨⟨v.val, h⟩, by simp, rfl⟩
        simp only [c, dif_neg this, zero_smul]
      · intro v _
        simp only [c, dif_pos v.isLt, Function.comp]
    have h4 := near_upper_bound (T := T) hx hr hD (e ⟨i, hi⟩) c fun v hv => by
      have : v.val < i + 1 := by
        by_contra h
        exact hv (by simp only [c, dif_neg h])
      exact hmono (show v ≤ ⟨i, hi⟩ from Nat.lt_succ_iff.1 this)
    rw [← hyc] at h4
    have h5 := le_of_mul_le_mul_right (h3.trans h4) h2
    linarith
  · have hinj : Function.Injective fun v : Fin (i + 1) => (⟨v.val, by omega⟩ : Fin k') := fun a b h => by
      simpa [Fin.ext_iff] using h
    obtain ⟨a, h1, h2⟩ := exists_combination (hx'.comp _ hinj) fun w : Fin i => x ⟨w.val, by omega⟩
    set y := ∑ v, a v • (x' ∘ fun v : Fin (i + 1) => (⟨v.val, by omega⟩ : Fin k')) v with hy
    have h3 := near_lower_bound hx hr hsym hD hmono hlow ⟨i, hi⟩ y fun w hw => h1 ⟨w.val, hw⟩
    have h4 : (⟪y, T y⟫).re ≤ e' ⟨i, hi'⟩ * ‖y‖ ^ 2 := by
      have hd : ∀ v w : Fin (i + 1), ⟪x' ⟨v.val, by omega⟩, T (x' ⟨w.val, by omega⟩)⟫
          = if v = w then (e' ⟨w.val, by omega⟩ : ℂ) else 0 := by
        intro v w
        rw [hT', inner_smul_right, orthonormal_iff_ite.1 hx']
        simp only [Fin.ext_iff]
        split <;> simp
      have h5 := form_sum (T := T) (u := x' ∘ fun v : Fin (i + 1) => (⟨v.val, by omega⟩ : Fin k'))
        (e := fun v => e' ⟨v.val, by omega⟩) hd a
      rw [hy, h5, Complex.ofReal_re, orthonormal_normSq (hx'.comp _ hinj), mul_sum]
      exact sum_le_sum fun v _ => mul_le_mul_of_nonneg_right
        (hmono' (show (⟨v.val, by omega⟩ : Fin k') ≤ ⟨i, hi'⟩ from Nat.lt_succ_iff.1 v.isLt)) (sq_nonneg _)
    have h5 := le_of_mul_le_mul_right (h3.trans h4) h2
    linarith

end

end Verif
