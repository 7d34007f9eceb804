/-
Rotations in space that carry a vector to another one.
-/
import Verif.Lemmas.Isotropy

namespace Verif

open Finset Matrix NormedSpace Spec

noncomputable section

theorem crossMat_apply (w h : Fin 3 → ℝ) :
    crossMat w *ᵥ (fun a => (h a : ℂ)) = fun c => ((![w 1 * h 2 - w 2 * h 1, w 2 * h 0 - w 0 * h 2, w 0 * h 1 - w 1 * h 0] c : ℝ) : ℂ) := by
  funext c
  unfold crossMat levi
  simp only [Matrix.mulVec, dotProduct, Fin.sum_univ_three, Matrix.of_apply]
  fin_cases c <;> simp <;> ring

theorem crossMat_unitary (w : Fin 3 → ℝ) :
    (∀ a a', ∑ c, star (exp (crossMat w) c a) * exp (crossMat w) c a' = if a = a' then 1 else 0) ∧
    ∀ c c', ∑ a, exp (crossMat w) c a * star (exp (crossMat w) c' a) = if c = c' then 1 else 0 := by
  obtain ⟨h1, h2⟩ := exp_unitary (A := crossMat w) (by
    ext i j
    rw [conjTranspose_apply, Matrix.neg_apply]
    unfold crossMat
    rw [Matrix.of_apply, Matrix.of_apply, star_sum, ← sum_neg_distrib]
    refine sum_congr rfl fun d _ => ?_
    rw [star_mul', show star ((w d : ℝ) : ℂ) = w d from Complex.conj_ofReal _]
    unfold levi
    have h2 : star (2 : ℂ) = 2 := Complex.conj_ofNat 2
    have hn : ∀ m : ℕ, star (m : ℂ) = m := Complex.conj_natCast
    simp only [star_div₀, star_mul', star_sub, hn, h2]
    ring)
  constructor
  · intro a a'
    have := congrFun (congrFun h1 a) a'
    rw [Matrix.mul_apply, Matrix.one_apply] at this
    exact this
  · intro c c'
    have := congrFun (congrFun h2 c) c'
    rw [Matrix.mul_apply, Matrix.one_apply] at this
    exact this

theorem rotated_iff (w h h' : Fin 3 → ℝ) : Rotated w h h' ↔ exp (crossMat w) *ᵥ (fun a => (h a : ℂ)) = fun c => (h' c : ℂ) := by
  constructor
  · intro k
    funext c
    exact (k c).symm
  · intro k c
    exact (congrFun k c).symm

theorem rotated_fixed {w h : Fin 3 → ℝ} (hc : w 1 * h 2 = w 2 * h 1 ∧ w 2 * h 0 = w 0 * h 2 ∧ w 0 * h 1 = w 1 * h 0) : Rotated w h h := by
  rw [rotated_iff, exp_eigen (c := 0)]
  · simp
  · rw [crossMat_apply, hc.1, hc.2.1, hc.2.2]
    funext c
    fin_cases c <;> simp

/-- The rotation by the angle `θ` in the plane of two orthogonal vectors `h` and `k` of the same length. -/
theorem rotated_plane {h k : Fin 3 → ℝ} {r : ℝ} (hr : r ≠ 0) (hh : h 0 ^ 2 + h 1 ^ 2 + h 2 ^ 2 = r) (hk : k 0 ^ 2 + k 1 ^ 2 + k 2 ^ 2 = r)
    (ho : h 0 * k 0 + h 1 * k 1 + h 2 * k 2 = 0) (θ : ℝ) :
    Rotated ![θ / r * (h 1 * k 2 - h 2 * k 1), θ / r * (h 2 * k 0 - h 0 * k 2), θ / r * (h 0 * k 1 - h 1 * k 0)] h
      fun c => Real.cos θ * h c + Real.sin θ * k c := by
  set w : Fin 3 → ℝ := ![θ / r * (h 1 * k 2 - h 2 * k 1), θ / r * (h 2 * k 0 - h 0 * k 2), θ / r * (h 0 * k 1 - h 1 * k 0)] with hw
  have w0 : w 0 = θ / r * (h 1 * k 2 - h 2 * k 1) := rfl
  have w1 : w 1 = θ / r * (h 2 * k 0 - h 0 * k 2) := rfl
  have w2 : w 2 = θ / r * (h 0 * k 1 - h 1 * k 0) := rfl
  have hθ : θ / r * r = θ := div_mul_cancel₀ θ hr
  have c1 : crossMat w *ᵥ (fun a => (h a : ℂ)) = fun c => ((θ * k c : ℝ) : ℂ) := by
    rw [crossMat_apply, w0, w1, w2]
    funext c
    congr 1
    fin_cases c <;> simp only [Fin.zero_eta, Fin.mk_one, Fin.reduceFinMk, Matrix.cons_val_zero, Matrix.cons_val_one, Matrix.cons_val]
    · linear_combination (θ / r * k 0) * hh - θ / r * h 0 * ho + k 0 * hθ
    · linear_combination (θ / r * k 1) * hh - θ / r * h 1 * ho + k 1 * hθ
    · linear_combination (θ / r * k 2) * hh - θ / r * h 2 * ho + k 2 * hθ
  have c2 : crossMat w *ᵥ (fun a => (k a : ℂ)) = fun c => ((-(θ * h c) : ℝ) : ℂ) := by
    rw [crossMat_apply, w0, w1, w2]
    funext c
    congr 1
    fin_cases c <;> simp only [Fin.zero_eta, Fin.mk_one, Fin.reduceFinMk, Matrix.cons_val_zero, Matrix.cons_val_one, Matrix.cons_val]
    · linear_combination -(θ / r * h 0) * hk + θ / r * k 0 * ho - h 0 * hθ
    · linear_combination -(θ / r * h 1) * hk + θ / r * k 1 * ho - h 1 * hθ
    · linear_combination -(θ / r * h 2) * hk + θ / r * k 2 * ho - h 2 * hθ
  have hI := Complex.I_mul_I
  have e1 : crossMat w *ᵥ ((fun a => (h a : ℂ)) - Complex.I • fun a => (k a : ℂ))
      = ((θ : ℂ) * Complex.I) • ((fun a => (h a : ℂ)) - Complex.I • fun a => (k a : ℂ)) := by
    rw [Matrix.mulVec_sub, Matrix.mulVec_smul, c1, c2]
    funext c
    simp only [Pi.sub_apply, Pi.smul_apply, smul_eq_mul]
    push_cast
    linear_combination (θ * k c : ℂ) * hI
  have e2 : crossMat w *ᵥ ((fun a => (h a : ℂ)) + Complex.I • fun a => (k a : ℂ))
      = (-(θ : ℂ) * Complex.I) • ((fun a => (h a : ℂ)) + Complex.I • fun a => (k a : ℂ)) := by
    rw [Matrix.mulVec_add, Matrix.mulVec_smul, c1, c2]
    funext c
    simp only [Pi.add_apply, Pi.smul_apply, smul_eq_mul]
    push_cast
    linear_combination (θ * k c : ℂ) * hI
  have f1 := exp_eigen e1
  have f2 := exp_eigen e2
  rw [Matrix.mulVec_sub, Matrix.mulVec_smul] at f1
  rw [Matrix.mulVec_add, Matrix.mulVec_smul] at f2
  rw [rotated_iff]
  funext c
  have g1 := congrFun f1 c
  have g2 := congrFun f2 c
  simp only [Pi.sub_apply, Pi.add_apply, Pi.smul_apply, smul_eq_mul] at g1 g2
  have hcos : Complex.cos θ = (Complex.exp (θ * Complex.I) + Complex.exp (-θ * Complex.I)) / 2 := rfl
  have hsin : Complex.sin θ = (Complex.exp (-θ * Complex.I) - Complex.exp (θ * Complex.I)) * Complex.I / 2 := rfl
  push_cast
  rw [hcos, hsin]
  linear_combination (g1 + g2) / 2

/-- Some rotation carries a vector to any other one of the same length. -/
theorem exists_rotated (h h' : Fin 3 → ℝ) (hl : h 0 ^ 2 + h 1 ^ 2 + h 2 ^ 2 = h' 0 ^ 2 + h' 1 ^ 2 + h' 2 ^ 2) : ∃ w, Rotated w h h' := by
  set r := h 0 ^ 2 + h 1 ^ 2 + h 2 ^ 2 with hr
  by_cases h0 : r = 0
  · have z : ∀ v : Fin 3 → ℝ, v 0 ^ 2 + v 1 ^ 2 + v 2 ^ 2 = 0 → v = 0 := by
      intro v hv
      have a0 : v 0 ^ 2 = 0 := le_antisymm (by nlinarith [sq_nonneg (v 1), sq_nonneg (v 2)]) (sq_nonneg _)
      have a1 : v 1 ^ 2 = 0 := le_antisymm (by nlinarith [sq_nonneg (v 0), sq_nonneg (v 2)]) (sq_nonneg _)
      have a2 : v 2 ^ 2 = 0 := le_antisymm (by nlinarith [sq_nonneg (v 1), sq_nonneg (v 0)]) (sq_nonneg _)
      funext c
      fin_cases c
      · exact pow_eq_zero_iff two_ne_zero |>.1 a0
      · exact pow_eq_zero_iff two_ne_zero |>.1 a1
      · exact pow_eq_zero_iff two_ne_zero |>.1 a2
    refine ⟨0, ?_⟩
    rw [z h (by rw [← hr, h0]), z h' (by rw [← hl, h0])]
    exact rotated_fixed (by simp)
  · have hpos : 0 < r := lt_of_le_of_ne (by positivity) (Ne.symm h0)
    -- a vector orthogonal to h of the same length
    have hperp : ∃ k : Fin 3 → ℝ, k 0 ^ 2 + k 1 ^ 2 + k 2 ^ 2 = r ∧ h 0 * k 0 + h 1 * k 1 + h 2 * k 2 = 0 := by
      have scale : ∀ k : Fin 3 → ℝ, 0 < k 0 ^ 2 + k 1 ^ 2 + k 2 ^ 2 → h 0 * k 0 + h 1 * k 1 + h 2 * k 2 = 0 →
          ∃ k : Fin 3 → ℝ, k 0 ^ 2 + k 1 ^ 2 + k 2 ^ 2 = r ∧ h 0 * k 0 + h 1 * k 1 + h 2 * k 2 = 0 := by
        intro k hk ho
        set q := Real.sqrt (r / (k 0 ^ 2 + k 1 ^ 2 + k 2 ^ 2))
        have hq : q ^ 2 * (k 0 ^ 2 + k 1 ^ 2 + k 2 ^ 2) = r := by
          rw [Real.sq_sqrt (by positivity), div_mul_cancel₀ _ hk.ne']
        refine ⟨fun c => q * k c, ?_, ?_⟩
        · linear_combination hq
        · linear_combination q * ho
      by_cases ha : h 0 ^ 2 + h 1 ^ 2 = 0
      · have a1 : h 1 = 0 := by
          have : h 1 ^ 2 = 0 := le_antisymm (by nlinarith [sq_nonneg (h 0)]) (sq_nonneg _)
          exact pow_eq_zero_iff two_ne_zero |>.1 this
        exact scale ![0, 1, 0] (by simp) (by simp [a1])
      · refine scale ![-h 1, h 0, 0] ?_ ?_
        · have : 0 < h 0 ^ 2 + h 1 ^ 2 := lt_of_le_of_ne (by positivity) (Ne.symm ha)
          simp only [Matrix.cons_val_zero, Matrix.cons_val_one, Matrix.cons_val]
          nlinarith
        · simp only [Matrix.cons_val_zero, Matrix.cons_val_one, Matrix.cons_val]
          ring
    set d := (h 0 * h' 0 + h 1 * h' 1 + h 2 * h' 2) / r with hd
    have hdr : d * r = h 0 * h' 0 + h 1 * h' 1 + h 2 * h' 2 := div_mul_cancel₀ _ h0
    have hq : (h' 0 - d * h 0) ^ 2 + (h' 1 - d * h 1) ^ 2 + (h' 2 - d * h 2) ^ 2 = (1 - d ^ 2) * r := by
      linear_combination -hl + 2 * d * hdr - d ^ 2 * hr
    have hd1 : d ^ 2 ≤ 1 := by
      have : 0 ≤ (1 - d ^ 2) * r := by rw [← hq]; positivity
      nlinarith [nonneg_of_mul_nonneg_left this hpos]
    have hc : Real.cos (Real.arccos d) = d := Real.cos_arccos (by nlinarith) (by nlinarith)
    have hs : Real.sin (Real.arccos d) = Real.sqrt (1 - d ^ 2) := Real.sin_arccos d
    by_cases h1 : 1 - d ^ 2 = 0
    · obtain ⟨k, k1, k2⟩ := hperp
      have := rotated_plane h0 hr.symm k1 k2 (Real.arccos d)
      rw [hc, hs, h1, Real.sqrt_zero] at this
      rw [h1, zero_mul] at hq
      suffices e : h' = fun c => d * h c + 0 * k c from ⟨_, Eq.mpr (congrArg (Rotated _ h) e) this⟩
      funext c
      have a0 : h' 0 - d * h 0 = 0 := pow_eq_zero_iff two_ne_zero |>.1
        (le_antisymm (by nlinarith [sq_nonneg (h' 1 - d * h 1), sq_nonneg (h' 2 - d * h 2)]) (sq_nonneg _))
      have a1 : h' 1 - d * h 1 = 0 := pow_eq_zero_iff two_ne_zero |>.1
        (le_antisymm (by nlinarith [sq_nonneg (h' 0 - d * h 0), sq_nonneg (h' 2 - d * h 2)]) (sq_nonneg _))
      have a2 : h' 2 - d * h 2 = 0 := pow_eq_zero_iff two_ne_zero |>.1
        (le_antisymm (by nlinarith [sq_nonneg (h' 0 - d * h 0), sq_nonneg (h' 1 - d * h 1)]) (sq_nonneg _))
      fin_cases c
      · show h' 0 = d * h 0 + 0 * k 0
        linarith
      · show h' 1 = d * h 1 + 0 * k 1
        linarith
      · show h' 2 = d * h 2 + 0 * k 2
        linarith
    · have hs0 : Real.sqrt (1 - d ^ 2) ≠ 0 := by
        rw [Real.sqrt_ne_zero (by linarith)]
        exact h1
      have hs2 : Real.sqrt (1 - d ^ 2) ^ 2 = 1 - d ^ 2 := Real.sq_sqrt (by linarith)
      set q := Real.sqrt (1 - d ^ 2)
      have hm : ∀ c, q * ((h' c - d * h c) / q) = h' c - d * h c := fun c => mul_div_cancel₀ _ hs0
      have k1 : ((h' 0 - d * h 0) / q) ^ 2 + ((h' 1 - d * h 1) / q) ^ 2 + ((h' 2 - d * h 2) / q) ^ 2 = r := by
        rw [div_pow, div_pow, div_pow, ← add_div, ← add_div, hq, hs2, mul_comm, mul_div_cancel_right₀ _ h1]
      have k2 : h 0 * ((h' 0 - d * h 0) / q) + h 1 * ((h' 1 - d * h 1) / q) + h 2 * ((h' 2 - d * h 2) / q) = 0 := by
        have : (h 0 * (h' 0 - d * h 0) + h 1 * (h' 1 - d * h 1) + h 2 * (h' 2 - d * h 2)) / q = 0 := by
          rw [show h 0 * (h' 0 - d * h 0) + h 1 * (h' 1 - d * h 1) + h 2 * (h' 2 - d * h 2) = 0 by
            linear_combination -hdr - d * hr, zero_div]
        rw [← this]
        ring
      have := rotated_plane (k := fun c => (h' c - d * h c) / q) h0 hr.symm k1 k2 (Real.arccos d)
      rw [hc, hs] at this
      suffices e : h' = fun c => d * h c + q * ((h' c - d * h c) / q) from ⟨_, Eq.mpr (congrArg (Rotated _ h) e) this⟩
      funext c
      rw [hm]
      ring

end

end Verif
