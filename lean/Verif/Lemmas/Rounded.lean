/-
Rounded complex operations and the rounded continued fraction.
-/
import Verif.Spec.Rounded
import Verif.Lemmas.RoundedChain
import Verif.Lemmas.Fraction

namespace Verif

open Spec

noncomputable section

/-! ### Relative errors -/

/-- `p` is 1 up to `P - 1`. -/
def Near (P p : ℝ) : Prop := |p - 1| ≤ P - 1

theorem Near.one_le {P p : ℝ} (h : Near P p) : 1 ≤ P := by
  have := (abs_nonneg _).trans h
  linarith

theorem Near.abs_le {P p : ℝ} (h : Near P p) : |p| ≤ P := by
  have := abs_add_le (p - 1) 1
  rw [sub_add_cancel, abs_one] at this
  unfold Near at h
  linarith

theorem Near.mul {P p Q q : ℝ} (h : Near P p) (h' : Near Q q) : Near (P * Q) (p * q) := by
  have e : p * q - 1 = p * (q - 1) + (p - 1) := by ring
  unfold Near
  rw [e]
  refine (abs_add_le _ _).trans ?_
  rw [abs_mul]
  have h1 : |p| * |q - 1| ≤ P * (Q - 1) := mul_le_mul h.abs_le h' (abs_nonneg _) (by linarith [h.one_le])
  have h2 : |p - 1| ≤ P - 1 := h
  linarith

theorem Near.inv {P p : ℝ} (h : Near P p) (hP : P < 2) : Near (2 - P)⁻¹ p⁻¹ := by
  have hp : 2 - P ≤ p := by
    have := (_root_.abs_le.1 (show |p - 1| ≤ P - 1 from h)).1
    linarith
  have hp0 : 0 < p := by linarith
  have h2 : 0 < 2 - P := by linarith
  unfold Near
  rw [show p⁻¹ - 1 = (1 - p) * p⁻¹ by field_simp, abs_mul, abs_sub_comm, abs_of_pos (inv_pos.2 hp0),
    show (2 - P)⁻¹ - 1 = (P - 1) * (2 - P)⁻¹ by field_simp; ring]
  exact mul_le_mul h (inv_anti₀ h2 hp) (inv_pos.2 hp0).le (by linarith [h.one_le])

theorem Near.mono {P Q p : ℝ} (h : Near P p) (hPQ : P ≤ Q) : Near Q p := le_trans h (by linarith)

theorem near_one {P : ℝ} (h : 1 ≤ P) : Near P 1 := by
  unfold Near; simpa using h

theorem Near.pos {P p : ℝ} (h : Near P p) (hP : P < 2) : 0 < p := by
  have := (_root_.abs_le.1 (show |p - 1| ≤ P - 1 from h)).1
  linarith

/-- A relative error as a factor. -/
theorem exists_near {u r x : ℝ} (hu : 0 ≤ u) (h : |r - x| ≤ u * |x|) : ∃ p, Near (1 + u) p ∧ r = x * p := by
  by_cases hx : x = 0
  · subst hx
    refine ⟨1, near_one (by linarith), ?_⟩
    simp at h
    simpa using h
  · refine ⟨r / x, ?_, by field_simp⟩
    unfold Near
    rw [show r / x - 1 = (r - x) / x by field_simp, abs_div, div_le_iff₀ (abs_pos.2 hx)]
    linarith

theorem near_error {P p x : ℝ} (h : Near P p) : |x * p - x| ≤ (P - 1) * |x| := by
  rw [show x * p - x = (p - 1) * x by ring, abs_mul]
  exact mul_le_mul_of_nonneg_right h (abs_nonneg _)

/-- Errors relative to each component are relative to the norm. -/
theorem norm_of_components {u : ℝ} (hu : 0 ≤ u) {r w : ℂ} (hre : |r.re - w.re| ≤ u * |w.re|)
    (him : |r.im - w.im| ≤ u * |w.im|) : ‖r - w‖ ≤ u * ‖w‖ := by
  refine abs_le_of_sq_le_sq' ?_ (by positivity) |>.2
  rw [mul_pow, ← Complex.normSq_eq_norm_sq, ← Complex.normSq_eq_norm_sq, Complex.normSq_apply, Complex.normSq_apply,
    Complex.sub_re, Complex.sub_im]
  have h1 : (r.re - w.re) ^ 2 ≤ (u * |w.re|) ^ 2 := sq_le_sq' (by linarith [neg_abs_le (r.re - w.re)])
    ((le_abs_self _).trans hre)
  have h2 : (r.im - w.im) ^ 2 ≤ (u * |w.im|) ^ 2 := sq_le_sq' (by linarith [neg_abs_le (r.im - w.im)])
    ((le_abs_self _).trans him)
  rw [mul_pow, sq_abs] at h1 h2
  nlinarith

/-- A complex relative error as a factor. -/
theorem exists_factor {u : ℝ} (hu : 0 ≤ u) {r w : ℂ} (h : ‖r - w‖ ≤ u * ‖w‖) : ∃ c : ℂ, ‖c - 1‖ ≤ u ∧ r = w * c := by
  by_cases hw : w = 0
  · subst hw
    refine ⟨1, by simpa using hu, ?_⟩
    simp at h
    simpa using h
  · refine ⟨r / w, ?_, by field_simp⟩
    rw [show r / w - 1 = (r - w) / w by field_simp, norm_div, div_le_iff₀ (norm_pos_iff.2 hw)]
    exact h

variable {u : ℝ} {fl : FloatOps}

theorem Spec.Accurate.nonneg (hfl : Accurate u fl) : 0 ≤ u := by
  have := (abs_nonneg _).trans (hfl.add 1 0)
  simpa using this

theorem Spec.Accurate.mul_zero (hfl : Accurate u fl) (x : ℝ) : fl.mul 0 x = 0 := by
  have := hfl.mul 0 x
  simpa using this

theorem cadd_near (hfl : Accurate u fl) (x y : ℂ) : ‖fl.cadd x y - (x + y)‖ ≤ u * ‖x + y‖ :=
  norm_of_components hfl.nonneg (hfl.add _ _) (hfl.add _ _)

theorem csub_near (hfl : Accurate u fl) (x y : ℂ) : ‖fl.csub x y - (x - y)‖ ≤ u * ‖x - y‖ :=
  norm_of_components hfl.nonneg (hfl.sub _ _) (hfl.sub _ _)

theorem cmul_near (hfl : Accurate u fl) (x : ℝ) (y : ℂ) :
    ‖fl.cmul (x : ℂ) y - x * y‖ ≤ ((1 + u) * (1 + u) - 1) * ‖(x : ℂ) * y‖ := by
  have hu := hfl.nonneg
  refine norm_of_components (by nlinarith) ?_ ?_
  · obtain ⟨p, hp, ep⟩ := exists_near hu (hfl.mul x y.re)
    obtain ⟨q, hq, eq⟩ := exists_near hu (hfl.sub (fl.mul x y.re) 0)
    have e : (fl.cmul (x : ℂ) y).re = x * y.re * (p * q) := by
      show fl.sub (fl.mul x y.re) (fl.mul 0 y.im) = _
      rw [hfl.mul_zero, eq, sub_zero, ep]; ring
    rw [e, Complex.re_ofReal_mul]
    exact near_error (hp.mul hq)
  · obtain ⟨p, hp, ep⟩ := exists_near hu (hfl.mul x y.im)
    obtain ⟨q, hq, eq⟩ := exists_near hu (hfl.add (fl.mul x y.im) 0)
    have e : (fl.cmul (x : ℂ) y).im = x * y.im * (p * q) := by
      show fl.add (fl.mul x y.im) (fl.mul 0 y.re) = _
      rw [hfl.mul_zero, eq, add_zero, ep]; ring
    rw [e, Complex.im_ofReal_mul]
    exact near_error (hp.mul hq)

/-- The error of a division by Smith's algorithm. -/
def smithError (u : ℝ) : ℝ := (1 + u) ^ 5 * (2 - (1 + u) ^ 3)⁻¹ - 1

/-- The two quantities of Smith's algorithm. -/
theorem smith_parts (hfl : Accurate u fl) (hu : (1 + u) ^ 3 < 2) {c d : ℝ} (hc : c ≠ 0) :
    ∃ p q, Near (1 + u) p ∧ Near ((1 + u) * (2 - (1 + u) ^ 3)⁻¹) q ∧ fl.div d c = d / c * p ∧
      fl.div 1 (fl.add c (fl.mul d (fl.div d c))) = c / (c * c + d * d) * q := by
  have hu0 := hfl.nonneg
  have hsum : 0 < c * c + d * d := by have := mul_self_pos.2 hc; nlinarith [mul_self_nonneg d]
  obtain ⟨p, hp, ep⟩ := exists_near hu0 (hfl.div d c hc)
  obtain ⟨p2, hp2, ep2⟩ := exists_near hu0 (hfl.mul d (fl.div d c))
  obtain ⟨p3, hp3, ep3⟩ := exists_near hu0 (hfl.add c (fl.mul d (fl.div d c)))
  -- no cancellation
  have hη : ∃ η, Near ((1 + u) * (1 + u)) η ∧ c + fl.mul d (fl.div d c) = (c * c + d * d) / c * η := by
    have hpp : Near ((1 + u) * (1 + u)) (p * p2) := hp.mul hp2
    refine ⟨(c * c + d * d * (p * p2)) / (c * c + d * d), ?_, ?_⟩
    · unfold Near at hpp ⊢
      rw [show (c * c + d * d * (p * p2)) / (c * c + d * d) - 1 = (d * d) / (c * c + d * d) * (p * p2 - 1) by
        field_simp; ring, abs_mul, abs_of_nonneg (div_nonneg (mul_self_nonneg d) hsum.le)]
      refine le_trans (mul_le_of_le_one_left (abs_nonneg _) ?_) hpp
      rw [div_le_one hsum]
      nlinarith [mul_self_nonneg c]
    · rw [ep2, ep]
      field_simp
  obtain ⟨η, hη, eη⟩ := hη
  have hden : Near ((1 + u) ^ 3) (η * p3) := (hη.mul hp3).mono (le_of_eq (by ring))
  have hden0 := hden.pos hu
  have e3 : fl.add c (fl.mul d (fl.div d c)) = (c * c + d * d) / c * (η * p3) := by rw [ep3, eη]; ring
  have hne : fl.add c (fl.mul d (fl.div d c)) ≠ 0 := by
    rw [e3]
    exact mul_ne_zero (div_ne_zero hsum.ne' hc) hden0.ne'
  obtain ⟨p4, hp4, ep4⟩ := exists_near hu0 (hfl.div 1 _ hne)
  refine ⟨p, p4 * (η * p3)⁻¹, hp, hp4.mul (hden.inv hu), ep, ?_⟩
  rw [ep4, e3]
  field_simp

theorem cdiv_near (hfl : Accurate u fl) (hu : (1 + u) ^ 3 < 2) {y : ℂ} (hy : y ≠ 0) :
    ∃ r, fl.cdiv 1 y = .ok r ∧ ‖r - 1 / y‖ ≤ smithError u * ‖1 / y‖ := by
  have hu0 := hfl.nonneg
  have hinv : 0 < (2 - (1 + u) ^ 3)⁻¹ := inv_pos.2 (by linarith)
  have h1u : 1 ≤ 1 + u := by linarith
  have hone : 1 ≤ (2 - (1 + u) ^ 3)⁻¹ := by
    rw [one_le_inv₀ (by linarith)]
    have : 1 ≤ (1 + u) ^ 3 := one_le_pow₀ h1u
    linarith
  have hre : (1 / y).re = y.re / (y.re * y.re + y.im * y.im) := by
    rw [one_div, Complex.inv_re, Complex.normSq_apply]
  have him : (1 / y).im = -y.im / (y.re * y.re + y.im * y.im) := by
    rw [one_div, Complex.inv_im, Complex.normSq_apply]
  have h5 : ∀ {p : ℝ} {j : ℕ}, j ≤ 5 → Near ((1 + u) ^ j * (2 - (1 + u) ^ 3)⁻¹) p →
      Near ((1 + u) ^ 5 * (2 - (1 + u) ^ 3)⁻¹) p := fun hj h =>
    h.mono (mul_le_mul_of_nonneg_right (pow_le_pow_right₀ h1u hj) hinv.le)
  have hv : 0 ≤ smithError u := by
    unfold smithError
    have : 1 ≤ (1 + u) ^ 5 := one_le_pow₀ h1u
    nlinarith
  unfold FloatOps.cdiv
  rw [if_neg hy]
  by_cases hcase : |y.im| ≤ |y.re|
  · rw [if_pos hcase]
    have hc : y.re ≠ 0 := by
      intro h0
      rw [h0, abs_zero] at hcase
      exact hy (Complex.ext h0 (by simpa using abs_nonpos_iff.1 hcase))
    obtain ⟨p, q, hp, hq, ep, eq⟩ := smith_parts hfl hu (d := y.im) hc
    refine ⟨_, rfl, norm_of_components hv ?_ ?_⟩
    · show |fl.mul (fl.add (1 : ℂ).re (fl.mul (1 : ℂ).im (fl.div y.im y.re))) _ - _| ≤ _
      rw [Complex.one_im, hfl.mul_zero, Complex.one_re, eq]
      obtain ⟨p1, hp1, ep1⟩ := exists_near hu0 (hfl.add 1 0)
      obtain ⟨p2, hp2, ep2⟩ := exists_near hu0 (hfl.mul (fl.add 1 0) (y.re / (y.re * y.re + y.im * y.im) * q))
      rw [ep2, ep1, hre, add_zero, one_mul,
        show p1 * (y.re / (y.re * y.re + y.im * y.im) * q) * p2 = y.re / (y.re * y.re + y.im * y.im) * (p1 * p2 * q) by ring]
      exact near_error (h5 (j := 3) (by norm_num) (((hp1.mul hp2).mul hq).mono (le_of_eq (by ring))))
    · show |fl.mul (fl.sub (1 : ℂ).im (fl.mul (1 : ℂ).re (fl.div y.im y.re))) _ - _| ≤ _
      rw [Complex.one_im, Complex.one_re, eq]
      obtain ⟨p0, hp0, ep0⟩ := exists_near hu0 (hfl.mul 1 (fl.div y.im y.re))
      obtain ⟨p1, hp1, ep1⟩ := exists_near hu0 (hfl.sub 0 (fl.mul 1 (fl.div y.im y.re)))
      obtain ⟨p2, hp2, ep2⟩ := exists_near hu0 (hfl.mul (fl.sub 0 (fl.mul 1 (fl.div y.im y.re)))
        (y.re / (y.re * y.re + y.im * y.im) * q))
      rw [ep2, ep1, ep0, ep, him]
      have hsum : y.re * y.re + y.im * y.im ≠ 0 := by
        have := mul_self_pos.2 hc; nlinarith [mul_self_nonneg y.im]
      rw [show (0 - 1 * (y.im / y.re * p) * p0) * p1 * (y.re / (y.re * y.re + y.im * y.im) * q) * p2
        = -y.im / (y.re * y.re + y.im * y.im) * (p * p0 * p1 * p2 * q) by field_simp; ring]
      exact near_error (h5 (le_refl 5) (((((hp.mul hp0).mul hp1).mul hp2).mul hq).mono (le_of_eq (by ring))))
  · rw [if_neg hcase]
    have hc : y.im ≠ 0 := by
      intro h0
      rw [h0, abs_zero] at hcase
      exact hcase (abs_nonneg _)
    obtain ⟨p, q, hp, hq, ep, eq⟩ := smith_parts hfl hu (d := y.re) hc
    have hsum : y.re * y.re + y.im * y.im ≠ 0 := by
      have := mul_self_pos.2 hc; nlinarith [mul_self_nonneg y.re]
    rw [add_comm] at eq
    refine ⟨_, rfl, norm_of_components hv ?_ ?_⟩
    · show |fl.mul (fl.add (fl.mul (1 : ℂ).re (fl.div y.re y.im)) (1 : ℂ).im) _ - _| ≤ _
      rw [Complex.one_im, Complex.one_re, eq]
      obtain ⟨p0, hp0, ep0⟩ := exists_near hu0 (hfl.mul 1 (fl.div y.re y.im))
      obtain ⟨p1, hp1, ep1⟩ := exists_near hu0 (hfl.add (fl.mul 1 (fl.div y.re y.im)) 0)
      obtain ⟨p2, hp2, ep2⟩ := exists_near hu0 (hfl.mul (fl.add (fl.mul 1 (fl.div y.re y.im)) 0)
        (y.im / (y.re * y.re + y.im * y.im) * q))
      rw [ep2, ep1, ep0, ep, hre]
      rw [show (1 * (y.re / y.im * p) * p0 + 0) * p1 * (y.im / (y.re * y.re + y.im * y.im) * q) * p2
        = y.re / (y.re * y.re + y.im * y.im) * (p * p0 * p1 * p2 * q) by field_simp; ring]
      exact near_error (h5 (le_refl 5) (((((hp.mul hp0).mul hp1).mul hp2).mul hq).mono (le_of_eq (by ring))))
    · show |fl.mul (fl.sub (fl.mul (1 : ℂ).im (fl.div y.re y.im)) (1 : ℂ).re) _ - _| ≤ _
      rw [Complex.one_im, hfl.mul_zero, Complex.one_re, eq]
      obtain ⟨p1, hp1, ep1⟩ := exists_near hu0 (hfl.sub 0 1)
      obtain ⟨p2, hp2, ep2⟩ := exists_near hu0 (hfl.mul (fl.sub 0 1) (y.im / (y.re * y.re + y.im * y.im) * q))
      rw [ep2, ep1, him, show (0 - 1) * p1 * (y.im / (y.re * y.re + y.im * y.im) * q) * p2
        = -y.im / (y.re * y.re + y.im * y.im) * (p1 * p2 * q) by ring]
      exact near_error (h5 (j := 3) (by norm_num) (((hp1.mul hp2).mul hq).mono (le_of_eq (by ring))))

end

end Verif
