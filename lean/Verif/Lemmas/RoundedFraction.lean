/-
The error of the rounded continued fraction.
-/
import Verif.Lemmas.Rounded

namespace Verif

open Spec

noncomputable section

/-- Complex operations with one bound for their relative errors. -/
structure ComplexAccurate (U : ℝ) (fl : FloatOps) : Prop where
  nonneg : 0 ≤ U
  add : ∀ x y, ‖fl.cadd x y - (x + y)‖ ≤ U * ‖x + y‖
  sub : ∀ x y, ‖fl.csub x y - (x - y)‖ ≤ U * ‖x - y‖
  mul : ∀ (x : ℝ) y, ‖fl.cmul (x : ℂ) y - x * y‖ ≤ U * ‖(x : ℂ) * y‖
  sq : ∀ x : ℝ, ‖((fl.mul x x : ℝ) : ℂ) - (x : ℂ) ^ 2‖ ≤ U * ‖(x : ℂ) ^ 2‖
  div : ∀ y : ℂ, y ≠ 0 → ∃ r, fl.cdiv 1 y = .ok r ∧ ‖r - 1 / y‖ ≤ U * ‖1 / y‖
  zero : fl.cdiv 1 0 = .error .nan

theorem smithError_le {u : ℝ} (h0 : 0 ≤ u) (h : u ≤ 1 / 200) : smithError u ≤ 9 * u := by
  have h2 : 0 < 2 - (1 + u) ^ 3 := by
    have : (1 + u) ^ 3 ≤ (1 + 1 / 200) ^ 3 := pow_le_pow_left₀ (by linarith) (by linarith) 3
    norm_num at this
    linarith
  unfold smithError
  rw [← div_eq_mul_inv, sub_le_iff_le_add, div_le_iff₀ h2]
  have e : (9 * u + 1) * (2 - (1 + u) ^ 3) - (1 + u) ^ 5 = u * (1 - 40 * u - 38 * u ^ 2 - 14 * u ^ 3 - u ^ 4) := by ring
  have : 0 ≤ u * (1 - 40 * u - 38 * u ^ 2 - 14 * u ^ 3 - u ^ 4) := by
    refine mul_nonneg h0 ?_
    have h3 : u ^ 2 ≤ 1 / 200 * u := by nlinarith
    have h4 : u ^ 3 ≤ 1 / 200 * u := by nlinarith [mul_nonneg h0 h0]
    have h5 : u ^ 4 ≤ 1 / 200 * u := by nlinarith [mul_nonneg h0 h0, mul_nonneg (mul_nonneg h0 h0) h0]
    linarith
  linarith

theorem Spec.Accurate.complex {u : ℝ} {fl : FloatOps} (hfl : Accurate u fl) (hu : u ≤ 1 / 200) :
    ComplexAccurate (9 * u) fl := by
  have h0 := hfl.nonneg
  refine ⟨by linarith, fun x y => (cadd_near hfl x y).trans ?_, fun x y => (csub_near hfl x y).trans ?_,
    fun x y => (cmul_near hfl x y).trans ?_, fun x => ?_, fun y hy => ?_, ?_⟩
  · exact mul_le_mul_of_nonneg_right (by linarith) (norm_nonneg _)
  · exact mul_le_mul_of_nonneg_right (by linarith) (norm_nonneg _)
  · exact mul_le_mul_of_nonneg_right (by nlinarith) (norm_nonneg _)
  · rw [← Complex.ofReal_pow, ← Complex.ofReal_sub, Complex.norm_real, Complex.norm_real, Real.norm_eq_abs,
      Real.norm_eq_abs, pow_two]
    exact (hfl.mul x x).trans (mul_le_mul_of_nonneg_right (by linarith) (abs_nonneg _))
  · have h3 : (1 + u) ^ 3 < 2 := by
      have : (1 + u) ^ 3 ≤ (1 + 1 / 200) ^ 3 := pow_le_pow_left₀ (by linarith) (by linarith) 3
      norm_num at this
      linarith
    obtain ⟨r, h1, h2⟩ := cdiv_near hfl h3 hy
    exact ⟨r, h1, h2.trans (mul_le_mul_of_nonneg_right (smithError_le h0 hu) (norm_nonneg _))⟩
  · simp [FloatOps.cdiv]

theorem norm_le_of_near {c : ℂ} {r : ℝ} (h : ‖c - 1‖ ≤ r) : ‖c‖ ≤ 1 + r := by
  have := norm_add_le (c - 1) 1
  rw [sub_add_cancel, norm_one] at this
  linarith

/-- Products of factors close to 1. -/
theorem near_mul {c d : ℂ} {r s : ℝ} (hr : 0 ≤ r) (hc : ‖c - 1‖ ≤ r) (hd : ‖d - 1‖ ≤ s) :
    ‖c * d - 1‖ ≤ (1 + r) * (1 + s) - 1 := by
  rw [show c * d - 1 = c * (d - 1) + (c - 1) by ring]
  refine (norm_add_le _ _).trans ?_
  rw [norm_mul]
  have h1 := mul_le_mul (norm_le_of_near hc) hd (norm_nonneg _) (by linarith)
  linarith

/-- The quotient of two factors close to 1. -/
theorem near_div {c d : ℂ} {U : ℝ} (hU : U < 1) (hc : ‖c - 1‖ ≤ U) (hd : ‖d - 1‖ ≤ U) :
    d ≠ 0 ∧ ‖c / d - 1‖ ≤ 2 * U / (1 - U) := by
  have hdn : 1 - U ≤ ‖d‖ := by
    have := norm_sub_norm_le (1 : ℂ) (1 - d)
    rw [norm_one, norm_sub_rev, sub_sub_cancel] at this
    linarith
  have hd0 : d ≠ 0 := by
    intro h
    rw [h, norm_zero] at hdn
    linarith
  refine ⟨hd0, ?_⟩
  rw [show c / d - 1 = ((c - 1) - (d - 1)) / d by field_simp; ring, norm_div]
  have h1 : ‖(c - 1) - (d - 1)‖ ≤ 2 * U := (norm_sub_le _ _).trans (by linarith)
  exact div_le_div₀ ((norm_nonneg _).trans h1) h1 (by linarith) hdn

/-- The relative error of the squared coupling in one step. -/
def fractionError (U : ℝ) : ℝ := (1 + U) ^ 3 / (1 - U) - 1

/-- What is known of the rounded fraction `g`: up to a factor it is a perturbed one. -/
def RoundedOf (δ εa εb U : ℝ) (f g : ℂ) : Prop :=
  ∃ h c : ℂ, g = h * c ∧ ‖c - 1‖ ≤ 2 * U / (1 - U) ∧ ∃ X Y Z W V, NearChain δ εa εb f h X Y Z W V

variable {U : ℝ} {fl : FloatOps} (hfl : ComplexAccurate U fl) (hU1 : U < 1)
  {δ εa εb : ℝ} (ha : 0 ≤ εa) (hb : 0 ≤ εb) (hε : εa + εb < δ)

include hfl hU1 ha hb hε

theorem rounded_step {f g s : ℂ} {z' : ℂ} {a b : ℝ} (hr : RoundedOf δ εa εb U f g) (hs : δ ≤ s.im)
    (hs' : ‖s - fl.csub z' a‖ ≤ εa) (hbε : fractionError U * |b| ≤ εb) :
    ∃ g', fl.cdiv 1 (fl.csub (fl.csub z' a) (fl.cmul (fl.mul b b : ℝ) g)) = .ok g' ∧
      RoundedOf δ εa εb U (1 / (s - (b : ℂ) ^ 2 * f)) g' := by
  obtain ⟨h, c, rfl, hc, X, Y, Z, W, V, hch⟩ := hr
  have hU0 := hfl.nonneg
  obtain ⟨c2, hc2, e2⟩ := exists_factor hU0 (hfl.sq b)
  obtain ⟨c3, hc3, e3⟩ := exists_factor hU0 (hfl.mul (fl.mul b b) (h * c))
  have hp : fl.cmul (fl.mul b b : ℝ) (h * c) = ((b : ℂ) ^ 2 * (c2 * c3 * c)) * h := by
    rw [e3, e2]; ring
  have hfac : ‖c2 * c3 * c - 1‖ ≤ fractionError U := by
    have h1 := near_mul hU0 hc2 hc3
    have h2 := near_mul (by nlinarith) h1 hc
    refine h2.trans (le_of_eq ?_)
    unfold fractionError
    have : 1 - U ≠ 0 := by linarith
    field_simp
    ring
  have hq : ‖(b : ℂ) ^ 2 - (b : ℂ) ^ 2 * (c2 * c3 * c)‖ ≤ |b| * εb := by
    rw [show (b : ℂ) ^ 2 - (b : ℂ) ^ 2 * (c2 * c3 * c) = -((b : ℂ) ^ 2 * (c2 * c3 * c - 1)) by ring, norm_neg, norm_mul,
      norm_pow, Complex.norm_real, Real.norm_eq_abs]
    calc |b| ^ 2 * ‖c2 * c3 * c - 1‖ ≤ |b| ^ 2 * fractionError U := mul_le_mul_of_nonneg_left hfac (sq_nonneg _)
      _ = |b| * (fractionError U * |b|) := by ring
      _ ≤ |b| * εb := mul_le_mul_of_nonneg_left hbε (abs_nonneg _)
  obtain ⟨hne, X', Y', Z', W', V', hch'⟩ := hch.step ha hb hε hs hs' hq
  obtain ⟨c4, hc4, e4⟩ := exists_factor hU0 (hfl.sub (fl.csub z' a) (fl.cmul (fl.mul b b : ℝ) (h * c)))
  rw [e4, hp]
  set D := fl.csub z' a - ((b : ℂ) ^ 2 * (c2 * c3 * c)) * h with hD
  have hc40 : c4 ≠ 0 := (near_div hU1 hc4 hc4).1
  obtain ⟨r, hr1, hr2⟩ := hfl.div (D * c4) (mul_ne_zero hne hc40)
  obtain ⟨c5, hc5, e5⟩ := exists_factor hU0 hr2
  refine ⟨r, hr1, 1 / D, c5 / c4, ?_, (near_div hU1 hc5 hc4).2, X', Y', Z', W', V', hch'⟩
  rw [e5]
  field_simp

theorem rounded_first {s z' : ℂ} {a b : ℝ} (hs : δ ≤ s.im) (hs' : ‖s - fl.csub z' a‖ ≤ εa) :
    ∃ g', fl.cdiv 1 (fl.csub z' a) = .ok g' ∧ RoundedOf δ εa εb U (1 / (s - (b : ℂ) ^ 2 * 0)) g' := by
  have hU0 := hfl.nonneg
  obtain ⟨hne, X', Y', Z', W', V', hch'⟩ := (NearChain.zero δ εa εb).step ha hb hε (s := s) (s' := fl.csub z' a)
    (q := (b : ℂ) ^ 2) (b := b) hs hs' (by rw [sub_self, norm_zero]; exact mul_nonneg (abs_nonneg _) hb)
  rw [mul_zero, sub_zero] at hne
  obtain ⟨r, hr1, hr2⟩ := hfl.div _ hne
  obtain ⟨c5, hc5, e5⟩ := exists_factor hU0 hr2
  refine ⟨r, hr1, 1 / fl.csub z' a, c5, e5, hc5.trans ?_, X', Y', Z', W', V', by simpa using hch'⟩
  rw [le_div_iff₀ (by linarith)]
  nlinarith

/-- The rounded loop. -/
theorem roundedFraction_of {alpha beta : List ℝ} {k : ℕ} (la : alpha.length = k) (lb : beta.length = k - 1) {z z' : ℂ}
    (hz : δ ≤ z.im) (hza : ∀ i < k, ‖(z - (alpha.getD i 0 : ℂ)) - fl.csub z' (alpha.getD i 0 : ℝ)‖ ≤ εa)
    (hbe : ∀ i, i + 1 < k → fractionError U * |beta.getD i 0| ≤ εb) :
    ∃ g', roundedFraction fl alpha beta k z' = .ok g' ∧
      RoundedOf δ εa εb U (cfG (fun i => alpha.getD i 0) (fun i => beta.getD i 0) k z k) g' := by
  have hU0 := hfl.nonneg
  have key : ∀ m ≤ k, ∃ g', ((List.range' (k - m) m).reverse).foldlM (roundedFractionBody fl alpha beta k z') 0 = .ok g' ∧
      RoundedOf δ εa εb U (cfG (fun i => alpha.getD i 0) (fun i => beta.getD i 0) k z m) g' := by
    intro m
    induction m with
    | zero =>
      intro _
      refine ⟨0, rfl, 0, 1, by simp, ?_, 0, 0, 0, 0, 0, NearChain.zero ..⟩
      rw [sub_self, norm_zero]
      exact div_nonneg (by linarith) (by linarith)
    | succ m ih =>
      intro hm
      obtain ⟨g, hg, hR⟩ := ih (by omega)
      have e : List.range' (k - (m + 1)) (m + 1) = (k - 1 - m) :: List.range' (k - m) m := by
        rw [List.range'_succ]
        congr 1
        · omega
        · congr 1; omega
      rw [e, List.reverse_cons, List.foldlM_append, hg]
      have h1 : ∃ g', roundedFractionBody fl alpha beta k z' g (k - 1 - m) = .ok g' ∧
          RoundedOf δ εa εb U (cfG (fun i => alpha.getD i 0) (fun i => beta.getD i 0) k z (m + 1)) g' := by
        unfold roundedFractionBody
        rw [pyGet_nat (by omega) 0]
        have hs : δ ≤ (z - (alpha.getD (k - 1 - m) 0 : ℂ)).im := by simpa using hz
        by_cases h : k - 1 - m = k - 1
        · have hm0 : m = 0 := by omega
          subst hm0
          obtain ⟨g', h2, h3⟩ := rounded_first hfl hU1 ha hb hε (b := beta.getD (k - 1 - 0) 0) hs (hza _ (by omega))
          refine ⟨g', ?_, h3⟩
          simp only [bind, Except.bind]
          rw [if_pos h]
          exact h2
        · rw [pyGet_nat (by omega) 0]
          simp only [bind, Except.bind, if_neg h]
          exact rounded_step hfl hU1 ha hb hε hR hs (hza _ (by omega)) (hbe _ (by omega))
      obtain ⟨g', h2, h3⟩ := h1
      refine ⟨g', ?_, h3⟩
      refine Eq.trans (?_ : _ = roundedFractionBody fl alpha beta k z' g (k - 1 - m)) h2
      change (List.foldlM (roundedFractionBody fl alpha beta k z') _ [k - 1 - m]) = _
      rw [List.foldlM_cons, h2]
      rfl
  have h := key k (le_refl k)
  rw [Nat.sub_self, ← List.range_eq_range'] at h
  exact h

/-- The error of the rounded fraction. -/
theorem RoundedOf.error {f g : ℂ} (hr : RoundedOf δ εa εb U f g) :
    ‖g - f‖ ≤ (εa + εb) / (δ * (δ - (εa + εb))) + 2 * U / (1 - U) / (δ - (εa + εb)) := by
  obtain ⟨h, c, rfl, hc, X, Y, Z, W, V, hch⟩ := hr
  obtain ⟨h1, h2⟩ := hch.result ha hb hε
  rw [show h * c - f = -(f - h) + (c - 1) * h by ring]
  refine (norm_add_le _ _).trans ?_
  rw [norm_neg, norm_mul]
  refine add_le_add h1 ?_
  rw [div_eq_mul_one_div _ (δ - (εa + εb))]
  exact mul_le_mul hc h2 (norm_nonneg _) ((norm_nonneg _).trans hc)

end

end Verif
