/-
A perturbed continued fraction: stability without a factor of its length.
-/
import Mathlib.Analysis.Complex.Basic
import Mathlib.Tactic.Linarith
import Mathlib.Tactic.Positivity
import Mathlib.Tactic.FieldSimp

namespace Verif

/-- What is known of an exact (`f`) and a perturbed (`h`) continued fraction. -/
structure NearChain (δ εa εb : ℝ) (f h : ℂ) (X Y Z W V : ℝ) : Prop where
  X0 : 0 ≤ X
  Y0 : 0 ≤ Y
  Z0 : 0 ≤ Z
  W0 : 0 ≤ W
  V0 : 0 ≤ V
  fX : ‖f‖ ^ 2 ≤ X
  fim : δ * X ≤ -f.im
  hY : ‖h‖ ^ 2 ≤ Y
  him : (δ - εa) * Y - εb * Z ≤ -h.im
  ZY : Z ≤ Y - ‖h‖ ^ 2 / 2
  diff : ‖f - h‖ ≤ εa * W + εb * V
  WXY : W ^ 2 ≤ X * Y
  VXY : V ^ 2 ≤ X * (Y - ‖h‖ ^ 2)

theorem NearChain.zero (δ εa εb : ℝ) : NearChain δ εa εb 0 0 0 0 0 0 0 := by
  constructor <;> simp

theorem chain_aux1 {A B F : ℝ} (hA : 0 ≤ A) : F ^ 2 ≤ F ^ 2 * (1 + B ^ 2 * A) := by
  have : 0 ≤ F ^ 2 * (B ^ 2 * A) := by positivity
  linarith [this, mul_add (F ^ 2) 1 (B ^ 2 * A)]

theorem chain_aux2 {t W X Y : ℝ} (hX : 0 ≤ X) (hY : 0 ≤ Y) (h : W ^ 2 ≤ X * Y) :
    (1 + t ^ 2 * W) ^ 2 ≤ (1 + t ^ 2 * X) * (1 + t ^ 2 * Y) := by
  have h2 : 2 * W ≤ X + Y := by
    by_contra hc
    push Not at hc
    nlinarith [sq_nonneg (X - Y)]
  have h3 : t ^ 4 * W ^ 2 ≤ t ^ 4 * (X * Y) := mul_le_mul_of_nonneg_left h (by positivity)
  have h4 : t ^ 2 * (2 * W) ≤ t ^ 2 * (X + Y) := mul_le_mul_of_nonneg_left h2 (sq_nonneg _)
  nlinarith

theorem chain_aux3 {t V X Y H : ℝ} (hX : 0 ≤ X) (hY : H ^ 2 ≤ Y)
    (h : V ^ 2 ≤ X * (Y - H ^ 2)) : (H + t * V) ^ 2 ≤ (1 + t ^ 2 * X) * Y := by
  obtain ⟨y, rfl⟩ : ∃ y, Y = y + H ^ 2 := ⟨Y - H ^ 2, by ring⟩
  have hy0 : 0 ≤ y := by linarith
  rw [add_sub_cancel_right] at h
  have h3 : (t * V) ^ 2 ≤ t ^ 2 * (X * y) := by
    rw [mul_pow]; exact mul_le_mul_of_nonneg_left h (sq_nonneg _)
  have h5 : 0 ≤ t ^ 2 * X * H ^ 2 := by positivity
  have h2 : 2 * H * (t * V) ≤ t ^ 2 * X * H ^ 2 + y := by
    refine le_trans (le_abs_self _) (abs_le_of_sq_le_sq ?_ (by linarith))
    have h4 : (2 * H * (t * V)) ^ 2 ≤ 4 * H ^ 2 * (t ^ 2 * (X * y)) := by
      have := mul_le_mul_of_nonneg_left h3 (show 0 ≤ 4 * H ^ 2 by positivity)
      calc (2 * H * (t * V)) ^ 2 = 4 * H ^ 2 * (t * V) ^ 2 := by ring
        _ ≤ _ := this
    nlinarith [sq_nonneg (t ^ 2 * X * H ^ 2 - y)]
  nlinarith

theorem inv_im_eq (d : ℂ) (hd : d ≠ 0) : -(1 / d).im = ‖1 / d‖ ^ 2 * d.im := by
  rw [one_div, Complex.inv_im, norm_inv, Complex.normSq_eq_norm_sq]
  field_simp

theorem NearChain.step {δ εa εb : ℝ} {f h : ℂ} {X Y Z W V : ℝ} (c : NearChain δ εa εb f h X Y Z W V)
    (ha : 0 ≤ εa) (hb : 0 ≤ εb) (hε : εa + εb < δ) {s s' q : ℂ} {b : ℝ} (hs : δ ≤ s.im) (hs' : ‖s - s'‖ ≤ εa)
    (hq : ‖(b : ℂ) ^ 2 - q‖ ≤ |b| * εb) :
    s' - q * h ≠ 0 ∧ ∃ X Y Z W V, NearChain δ εa εb (1 / (s - (b : ℂ) ^ 2 * f)) (1 / (s' - q * h)) X Y Z W V := by
  obtain ⟨X0, Y0, Z0, W0, V0, fX, fim, hY, him, ZY, diff, WXY, VXY⟩ := c
  have hδ : 0 < δ := by linarith
  set t := |b| with ht
  have ht0 : 0 ≤ t := abs_nonneg b
  have htb : t ^ 2 = b ^ 2 := sq_abs b
  set d := s - (b : ℂ) ^ 2 * f with hd
  set d' := s' - q * h with hd'
  have hh0 := norm_nonneg h
  -- imaginary parts of the denominators
  have hdim : δ * (1 + t ^ 2 * X) ≤ d.im := by
    have : d.im = s.im + b ^ 2 * (-f.im) := by
      rw [hd, ← Complex.ofReal_pow, Complex.sub_im, Complex.im_ofReal_mul]; ring
    rw [this, ← htb]
    have : t ^ 2 * (δ * X) ≤ t ^ 2 * (-f.im) := mul_le_mul_of_nonneg_left fim (sq_nonneg _)
    nlinarith
  have hdim' : (δ - εa) * (1 + t ^ 2 * Y) - εb * (t * ‖h‖ + t ^ 2 * Z) ≤ d'.im := by
    have e : d' = s - (s - s') - (b : ℂ) ^ 2 * h + ((b : ℂ) ^ 2 - q) * h := by rw [hd']; ring
    have e2 : d'.im = s.im - (s - s').im + b ^ 2 * (-h.im) + (((b : ℂ) ^ 2 - q) * h).im := by
      conv_lhs => rw [e]
      rw [Complex.add_im, Complex.sub_im, Complex.sub_im, ← Complex.ofReal_pow, Complex.im_ofReal_mul]; ring
    have h1 : (s - s').im ≤ εa := le_trans (le_trans (le_abs_self _) (Complex.abs_im_le_norm _)) hs'
    have h2 : -(((b : ℂ) ^ 2 - q) * h).im ≤ t * εb * ‖h‖ := by
      refine le_trans (le_trans (neg_le_abs _) (Complex.abs_im_le_norm _)) ?_
      rw [norm_mul]
      exact mul_le_mul_of_nonneg_right hq hh0
    have h3 : t ^ 2 * ((δ - εa) * Y - εb * Z) ≤ t ^ 2 * (-h.im) := mul_le_mul_of_nonneg_left him (sq_nonneg _)
    rw [e2, ← htb]
    nlinarith
  have hZstep : t * ‖h‖ + t ^ 2 * Z ≤ 1 / 2 + t ^ 2 * Y := by
    have h1 : t ^ 2 * Z ≤ t ^ 2 * (Y - ‖h‖ ^ 2 / 2) := mul_le_mul_of_nonneg_left ZY (sq_nonneg _)
    nlinarith [sq_nonneg (t * ‖h‖ - 1)]
  have hdpos : 0 < d.im := by
    have : 0 ≤ t ^ 2 * X := by positivity
    nlinarith
  have hd'pos : 0 < d'.im := by
    have h1 : 0 ≤ t ^ 2 * Y := by positivity
    have h2 : εb * (t * ‖h‖ + t ^ 2 * Z) ≤ εb * (1 / 2 + t ^ 2 * Y) := mul_le_mul_of_nonneg_left hZstep hb
    nlinarith
  have hd0 : d ≠ 0 := by intro h0; rw [h0] at hdpos; simp at hdpos
  have hd0' : d' ≠ 0 := by intro h0; rw [h0] at hd'pos; simp at hd'pos
  refine ⟨hd0', ?_⟩
  set F := ‖1 / d‖ with hF
  set H := ‖1 / d'‖ with hH
  have hF0 : 0 ≤ F := norm_nonneg _
  have hH0 : 0 ≤ H := norm_nonneg _
  refine ⟨F ^ 2 * (1 + t ^ 2 * X), H ^ 2 * (1 + t ^ 2 * Y), H ^ 2 * (t * ‖h‖ + t ^ 2 * Z), F * H * (1 + t ^ 2 * W),
    F * H * (t * ‖h‖ + t ^ 2 * V), by positivity, by positivity, by positivity, by positivity, by positivity,
    ?_, ?_, ?_, ?_, ?_, ?_, ?_, ?_⟩
  · exact chain_aux1 X0
  · rw [inv_im_eq d hd0, ← hF]
    calc δ * (F ^ 2 * (1 + t ^ 2 * X)) = F ^ 2 * (δ * (1 + t ^ 2 * X)) := by ring
      _ ≤ F ^ 2 * d.im := mul_le_mul_of_nonneg_left hdim (sq_nonneg _)
  · exact chain_aux1 Y0
  · rw [inv_im_eq d' hd0', ← hH]
    calc (δ - εa) * (H ^ 2 * (1 + t ^ 2 * Y)) - εb * (H ^ 2 * (t * ‖h‖ + t ^ 2 * Z))
        = H ^ 2 * ((δ - εa) * (1 + t ^ 2 * Y) - εb * (t * ‖h‖ + t ^ 2 * Z)) := by ring
      _ ≤ H ^ 2 * d'.im := mul_le_mul_of_nonneg_left hdim' (sq_nonneg _)
  · calc H ^ 2 * (t * ‖h‖ + t ^ 2 * Z) ≤ H ^ 2 * (1 / 2 + t ^ 2 * Y) := mul_le_mul_of_nonneg_left hZstep (sq_nonneg _)
      _ = H ^ 2 * (1 + t ^ 2 * Y) - H ^ 2 / 2 := by ring
  · have e : 1 / d - 1 / d' = (1 / d) * (1 / d') * (-(s - s') + (b : ℂ) ^ 2 * (f - h) + ((b : ℂ) ^ 2 - q) * h) := by
      rw [show -(s - s') + (b : ℂ) ^ 2 * (f - h) + ((b : ℂ) ^ 2 - q) * h = d' - d by rw [hd, hd']; ring]
      field_simp
    rw [e, norm_mul, norm_mul, ← hF, ← hH]
    have h1 : ‖-(s - s') + (b : ℂ) ^ 2 * (f - h) + ((b : ℂ) ^ 2 - q) * h‖
        ≤ εa + t ^ 2 * (εa * W + εb * V) + t * εb * ‖h‖ := by
      refine (norm_add_le _ _).trans (add_le_add ((norm_add_le _ _).trans (add_le_add ?_ ?_)) ?_)
      · rw [norm_neg]; exact hs'
      · rw [norm_mul, norm_pow, Complex.norm_real, Real.norm_eq_abs]
        exact mul_le_mul_of_nonneg_left diff (sq_nonneg _)
      · rw [norm_mul]
        exact mul_le_mul_of_nonneg_right hq hh0
    calc F * H * ‖-(s - s') + (b : ℂ) ^ 2 * (f - h) + ((b : ℂ) ^ 2 - q) * h‖
        ≤ F * H * (εa + t ^ 2 * (εa * W + εb * V) + t * εb * ‖h‖) := mul_le_mul_of_nonneg_left h1 (by positivity)
      _ = εa * (F * H * (1 + t ^ 2 * W)) + εb * (F * H * (t * ‖h‖ + t ^ 2 * V)) := by ring
  · have h1 := chain_aux2 (t := t) X0 Y0 WXY
    calc (F * H * (1 + t ^ 2 * W)) ^ 2 = (F ^ 2 * H ^ 2) * (1 + t ^ 2 * W) ^ 2 := by ring
      _ ≤ (F ^ 2 * H ^ 2) * ((1 + t ^ 2 * X) * (1 + t ^ 2 * Y)) := mul_le_mul_of_nonneg_left h1 (by positivity)
      _ = _ := by ring
  · have h1 := chain_aux3 (t := t) X0 hY VXY
    calc (F * H * (t * ‖h‖ + t ^ 2 * V)) ^ 2 = (F ^ 2 * H ^ 2 * t ^ 2) * (‖h‖ + t * V) ^ 2 := by ring
      _ ≤ (F ^ 2 * H ^ 2 * t ^ 2) * ((1 + t ^ 2 * X) * Y) := mul_le_mul_of_nonneg_left h1 (by positivity)
      _ = _ := by ring

theorem le_inv_of_sq {δ x X : ℝ} (hδ : 0 < δ) (hX : 0 ≤ X) (h1 : x ^ 2 ≤ X) (h2 : δ * X ≤ x) : X ≤ 1 / δ ^ 2 := by
  have hx : 0 ≤ x := le_trans (by positivity) h2
  have h3 : δ * x ^ 2 ≤ x := le_trans (mul_le_mul_of_nonneg_left h1 hδ.le) h2
  have h4 : δ * x ≤ 1 := by
    by_contra hc
    push Not at hc
    have : 0 < x := by
      rcases hx.eq_or_lt with h | h
      · rw [← h] at hc; simp at hc; linarith
      · exact h
    nlinarith
  rw [le_div_iff₀ (by positivity)]
  nlinarith

/-- The difference of the fractions, and the size of the perturbed one. -/
theorem NearChain.result {δ εa εb : ℝ} {f h : ℂ} {X Y Z W V : ℝ} (c : NearChain δ εa εb f h X Y Z W V)
    (ha : 0 ≤ εa) (hb : 0 ≤ εb) (hε : εa + εb < δ) :
    ‖f - h‖ ≤ (εa + εb) / (δ * (δ - (εa + εb))) ∧ ‖h‖ ≤ 1 / (δ - (εa + εb)) := by
  obtain ⟨X0, Y0, Z0, W0, V0, fX, fim, hY, him, ZY, diff, WXY, VXY⟩ := c
  have hδ : 0 < δ := by linarith
  have hγ : 0 < δ - (εa + εb) := by linarith
  have hX : X ≤ 1 / δ ^ 2 := le_inv_of_sq hδ X0 fX
    (fim.trans ((neg_le_abs _).trans (Complex.abs_im_le_norm f)))
  have hY' : Y ≤ 1 / (δ - (εa + εb)) ^ 2 := by
    refine le_inv_of_sq hγ Y0 hY (le_trans ?_ (him.trans ((neg_le_abs _).trans (Complex.abs_im_le_norm h))))
    have : εb * Z ≤ εb * Y := mul_le_mul_of_nonneg_left (by nlinarith [sq_nonneg ‖h‖]) hb
    nlinarith
  have hXY : X * Y ≤ (1 / (δ * (δ - (εa + εb)))) ^ 2 := by
    calc X * Y ≤ (1 / δ ^ 2) * (1 / (δ - (εa + εb)) ^ 2) := mul_le_mul hX hY' Y0 (by positivity)
      _ = _ := by field_simp
  have hpos : 0 ≤ 1 / (δ * (δ - (εa + εb))) := by positivity
  have hW : W ≤ 1 / (δ * (δ - (εa + εb))) := abs_le_of_sq_le_sq' (WXY.trans hXY) hpos |>.2
  have hV : V ≤ 1 / (δ * (δ - (εa + εb))) := by
    refine (abs_le_of_sq_le_sq' (VXY.trans (le_trans ?_ hXY)) hpos).2
    exact mul_le_mul_of_nonneg_left (by nlinarith [sq_nonneg ‖h‖]) X0
  constructor
  · refine diff.trans ?_
    calc εa * W + εb * V ≤ εa * (1 / (δ * (δ - (εa + εb)))) + εb * (1 / (δ * (δ - (εa + εb)))) :=
          add_le_add (mul_le_mul_of_nonneg_left hW ha) (mul_le_mul_of_nonneg_left hV hb)
      _ = _ := by ring
  · refine (abs_le_of_sq_le_sq' (hY.trans (hY'.trans (le_of_eq ?_))) (by positivity)).2
    field_simp

end Verif
