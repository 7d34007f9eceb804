/-
C46: getNIXSOperator is wrong for every wave vector with a negative y component, with the Gaunt coefficients and spherical
harmonics of the libraries.
-/
import Verif.Prop.Transitions
import Verif.Lemmas.Gaunt

namespace Verif

open Finset Spec

noncomputable section

/-- The spherical harmonics of the highest magnetic quantum number,
`Y_{kk}(θ, φ) = (-1)^k √((2k+1)!/(4π)) / (2^k k!) sin^k θ exp(i k φ)`. -/
def Spec.StretchedHarmonics (Y : ℤ → ℕ → ℝ → ℝ → ℂ) : Prop :=
  ∀ (k : ℕ) (φ θ : ℝ), Y k k φ θ = (((-1) ^ k * Real.sqrt ((2 * k + 1).factorial / (4 * Real.pi)) / (2 ^ k * k.factorial)
    * Real.sin θ ^ k : ℝ) : ℂ) * Complex.exp ((k * φ : ℝ) * Complex.I)

/-- `⟨l l| Y_{l+l', l+l'} |l' -l'⟩` does not vanish. -/
theorem stretched_gaunt (l l' : ℕ) : sympyGaunt l (l + l') l' (-l) (l + l') (-l') ≠ 0 := by
  have hz : gauntZero l ((l + l' : ℕ) : ℤ) l' (-l) (l + l') (-l') = false := by
    rw [gauntZero_eq_false]
    push_cast
    refine ⟨⟨by omega, by omega, by omega⟩, by omega, by omega, ?_, ?_, ?_⟩
    · rw [abs_neg, abs_of_nonneg (by positivity)]
    · rw [abs_of_nonneg (by positivity)]
    · rw [abs_neg, abs_of_nonneg (by positivity)]
  have hsum : gauntSum l ((l + l' : ℕ) : ℤ) l' (-l) (l + l') ≠ 0 := by
    unfold gauntSum
    dsimp only
    have e1 : Max.max (Max.max (-(l' : ℤ) + l + (l + l')) (-(l' : ℤ) + ((l + l' : ℕ) : ℤ) - -(l : ℤ))) 0 = 2 * l := by
      push_cast; omega
    have e2 : Min.min (Min.min (((l + l' : ℕ) : ℤ) + ((l : ℤ) + l')) ((l : ℤ) - -l)) ((l : ℤ) + ((l + l' : ℕ) : ℤ) - l') = 2 * l := by
      push_cast; omega
    rw [e1, e2]
    have e3 : pyRange (2 * (l : ℤ)) (2 * l + 1) = [2 * (l : ℤ)] := by
      unfold pyRange
      rw [show ((2 * (l : ℤ) + 1 - 2 * l).toNat) = 1 by omega]
      simp
    rw [e3, List.map_singleton, List.sum_singleton]
    refine div_ne_zero (zpow_ne_zero _ (by norm_num)) ?_
    have := fun n => (factList_pos n).ne'
    simp only [ne_eq, mul_eq_zero, this, or_self, not_false_eq_true]
  have hpre : gauntPrefac l ((l + l' : ℕ) : ℤ) l' ≠ 0 := by
    unfold gauntPrefac
    have := fun n => (factList_pos n).ne'
    simp only [ne_eq, div_eq_zero_iff, mul_eq_zero, this, or_self, not_false_eq_true]
  have harg : (0 : ℝ) < gauntArg l ((l + l' : ℕ) : ℤ) l' (-l) (l + l') (-l') := by
    have : 0 < gauntArg l ((l + l' : ℕ) : ℤ) l' (-l) (l + l') (-l') := by
      unfold gauntArg
      have f := factList_pos
      push_cast
      have h1 := f ((l : ℤ) - -l)
      have h2 := f ((l : ℤ) + -l)
      have h3 := f (((l : ℤ) + l') - (l + l'))
      have h4 := f (((l : ℤ) + l') + (l + l'))
      have h5 := f ((l' : ℤ) - -l')
      have h6 := f ((l' : ℤ) + -l')
      positivity
    exact_mod_cast this
  unfold sympyGaunt
  rw [if_neg (by rw [hz]; simp)]
  have hpi := Real.pi_pos
  refine mul_ne_zero (Real.sqrt_pos.2 (by positivity)).ne' ?_
  unfold gauntRational
  have : gauntPrefac (l : ℤ) ((l + l' : ℕ) : ℤ) l' * gauntSum l ((l + l' : ℕ) : ℤ) l' (-l) (l + l')
      * (-1) ^ (((l : ℤ) + ((l + l' : ℕ) : ℤ) + l') / 2 + l' + -l - (l + l')) ≠ 0 :=
    mul_ne_zero (mul_ne_zero hpre hsum) (zpow_ne_zero _ (by norm_num))
  exact_mod_cast this

/-- C46 is violated for every wave vector with negative y component, except in the planes where `sin((li + lj) φ) = 0`: whatever the
system, the shells, and the radial functions with non-vanishing integral, the operator that is returned is not the plane wave
operator. -/
theorem C46_violated_everywhere (Y : SphHarm) (hY : StretchedHarmonics Y) (jn : SphericalJn)
    (nBaths : NBaths) (h : GoodSystem nBaths) (li lj : ℕ) (hi : li ∈ allAngulars nBaths)
    (hj : lj ∈ allAngulars nBaths) (Ri Rj : List ℂ) (r : List ℝ) (h1 : Ri.length = r.length)
    (h2 : Rj.length = r.length) (kmin : ℕ) (hkmin : kmin ≤ li + lj)
    (q : Vec3 ℝ) (qn θ φ : ℝ) (hq : 0 < qn) (hθ : 0 < θ) (hθ' : θ < Real.pi) (hφ : -Real.pi < φ) (hφ' : φ < 0)
    (hx : q.x = qn * (Real.sin θ * Real.cos φ)) (hy : q.y = qn * (Real.sin θ * Real.sin φ))
    (hz : q.z = qn * Real.cos θ) (hR : radialIntegral jn Ri Rj r qn (li + lj) ≠ 0)
    (hplane : Real.sin ((li + lj : ℕ) * φ) ≠ 0) :
    q.y < 0 ∧ ∃ tOp, getNIXSOperator sympyGaunt Y jn nBaths q li lj Ri Rj r kmin = .ok tOp ∧
      ¬ ∀ (v : Vec ℂ) (S : Finset ℕ), ((Real.sqrt (4 * Real.pi) : ℝ) : ℂ) * operator (opSpec tOp) v S
        = between (position nBaths) li lj (fun mi mj =>
            planeWave sympyGaunt Y (radialIntegral jn Ri Rj r qn) θ φ kmin (li + lj) li mi lj mj) v S := by
  have hpi := Real.pi_pos
  have hs := Real.sin_pos_of_pos_of_lt_pi hθ hθ'
  refine ⟨?_, ?_⟩
  · rw [hy]
    have := Real.sin_neg_of_neg_of_neg_pi_lt hφ' hφ
    have : Real.sin θ * Real.sin φ < 0 := mul_neg_of_pos_of_neg hs this
    exact mul_neg_of_pos_of_neg hq this
  obtain ⟨t, e, _, _, _, m⟩ := C46_operator sympyGaunt sympyGaunt_rules Y jn nBaths h li lj hi hj Ri Rj r h1 h2 kmin (li + lj) le_rfl
    q qn θ φ hq hθ hθ' (by rw [abs_of_neg hφ']; linarith) hx hy hz
  refine ⟨t, e, fun hall => ?_⟩
  have key := (m (single {position nBaths (.imp lj 0 (-lj))} 1) {position nBaths (.imp li 0 li)}).symm.trans (hall _ _)
  rw [between_single h hi hj _ (Or.inl rfl) (by simp) (by simp), between_single h hi hj _ (Or.inl rfl) (by simp) (by simp)] at key
  have hone : ∀ ψ : ℝ, planeWave sympyGaunt Y (radialIntegral jn Ri Rj r qn) θ ψ kmin (li + lj) li li lj (-lj)
      = 4 * (Real.pi : ℂ) * Complex.I ^ (li + lj) * radialIntegral jn Ri Rj r qn (li + lj) * star (Y ((li + lj : ℕ) : ℤ) (li + lj) ψ θ)
        * (yElement sympyGaunt (li + lj) li li lj (-lj) : ℂ) := by
    intro ψ
    unfold planeWave
    rw [sum_eq_single (li + lj)]
    · push_cast
      rw [sub_neg_eq_add]
    · intro k hk hne
      rw [mem_Icc] at hk
      unfold yElement
      rw [sympyGaunt_rules.large li k lj _ _ _ (by
        rw [sub_neg_eq_add, abs_of_nonneg (by positivity)]
        have : k < li + lj := by omega
        exact_mod_cast this)]
      simp
    · intro hn
      exact absurd (mem_Icc.2 ⟨hkmin, le_rfl⟩) hn
  rw [hone, hone] at key
  have hy0 : (yElement sympyGaunt (li + lj) li li lj (-lj) : ℂ) ≠ 0 := by
    unfold yElement
    rw [sub_neg_eq_add]
    exact Complex.ofReal_ne_zero.2 (mul_ne_zero (zpow_ne_zero _ (by norm_num)) (stretched_gaunt li lj))
  have hc : 4 * (Real.pi : ℂ) * Complex.I ^ (li + lj) * radialIntegral jn Ri Rj r qn (li + lj) ≠ 0 :=
    mul_ne_zero (mul_ne_zero (mul_ne_zero (by norm_num) (Complex.ofReal_ne_zero.2 hpi.ne')) (pow_ne_zero _ Complex.I_ne_zero)) hR
  have hYeq := star_injective (mul_left_cancel₀ hc (mul_right_cancel₀ hy0 key))
  rw [hY, hY] at hYeq
  have hcoef : (((-1) ^ (li + lj) * Real.sqrt ((2 * (li + lj) + 1).factorial / (4 * Real.pi)) / (2 ^ (li + lj) * (li + lj).factorial)
      * Real.sin θ ^ (li + lj) : ℝ) : ℂ) ≠ 0 := by
    refine Complex.ofReal_ne_zero.2 (mul_ne_zero (div_ne_zero (mul_ne_zero (pow_ne_zero _ (by norm_num)) ?_) (by positivity))
      (pow_ne_zero _ hs.ne'))
    exact (Real.sqrt_pos.2 (div_pos (by exact_mod_cast Nat.factorial_pos _) (by positivity))).ne'
  have hexp := congrArg Complex.im (mul_left_cancel₀ hcoef hYeq)
  rw [Complex.exp_ofReal_mul_I_im, Complex.exp_ofReal_mul_I_im, abs_of_neg hφ', mul_neg, Real.sin_neg] at hexp
  exact hplane (by linarith)

/-- The hypotheses of `C46_violated_everywhere` are met: NIXS from the p to the d shell for `q = (cos(π/6), -sin(π/6), 0)`, with the
trapezoidal rule at two points. -/
example (jn : SphericalJn) (hjn : jn 3 1 ≠ 0) : ∃ (Y : SphHarm) (tOp : _), StretchedHarmonics Y ∧
      getNIXSOperator sympyGaunt Y jn [(.int 1, 0), (.int 2, 0)] ⟨Real.cos (Real.pi / 6), -Real.sin (Real.pi / 6), 0⟩ 2 1
        [0, 1] [0, 1] [0, 1] 1 = .ok tOp ∧
      ¬ ∀ (v : Vec ℂ) (S : Finset ℕ), ((Real.sqrt (4 * Real.pi) : ℝ) : ℂ) * operator (opSpec tOp) v S
        = between (position [(.int 1, 0), (.int 2, 0)]) 2 1 (fun mi mj =>
            planeWave sympyGaunt Y (radialIntegral jn [0, 1] [0, 1] [0, 1] 1) (Real.pi / 2) (-(Real.pi / 6)) 1 3 2 mi 1 mj) v S := by
  have hpi := Real.pi_pos
  set Y : SphHarm := fun m k φ θ => (((-1) ^ k * Real.sqrt ((2 * k + 1).factorial / (4 * Real.pi)) / (2 ^ k * k.factorial)
    * Real.sin θ ^ k : ℝ) : ℂ) * Complex.exp ((m * φ : ℝ) * Complex.I) with hYd
  have hY : StretchedHarmonics Y := by
    intro k φ θ
    simp [hYd]
  have hR : radialIntegral jn [0, 1] [0, 1] [0, 1] 1 3 = (jn 3 1 : ℂ) / 2 := by
    simp [radialIntegral, trapezoid]
  obtain ⟨-, t, h1, h2⟩ := C46_violated_everywhere Y hY jn [(.int 1, 0), (.int 2, 0)] (goodSystem_two (by decide)) 2 1 (by decide) (by decide)
    [0, 1] [0, 1] [0, 1] rfl rfl 1 (by norm_num) ⟨Real.cos (Real.pi / 6), -Real.sin (Real.pi / 6), 0⟩ 1 (Real.pi / 2) (-(Real.pi / 6))
    one_pos (by linarith) (by linarith) (by linarith) (by linarith) (by simp) (by simp) (by simp)
    (by
      show radialIntegral jn [0, 1] [0, 1] [0, 1] 1 3 ≠ 0
      rw [hR]
      exact div_ne_zero (Complex.ofReal_ne_zero.2 hjn) (by norm_num))
    (by
      have : (((2 + 1 : ℕ) : ℝ) * -(Real.pi / 6)) = -(Real.pi / 2) := by push_cast; ring
      rw [this, Real.sin_neg, Real.sin_pi_div_two]
      norm_num)
  exact ⟨Y, t, hY, h1, h2⟩

end

end Verif
