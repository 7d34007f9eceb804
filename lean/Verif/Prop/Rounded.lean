/-
C94: the continued fraction and the thermal average in rounded arithmetic.
-/
import Verif.Spec.Rounded
import Verif.Lemmas.RoundedFraction
import Verif.Lemmas.RoundedAverage
import Verif.Prop.Stability
import Verif.Prop.Thermal
import Mathlib.Algebra.Order.Round
import Mathlib.Data.Int.Log

namespace Verif

open Finset Psr Spec

noncomputable section

/-! ### The model with exact operations is the model in exact arithmetic -/

theorem exactOps_cdiv (y : ℂ) : exactOps.cdiv 1 y = npDiv 1 y := by
  unfold npDiv FloatOps.cdiv
  by_cases hy : y = 0
  · rw [if_pos hy, if_pos hy]
  · rw [if_neg hy, if_neg hy]
    have hfl : Accurate 0 exactOps := by constructor <;> simp [exactOps]
    obtain ⟨r, h1, h2⟩ := cdiv_near hfl (by norm_num) hy
    unfold FloatOps.cdiv at h1
    rw [if_neg hy] at h1
    rw [h1]
    have : smithError 0 = 0 := by norm_num [smithError]
    rw [this, zero_mul, norm_le_zero_iff, sub_eq_zero] at h2
    rw [h2]

/-- With exact operations the rounded model is the model of `getGreen`'s continued fraction. -/
theorem C94_exact_fraction (alpha beta : List ℝ) (k : ℕ) (omega : List ℝ) (delta e : ℝ) :
    roundedGreenOnMesh exactOps alpha beta k omega delta e = greenOnMesh alpha beta k omega delta e := by
  have hsub : ∀ x y : ℂ, exactOps.csub x y = x - y := fun x y => Complex.ext rfl rfl
  have hadd : ∀ x y : ℂ, exactOps.cadd x y = x + y := fun x y => Complex.ext rfl rfl
  have hmul : ∀ x y : ℂ, exactOps.cmul x y = x * y := fun x y => by
    apply Complex.ext
    · rw [Complex.mul_re]; rfl
    · rw [Complex.mul_im]; rfl
  have hbody : ∀ z, roundedFractionBody exactOps alpha beta k z = fractionBody alpha beta k z := by
    intro z
    funext g i
    unfold roundedFractionBody fractionBody
    simp only [exactOps_cdiv, hsub, hmul]
    have : ∀ b : ℝ, ((exactOps.mul b b : ℝ) : ℂ) = (b : ℂ) ^ 2 := fun b => by
      show ((b * b : ℝ) : ℂ) = _
      push_cast
      ring
    simp only [this]
  have hz : ∀ w : ℝ, exactOps.cadd (exactOps.cadd (w : ℂ) ⟨0, delta⟩) (e : ℂ) = (w : ℂ) + Complex.I * (delta : ℂ) + (e : ℂ) := by
    intro w
    rw [hadd, hadd]
    congr 2
    apply Complex.ext <;> simp
  unfold roundedGreenOnMesh greenOnMesh roundedFraction continuedFraction
  simp only [hbody, hz]

/-- With exact operations the rounded model is the model of `thermal_average`. -/
theorem C94_exact_average (kB : ℝ) (energies observable : List ℝ) (T : ℝ) :
    roundedThermalAverage exactOps kB energies observable T = thermalAverage kB energies observable T := by
  unfold roundedThermalAverage thermalAverage
  have h : ∀ x y : ℝ, exactOps.div x y = y⁻¹ • x := fun x y => by
    show x / y = _
    rw [smul_eq_mul, div_eq_inv_mul]
  simp only [h]
  simp only [exactOps, div_eq_inv_mul, smul_eq_mul]

/-! ### The continued fraction -/

/-- Rounding of the energy and of its difference to a coefficient. -/
theorem rounded_shift {U : ℝ} {fl : FloatOps} (hcx : ComplexAccurate U fl) {w delta e S a : ℝ} (hdelta : 0 < delta)
    (hS : |w| + delta + |e| + |a| ≤ S) :
    ‖((w : ℂ) + Complex.I * (delta : ℂ) + (e : ℂ) - (a : ℂ)) -
      fl.csub (fl.cadd (fl.cadd (w : ℂ) ⟨0, delta⟩) (e : ℂ)) (a : ℂ)‖ ≤ ((1 + U) ^ 3 - 1) * S := by
  have hU0 := hcx.nonneg
  set z : ℂ := (w : ℂ) + Complex.I * (delta : ℂ) + (e : ℂ) with hz
  set z1 : ℂ := fl.cadd (w : ℂ) ⟨0, delta⟩ with hz1
  set z' := fl.cadd z1 (e : ℂ) with hz'
  have hI : (⟨0, delta⟩ : ℂ) = Complex.I * (delta : ℂ) := by apply Complex.ext <;> simp
  set B := |w| + delta + |e| with hB
  have hA : ‖(w : ℂ) + Complex.I * (delta : ℂ)‖ ≤ B := by
    refine (norm_add_le _ _).trans ?_
    rw [norm_mul, Complex.norm_I, one_mul, Complex.norm_real, Complex.norm_real, Real.norm_eq_abs, Real.norm_eq_abs,
      abs_of_pos hdelta]
    have := abs_nonneg e
    linarith
  have hzB : ‖z‖ ≤ B := by
    rw [hz]
    refine (norm_add_le _ _).trans ?_
    refine (add_le_add (norm_add_le _ _) (le_refl _)).trans ?_
    rw [norm_mul, Complex.norm_I, one_mul, Complex.norm_real, Complex.norm_real, Complex.norm_real, Real.norm_eq_abs,
      Real.norm_eq_abs, Real.norm_eq_abs, abs_of_pos hdelta]
  have hd1 : ‖z1 - ((w : ℂ) + Complex.I * (delta : ℂ))‖ ≤ U * B := by
    have := hcx.add (w : ℂ) ⟨0, delta⟩
    rw [hI] at this
    rw [hz1, hI]
    exact this.trans (mul_le_mul_of_nonneg_left hA hU0)
  have hd2 : ‖z' - z‖ ≤ (2 * U + U ^ 2) * B := by
    have h1 := hcx.add z1 (e : ℂ)
    have h2 : ‖z1 + (e : ℂ)‖ ≤ B + U * B := by
      rw [show z1 + (e : ℂ) = z + (z1 - ((w : ℂ) + Complex.I * (delta : ℂ))) by rw [hz]; ring]
      exact (norm_add_le _ _).trans (add_le_add hzB hd1)
    have h3 : U * ‖z1 + (e : ℂ)‖ ≤ U * (B + U * B) := mul_le_mul_of_nonneg_left h2 hU0
    rw [show z' - z = (z' - (z1 + (e : ℂ))) + (z1 - ((w : ℂ) + Complex.I * (delta : ℂ))) by rw [hz]; ring]
    refine (norm_add_le _ _).trans ?_
    linarith
  have h1 := hcx.sub z' (a : ℂ)
  have h2 : ‖z' - (a : ℂ)‖ ≤ B + |a| + (2 * U + U ^ 2) * B := by
    rw [show z' - (a : ℂ) = (z' - z) + z - (a : ℂ) by ring]
    refine (norm_sub_le _ _).trans ?_
    have := norm_add_le (z' - z) z
    rw [Complex.norm_real, Real.norm_eq_abs]
    linarith
  have h3 : U * ‖z' - (a : ℂ)‖ ≤ U * (B + |a| + (2 * U + U ^ 2) * B) := mul_le_mul_of_nonneg_left h2 hU0
  rw [show z - (a : ℂ) - fl.csub z' (a : ℂ) = -(fl.csub z' (a : ℂ) - (z' - (a : ℂ))) - (z' - z) by ring]
  refine (norm_sub_le _ _).trans ?_
  rw [norm_neg]
  have hBS : B ≤ S := by have := abs_nonneg a; linarith
  have h4 : U * (B + |a|) ≤ U * S := mul_le_mul_of_nonneg_left hS hU0
  have h5 : (1 + U) * (2 * U + U ^ 2) * B ≤ (1 + U) * (2 * U + U ^ 2) * S :=
    mul_le_mul_of_nonneg_left hBS (by positivity)
  calc _ ≤ U * (B + |a|) + (1 + U) * (2 * U + U ^ 2) * B := by linarith
    _ ≤ U * S + (1 + U) * (2 * U + U ^ 2) * S := add_le_add h4 h5
    _ = _ := by ring

/-- The errors of one step are small. -/
theorem rounded_epsilons {U S delta : ℝ} (hU0 : 0 ≤ U) (hU20 : U ≤ 1 / 20) (hS0 : 0 < S) (hdelta : 0 < delta)
    (hUS : 20 * (U * S) ≤ delta) : 0 ≤ fractionError U ∧ 0 ≤ ((1 + U) ^ 3 - 1) * S ∧ 0 ≤ fractionError U * S ∧
      ((1 + U) ^ 3 - 1) * S + fractionError U * S ≤ 7.54 * (U * S) ∧
      ((1 + U) ^ 3 - 1) * S + fractionError U * S < delta := by
  have h1 : 1 ≤ (1 + U) ^ 3 := one_le_pow₀ (by linarith)
  have h2 : U ^ 2 ≤ 1 / 20 * U := by nlinarith
  have h3 : U ^ 3 ≤ 1 / 400 * U := by nlinarith
  have hfe0 : 0 ≤ fractionError U := by
    unfold fractionError
    rw [sub_nonneg, le_div_iff₀ (by linarith)]
    linarith
  have hfe1 : fractionError U ≤ 4.38 * U := by
    unfold fractionError
    rw [sub_le_iff_le_add, div_le_iff₀ (by linarith)]
    nlinarith
  have hUS0 : 0 ≤ U * S := by positivity
  have h4 : (1 + U) ^ 3 - 1 ≤ 3.16 * U := by nlinarith
  have h5 : ((1 + U) ^ 3 - 1) * S ≤ 3.16 * (U * S) := by
    rw [← mul_assoc]; exact mul_le_mul_of_nonneg_right h4 hS0.le
  have h6 : fractionError U * S ≤ 4.38 * (U * S) := by
    rw [← mul_assoc]; exact mul_le_mul_of_nonneg_right hfe1 hS0.le
  refine ⟨hfe0, mul_nonneg (by linarith) hS0.le, mul_nonneg hfe0 hS0.le, by linarith, by linarith⟩

/-- The error of the fraction in terms of the scale. -/
theorem rounded_total {U S delta ε : ℝ} (hU0 : 0 ≤ U) (hU20 : U ≤ 1 / 20) (hSd : delta ≤ S) (hdelta : 0 < delta)
    (hUS : 20 * (U * S) ≤ delta) (hε1 : ε ≤ 7.54 * (U * S)) :
    ε / (delta * (delta - ε)) + 2 * U / (1 - U) / (delta - ε) ≤ 50 / 3 * (U * S) / delta ^ 2 := by
  have hγ : 0.6 * delta ≤ delta - ε := by linarith
  have hγ0 : 0 < delta - ε := by linarith
  have ht : 2 * U / (1 - U) ≤ 2.2 * U := by
    rw [div_le_iff₀ (by linarith)]
    nlinarith
  have ht2 : 2 * U / (1 - U) * delta ≤ 2.2 * (U * S) := by
    calc 2 * U / (1 - U) * delta ≤ 2.2 * U * S := mul_le_mul ht hSd hdelta.le (by linarith)
      _ = _ := by ring
  have hUS0 : 0 ≤ U * S := mul_nonneg hU0 (by linarith)
  have e : ε / (delta * (delta - ε)) + 2 * U / (1 - U) / (delta - ε) = (ε + 2 * U / (1 - U) * delta) / (delta * (delta - ε)) := by
    have : 1 - U ≠ 0 := by linarith
    field_simp
  rw [e, div_le_div_iff₀ (by positivity) (by positivity)]
  have h5 : ε + 2 * U / (1 - U) * delta ≤ 9.74 * (U * S) := by linarith
  have h6 : 0 ≤ U * S * delta ^ 2 := by positivity
  calc (ε + 2 * U / (1 - U) * delta) * delta ^ 2 ≤ 9.74 * (U * S) * delta ^ 2 := mul_le_mul_of_nonneg_right h5 (sq_nonneg _)
    _ ≤ 50 / 3 * (U * S) * (delta * (0.6 * delta)) := by nlinarith
    _ ≤ 50 / 3 * (U * S) * (delta * (delta - ε)) := by
      refine mul_le_mul_of_nonneg_left (mul_le_mul_of_nonneg_left hγ hdelta.le) (by positivity)

theorem rounded_green_point {u : ℝ} {fl : FloatOps} (hfl : Accurate u fl) {alpha beta : List ℝ} {k : ℕ} (hk : 0 < k)
    (la : alpha.length = k) (lb : beta.length = k - 1) {w delta e S : ℝ} (hdelta : 0 < delta)
    (hS : ∀ a ∈ alpha, |w| + delta + |e| + |a| ≤ S) (hSb : ∀ b ∈ beta, |b| ≤ S) (hu : 200 * u * S ≤ delta) :
    ∃ g g', continuedFraction alpha beta k ((w : ℂ) + Complex.I * (delta : ℂ) + (e : ℂ)) = .ok g ∧
      roundedFraction fl alpha beta k (fl.cadd (fl.cadd (w : ℂ) ⟨0, delta⟩) (e : ℂ)) = .ok g' ∧
      ‖g' - g‖ ≤ 150 * u * S / delta ^ 2 := by
  have h0 := hfl.nonneg
  have hSd : delta ≤ S := by
    have hmem : alpha[0]'(by omega) ∈ alpha := List.getElem_mem _
    have := hS _ hmem
    have := abs_nonneg w
    have := abs_nonneg e
    have := abs_nonneg (alpha[0]'(by omega))
    linarith
  have hS0 : 0 < S := by linarith
  have hu200 : u ≤ 1 / 200 := by
    by_contra hc
    push Not at hc
    nlinarith
  have hcx := hfl.complex hu200
  have huS : 0 ≤ u * S := by positivity
  have hU0 : 0 ≤ 9 * u := by linarith
  have hUS : 20 * (9 * u * S) ≤ delta := by nlinarith
  have hU20 : 9 * u ≤ 1 / 20 := by linarith
  obtain ⟨hfe0, hεa0, hεb0, hε1, hlt⟩ := rounded_epsilons hU0 hU20 hS0 hdelta hUS
  have him : ((w : ℂ) + Complex.I * (delta : ℂ) + (e : ℂ)).im = delta := by simp
  obtain ⟨g', h1, h2⟩ := roundedFraction_of hcx (by linarith) hεa0 hεb0 hlt la lb
    (z := (w : ℂ) + Complex.I * (delta : ℂ) + (e : ℂ)) (z' := fl.cadd (fl.cadd (w : ℂ) ⟨0, delta⟩) (e : ℂ)) him.ge
    (fun i hi => rounded_shift hcx hdelta (hS _ (by
      rw [List.getD_eq_getElem _ _ (by omega)]; exact List.getElem_mem _)))
    (fun i hi => mul_le_mul_of_nonneg_left (hSb _ (by
      rw [List.getD_eq_getElem _ _ (by omega)]; exact List.getElem_mem _)) hfe0)
  refine ⟨_, g', continuedFraction_eq la lb (by rw [him]; exact hdelta.ne'), h1, ?_⟩
  refine (h2.error hcx (by linarith) hεa0 hεb0 hlt).trans ?_
  refine (rounded_total hU0 hU20 hSd hdelta hUS hε1).trans (le_of_eq ?_)
  ring

theorem forall₂_through {α β γ : Type} {P : α → β → Prop} {Q : β → γ → Prop} {T : α → γ → Prop}
    (h : ∀ a b c, P a b → Q b c → T a c) : ∀ {l m k}, List.Forall₂ P l m → List.Forall₂ Q m k → List.Forall₂ T l k
  | _, _, _, .nil, .nil => .nil
  | _, _, _, .cons h1 h2, .cons h3 h4 => .cons (h _ _ _ h1 h3) (forall₂_through h h2 h4)

/-- C94, the continued fraction.  If every operation of the processor has a relative error of at most `u`, then no
division by zero occurs, and each value of the Green's function is within `150 u S / delta²` of the one in exact
arithmetic, where `S` is the size of the numbers that enter.  The bound does not depend on the number of coefficients.
It needs `200 u S ≤ delta`: the broadening is well above the rounding of the energies. -/
theorem C94_fraction {u : ℝ} {fl : FloatOps} (hfl : Accurate u fl) {alpha beta : List ℝ} {k : ℕ} (hk : 0 < k)
    (la : alpha.length = k) (lb : beta.length = k - 1) {omega : List ℝ} {delta e S : ℝ} (hdelta : 0 < delta)
    (hS : Scale S alpha beta omega delta e) (hu : 200 * u * S ≤ delta) :
    ∃ g g', greenOnMesh alpha beta k omega delta e = .ok g ∧ roundedGreenOnMesh fl alpha beta k omega delta e = .ok g' ∧
      List.Forall₂ (fun x x' => ‖x' - x‖ ≤ 150 * u * S / delta ^ 2) g g' := by
  have h : ∀ w : ℝ, ∃ g g' : ℂ, w ∈ omega → continuedFraction alpha beta k ((w : ℂ) + Complex.I * (delta : ℂ) + (e : ℂ)) = .ok g ∧
      roundedFraction fl alpha beta k (fl.cadd (fl.cadd (w : ℂ) ⟨0, delta⟩) (e : ℂ)) = .ok g' ∧
      ‖g' - g‖ ≤ 150 * u * S / delta ^ 2 := by
    intro w
    by_cases hw : w ∈ omega
    · obtain ⟨g, g', h1⟩ := rounded_green_point hfl hk la lb hdelta (hS.energy w hw) hS.coupling hu
      exact ⟨g, g', fun _ => h1⟩
    · exact ⟨0, 0, fun h => absurd h hw⟩
  choose f f' hf using h
  refine ⟨omega.map f, omega.map f', mapM_ok _ _ _ fun w hw => (hf w hw).1, mapM_ok _ _ _ fun w hw => (hf w hw).2.1, ?_⟩
  rw [List.forall₂_map_left_iff, List.forall₂_map_right_iff]
  exact List.forall₂_same.2 fun w hw => (hf w hw).2.2

section
variable {n : ℕ} {op : Op ℕ ℂ} (hop : OpInSystem n op) (hdict : Dict.NodupKeys op) (hh : isHermitianOp op) {cut : ℝ}
  (hcut : 0 < cut) (r : Option Restrictions) {psi : Psi ℂ} (hpsi : IsState n psi)
  (hall : ∀ S ⊆ range n, encBytes n S ∈ Dict.keys psi → AllowedOpt r S) (hnorm : norm2 psi = (1 : ℝ))

include hop hdict hh hcut hpsi hall hnorm in
/-- C94, the Green's function.  For every state there is a chain of Lanczos coefficients, that of `getGreen` in exact
arithmetic, such that any coefficients within `ε` of it (as in C83) give, evaluated with rounding, the exact Green's
function up to `3ε/delta² + 150 u S/delta²`. -/
theorem C94_green (fuel : ℕ) (hf : 2 ^ n + 2 ≤ fuel) :
    ∃ k alpha beta, 0 < k ∧ alpha.length = k ∧ beta.length = k - 1 ∧
    (∀ hDict, ColumnsExact n op cut r hDict → ∃ hDict', ∀ (e : ℝ) (omega : List ℝ) (delta : ℝ),
      getGreen n e psi op omega delta k cut r hDict fuel =
        (do let g ← greenOnMesh alpha beta k omega delta e; return (g, hDict'))) ∧
    ∀ ε K alpha' beta', CloseChain ε k K alpha beta alpha' beta' → ∀ (u : ℝ) (fl : FloatOps), Accurate u fl →
      ∀ (e : ℝ) (omega : List ℝ) (delta S : ℝ), 0 < delta → Scale S alpha' beta' omega delta e → 200 * u * S ≤ delta →
      ∃ g, roundedGreenOnMesh fl alpha' beta' K omega delta e = .ok g ∧
        List.Forall₂ (fun (ω : ℝ) x => ∃ g₀, IsGreen n (hamiltonian n op cut r)
          ((ω : ℂ) + Complex.I * (delta : ℂ) + (e : ℂ)) (ampl n psi) g₀ ∧
            ‖x - g₀‖ ≤ 3 * ε / delta ^ 2 + 150 * u * S / delta ^ 2) omega g := by
  obtain ⟨k, alpha, beta, hk, la, lb, -, -, hser, hst⟩ :=
    C83_green hop hdict hh hcut r hpsi hall hnorm fuel hf
  refine ⟨k, alpha, beta, hk, la, lb, hser, ?_⟩
  intro ε K alpha' beta' hclose u fl hfl e omega delta S hdelta hS hu
  obtain ⟨g, hg, hG⟩ := hst ε K alpha' beta' hclose e omega delta hdelta.ne'
  obtain ⟨-, -, l3, l4⟩ := hclose.lengths
  obtain ⟨g0, g', h1, h2, h3⟩ := C94_fraction hfl (lt_of_lt_of_le hk hclose.le) l3 l4 hdelta hS hu
  rw [hg] at h1
  cases h1
  refine ⟨g', h2, ?_⟩
  refine forall₂_through ?_ hG h3
  rintro ω y x ⟨g₀, ha, hb⟩ hc
  refine ⟨g₀, ha, ?_⟩
  rw [show x - g₀ = (y - g₀) + (x - y) by ring]
  exact (norm_add_le _ _).trans (add_le_add hb hc)

end

/-! ### The thermal average -/

/-- C94, the thermal average.  For `n` states within `X kB T` of each other, and numbers of magnitude at most `O`, the
rounded average is within `4 u (n + 3 + 4 X) O` of the exact one, provided `u (n + 3 + 4 X) ≤ 1/4`.  In `main` the
energy cut keeps `X` at 10. -/
theorem C94_average {u : ℝ} {fl : FloatOps} (hfl : Accurate u fl) {kB T X O : ℝ} {energies observable : List ℝ}
    (hlen : energies.length = observable.length) (hne : energies ≠ []) (hT : kB * T ≠ 0)
    (hX : ∀ e ∈ energies, ∀ e' ∈ energies, |e - e'| ≤ X * |kB * T|) (hO : ∀ o ∈ observable, |o| ≤ O)
    (hu : u * (energies.length + 3 + 4 * X) ≤ 1 / 4) :
    ∃ a a', thermalAverage kB energies observable T = .ok a ∧
      roundedThermalAverage fl kB energies observable T = .ok a' ∧
      |a' - a| ≤ 4 * (u * (energies.length + 3 + 4 * X)) * O := by
  have h0 := hfl.nonneg
  obtain ⟨shift, hs⟩ := npMin_ok hne
  obtain ⟨hsm, -⟩ := npMin_spec hs
  have hX0 : 0 ≤ X := by
    have := (abs_nonneg _).trans (hX _ hsm _ hsm)
    by_contra hc
    push Not at hc
    have := abs_pos.2 hT
    nlinarith
  set n := energies.length with hn
  have hu5 : u ≤ 1 / 5 := by
    have : 0 ≤ u * (n + 4 * X) := by positivity
    nlinarith
  set w : ℝ → ℝ := fun e => Real.exp (-(e - shift) / (kB * T)) with hw
  set w' : ℝ → ℝ := fun e => fl.exp (fl.div (-(fl.sub e shift)) (fl.mul kB T)) with hw'
  have hmul : fl.mul kB T ≠ 0 := (rounded_weight hfl hu5 hT (hX _ hsm _ hsm)).1
  set ρ := Real.exp (4 * u * X) * (1 + u) with hρ
  have hρ1 : 1 ≤ ρ := by
    have : 1 ≤ Real.exp (4 * u * X) := Real.one_le_exp (by positivity)
    rw [hρ]
    nlinarith
  have hzipmem : ∀ p ∈ energies.zip observable, p.1 ∈ energies ∧ p.2 ∈ observable := fun p hp =>
    ⟨(List.of_mem_zip hp).1, (List.of_mem_zip hp).2⟩
  obtain ⟨i1, i2, i3, i4⟩ := rounded_fold hfl (ρ := ρ) w w' (fun e => (Real.exp_pos _).le) (energies.zip observable)
    (fun p hp => (rounded_weight hfl hu5 hT (hX _ (hzipmem p hp).1 _ hsm)).2) hρ1
  have hlz : (energies.zip observable).length = n := by rw [List.length_zip, ← hlen]; simp [hn]
  rw [hlz] at i1 i2
  set r := (energies.zip observable).foldl (fun (acc : ℝ × ℝ) (p : ℝ × ℝ) => (acc.1 + w p.1, acc.2 + w p.1 • p.2)) (0, 0)
    with hr
  set r' := (energies.zip observable).foldl (fun (acc : ℝ × ℝ) (p : ℝ × ℝ) => (fl.add acc.1 (w' p.1),
    fl.add acc.2 (fl.mul (w' p.1) p.2))) (0, 0) with hr'
  refine ⟨r.1⁻¹ • r.2, fl.div r'.2 r'.1, ?_, ?_, ?_⟩
  · unfold thermalAverage
    simp only [← hn, hlen, ne_eq, not_true_eq_false, if_false, hs, hT, bind, Except.bind, pure, Except.pure]
    rfl
  · unfold roundedThermalAverage
    simp only [← hn, hlen, ne_eq, not_true_eq_false, if_false, hs, hmul, bind, Except.bind, pure, Except.pure]
    rfl
  rw [← i3] at i1
  have hz : 0 < r.1 := by
    rw [i3]
    cases hl : energies.zip observable with
    | nil => rw [hl] at hlz; simp at hlz; rw [hn] at hlz; exact absurd (List.length_eq_zero_iff.1 hlz.symm) hne
    | cons p l =>
      rw [List.map_cons, List.sum_cons]
      refine add_pos_of_pos_of_nonneg (Real.exp_pos _) (List.sum_nonneg ?_)
      intro x hx
      obtain ⟨p, -, rfl⟩ := List.mem_map.1 hx
      exact (Real.exp_pos _).le
  have hM : ((energies.zip observable).map fun p => w p.1 * |p.2|).sum ≤ r.1 * O := by
    rw [i3, ← List.sum_map_mul_right]
    refine List.sum_le_sum fun p hp => ?_
    exact mul_le_mul_of_nonneg_left (hO _ (hzipmem p hp).2) (Real.exp_pos _).le
  set t := u * (n + 3 + 4 * X) with ht
  have ht0 : 0 ≤ t := by positivity
  have hpow : ∀ j : ℕ, j ≤ n + 2 → ρ * (1 + u) ^ j ≤ Real.exp t := by
    intro j hj
    have h1 : (1 + u) ≤ Real.exp u := by rw [add_comm]; exact Real.add_one_le_exp u
    have h2 : (1 + u) ^ (j + 1) ≤ Real.exp (((j + 1 : ℕ) : ℝ) * u) := by
      rw [Real.exp_nat_mul]
      exact pow_le_pow_left₀ (by linarith) h1 _
    calc ρ * (1 + u) ^ j = Real.exp (4 * u * X) * (1 + u) ^ (j + 1) := by rw [hρ, pow_succ]; ring
      _ ≤ Real.exp (4 * u * X) * Real.exp (((j + 1 : ℕ) : ℝ) * u) := mul_le_mul_of_nonneg_left h2 (Real.exp_pos _).le
      _ = Real.exp (4 * u * X + ((j + 1 : ℕ) : ℝ) * u) := by rw [Real.exp_add]
      _ ≤ Real.exp t := by
        refine Real.exp_le_exp.2 ?_
        have : ((j + 1 : ℕ) : ℝ) ≤ n + 3 := by exact_mod_cast (by omega)
        rw [ht]
        nlinarith
  have hexp : Real.exp t ≤ 1 + t + t ^ 2 := by
    have := Real.abs_exp_sub_one_sub_id_le (x := t) (by rw [abs_of_nonneg ht0]; linarith)
    have := (abs_le.1 this).2
    linarith
  have hone : ∀ j : ℕ, 1 ≤ ρ * (1 + u) ^ j := fun j => by
    have : 1 ≤ (1 + u) ^ j := one_le_pow₀ (by linarith)
    nlinarith
  have hA := hpow n (by omega)
  have hB := hpow (n + 2) (le_refl _)
  have hE : Real.exp t ≤ 1 + 1.25 * t := by nlinarith
  have hA2 : ρ * (1 + u) ^ n < 2 := by linarith
  have hO0 : 0 ≤ O := by
    have hM0 : 0 ≤ r.1 * O := ((abs_nonneg _).trans i4).trans hM
    by_contra hc
    push Not at hc
    nlinarith
  have hq := rounded_quotient hfl hz (hone n) (hone (n + 1)) hA2 i1 i2 i4 hM
  rw [smul_eq_mul]
  refine hq.trans (mul_le_mul_of_nonneg_right ?_ hO0)
  have e : ρ * (1 + u) ^ (n + 1) * (1 + u) = ρ * (1 + u) ^ (n + 2) := by rw [pow_succ (1 + u) (n + 1)]; ring
  rw [e, div_le_iff₀ (by linarith)]
  nlinarith

/-! ### Non-vacuity: binary floating-point numbers -/

/-- Rounding to the nearest number with a mantissa of `p` binary digits (without overflow and underflow). -/
def binaryRound (p : ℕ) (x : ℝ) : ℝ :=
  round (x * (2 : ℝ) ^ ((p : ℤ) - 1 - Int.log 2 |x|)) / (2 : ℝ) ^ ((p : ℤ) - 1 - Int.log 2 |x|)

/-- Each operation is exact and then rounded to `p` binary digits. -/
def binaryOps (p : ℕ) : FloatOps :=
  ⟨fun x y => binaryRound p (x + y), fun x y => binaryRound p (x - y), fun x y => binaryRound p (x * y),
    fun x y => binaryRound p (x / y), fun x => binaryRound p (Real.exp x)⟩

theorem binaryRound_accurate (p : ℕ) (x : ℝ) : |binaryRound p x - x| ≤ (2 : ℝ) ^ (-(p : ℤ)) * |x| := by
  by_cases hx : x = 0
  · subst hx; simp [binaryRound]
  · unfold binaryRound
    set s := (2 : ℝ) ^ ((p : ℤ) - 1 - Int.log 2 |x|) with hs
    have hs0 : 0 < s := by positivity
    have h1 : |(round (x * s) : ℝ) - x * s| ≤ 1 / 2 := by rw [abs_sub_comm]; exact abs_sub_round _
    have h2 : (2 : ℝ) ^ Int.log 2 |x| ≤ |x| := by
      exact_mod_cast Int.zpow_log_le_self (b := 2) (by norm_num) (abs_pos.2 hx)
    have e : (round (x * s) : ℝ) / s - x = ((round (x * s) : ℝ) - x * s) / s := by field_simp
    rw [e, abs_div, abs_of_pos hs0, div_le_iff₀ hs0]
    refine h1.trans ?_
    have e2 : (2 : ℝ) ^ (-(p : ℤ)) * (2 : ℝ) ^ Int.log 2 |x| * s = 1 / 2 := by
      rw [hs, ← zpow_add₀ (by norm_num), ← zpow_add₀ (by norm_num),
        show -(p : ℤ) + Int.log 2 |x| + ((p : ℤ) - 1 - Int.log 2 |x|) = -1 by ring]
      norm_num
    rw [← e2]
    refine mul_le_mul_of_nonneg_right (mul_le_mul_of_nonneg_left h2 (by positivity)) hs0.le

theorem binaryOps_accurate (p : ℕ) : Accurate ((2 : ℝ) ^ (-(p : ℤ))) (binaryOps p) :=
  ⟨fun _ _ => binaryRound_accurate p _, fun _ _ => binaryRound_accurate p _, fun _ _ => binaryRound_accurate p _,
    fun _ _ _ => binaryRound_accurate p _, fun x => by
      have := binaryRound_accurate p (Real.exp x)
      rwa [abs_of_pos (Real.exp_pos x)] at this⟩

/-- Double precision, two coefficients, two energies, a broadening of 0.1. -/
example : ∃ g g', greenOnMesh [1, 2] [1 / 3] 2 [0, 1 / 2] (1 / 10) (-1) = .ok g ∧
    roundedGreenOnMesh (binaryOps 53) [1, 2] [1 / 3] 2 [0, 1 / 2] (1 / 10) (-1) = .ok g' ∧
    List.Forall₂ (fun x x' => ‖x' - x‖ ≤ 150 * (2 : ℝ) ^ (-(53 : ℕ) : ℤ) * 4 / (1 / 10) ^ 2) g g' := by
  refine C94_fraction (S := 4) (binaryOps_accurate 53) (by norm_num) rfl rfl (by norm_num) ⟨?_, ?_⟩ (by norm_num)
  · intro w hw a ha
    simp only [List.mem_cons, List.not_mem_nil, or_false] at hw ha
    rcases hw with rfl | rfl <;> rcases ha with rfl | rfl <;> norm_num [abs_of_pos]
  · intro b hb
    simp only [List.mem_cons, List.not_mem_nil, or_false] at hb
    subst hb
    norm_num [abs_of_pos]

theorem exists_scale (alpha beta omega : List ℝ) (delta e : ℝ) : ∃ S, 0 < S ∧ Scale S alpha beta omega delta e := by
  have hb : ∀ l : List ℝ, ∃ M, 0 ≤ M ∧ ∀ x ∈ l, |x| ≤ M := by
    intro l
    induction l with
    | nil => exact ⟨0, le_rfl, by simp⟩
    | cons a l ih =>
      obtain ⟨M, h0, hM⟩ := ih
      refine ⟨|a| + M, by positivity, fun x hx => ?_⟩
      rcases List.mem_cons.1 hx with rfl | hx
      · linarith
      · linarith [hM x hx, abs_nonneg a]
  obtain ⟨A, A0, hA⟩ := hb alpha
  obtain ⟨B, B0, hB⟩ := hb beta
  obtain ⟨W, W0, hW⟩ := hb omega
  refine ⟨W + |delta| + |e| + A + B + 1, by positivity, fun w hw a ha => ?_, fun b hb => ?_⟩
  · linarith [hW w hw, hA a ha, le_abs_self delta]
  · linarith [hB b hb, abs_nonneg delta, abs_nonneg e]

/-- The hypotheses of `C94_green` are met by one site coupled to two others, with a Lanczos run that went on after a
coupling of 0.1, in a precision that suits its coefficients. -/
example (omega : List ℝ) (x : ℝ) : ∃ (p k : ℕ) (alpha beta : List ℝ),
    CloseChain (1 / 10) k (k + 1) alpha beta (alpha ++ [x]) (beta ++ [1 / 10]) ∧
    ∃ g, roundedGreenOnMesh (binaryOps p) (alpha ++ [x]) (beta ++ [1 / 10]) (k + 1) omega 1 0 = .ok g ∧
      List.Forall₂ (fun (ω : ℝ) y => ∃ g₀, IsGreen 3 (hamiltonian 3 (castOp exStar) (1 / 2) none)
        ((ω : ℂ) + Complex.I * ((1 : ℝ) : ℂ) + ((0 : ℝ) : ℂ)) (ampl 3 exStarPsi) g₀ ∧
          ‖y - g₀‖ ≤ 3 * (1 / 10) / 1 ^ 2 + 1 / 10) omega g := by
  obtain ⟨k, alpha, beta, hk, la, lb, -, hst⟩ := C94_green exStar_inSystem exStar_nodup exStar_hermitian (cut := 1 / 2)
    (by norm_num) none exStarPsi_state (fun _ _ _ => trivial) exStarPsi_norm 10 (by norm_num)
  obtain ⟨S, hS0, hS⟩ := exists_scale (alpha ++ [x]) (beta ++ [1 / 10]) omega 1 0
  obtain ⟨p, hp⟩ := exists_pow_lt_of_lt_one (show (0 : ℝ) < 1 / (1500 * S) by positivity) (show (1 / 2 : ℝ) < 1 by norm_num)
  have hu : (2 : ℝ) ^ (-(p : ℤ)) * (1500 * S) ≤ 1 := by
    rw [lt_div_iff₀ (by positivity)] at hp
    have : (2 : ℝ) ^ (-(p : ℤ)) = (1 / 2) ^ p := by simp
    rw [this]
    exact hp.le
  have hclose : CloseChain (1 / 10) k (k + 1) alpha beta (alpha ++ [x]) (beta ++ [1 / 10]) := by
    refine ⟨by omega, ⟨la, lb, by simp [la], by simp [lb]; omega⟩, fun i hi => ?_, fun i hi => ?_, fun _ => ?_⟩
    · rw [List.getD_append _ _ _ _ (by omega), sub_self, abs_zero]
      norm_num
    · rw [List.getD_append _ _ _ _ (by omega), sub_self, abs_zero]
      norm_num
    · rw [List.getD_append_right _ _ _ _ (by omega), lb, Nat.sub_self]
      norm_num [abs_of_pos]
  obtain ⟨g, hg, hG⟩ := hst _ _ _ _ hclose _ _ (binaryOps_accurate p) 0 omega 1 S (by norm_num) hS (by linarith)
  refine ⟨p, k, alpha, beta, hclose, g, hg, hG.imp ?_⟩
  rintro ω y ⟨g₀, h1, h2⟩
  refine ⟨g₀, h1, h2.trans ?_⟩
  norm_num at hu ⊢
  linarith

/-- Two states at room temperature, in double precision. -/
example : ∃ a a', thermalAverage (8.6e-5) [0, 0.01] [1, -2] 300 = .ok a ∧
    roundedThermalAverage (binaryOps 53) (8.6e-5) [0, 0.01] [1, -2] 300 = .ok a' ∧
    |a' - a| ≤ 4 * ((2 : ℝ) ^ (-(53 : ℕ) : ℤ) * (([0, 0.01] : List ℝ).length + 3 + 4 * 1)) * 2 := by
  refine C94_average (X := 1) (O := 2) (binaryOps_accurate 53) rfl (by simp) (by norm_num) ?_ ?_ (by norm_num)
  · intro e he e' he'
    simp only [List.mem_cons, List.not_mem_nil, or_false] at he he'
    rcases he with rfl | rfl <;> rcases he' with rfl | rfl <;> norm_num [abs_of_pos]
  · intro o ho
    simp only [List.mem_cons, List.not_mem_nil, or_false] at ho
    rcases ho with rfl | rfl <;> norm_num

end

end Verif
