/-
Lemmas for C106: the energies of a Gauss quadrature lie within the spectrum.
-/
import Verif.Spec.Thresholds
import Verif.Prop.Moments
import Mathlib.Algebra.Polynomial.AlgebraMap

namespace Verif

open Finset Psr Spec

noncomputable section

theorem innerProduct_real_smul (n : ℕ) (c : ℝ) (u w : Vec ℂ) : innerProduct n u (c • w) = (c : ℂ) * innerProduct n u w := by
  rw [← innerProduct_smul_right]
  rfl

theorem innerProduct_real_smul_left (n : ℕ) (c : ℝ) (u w : Vec ℂ) : innerProduct n (c • u) w = (c : ℂ) * innerProduct n u w := by
  unfold innerProduct
  rw [mul_sum]
  refine sum_congr rfl fun F _ => ?_
  rw [Pi.smul_apply, Complex.real_smul, star_mul']
  simp only [Complex.star_def, Complex.conj_ofReal]
  ring

section
variable {n : ℕ} (Hl : Module.End ℂ (Vec ℂ)) (V : Submodule ℂ (Vec ℂ)) (hV : ∀ u ∈ V, Hl u ∈ V)
  (hsym : ∀ u ∈ V, ∀ w ∈ V, innerProduct n (Hl u) w = innerProduct n u (Hl w))

include hV in
theorem pow_stays {u : Vec ℂ} (hu : u ∈ V) (m : ℕ) : (Hl ^ m) u ∈ V := by
  induction m with
  | zero => exact hu
  | succ m ih => rw [pow_succ', Module.End.mul_apply]; exact hV _ ih

include hV in
theorem poly_stays {u : Vec ℂ} (hu : u ∈ V) (P : Polynomial ℝ) : Polynomial.aeval Hl P u ∈ V := by
  rw [Polynomial.aeval_eq_sum_range, LinearMap.sum_apply]
  refine V.sum_mem fun m _ => ?_
  rw [LinearMap.smul_apply]
  have : (P.coeff m • (Hl ^ m) u : Vec ℂ) = ((P.coeff m : ℂ)) • (Hl ^ m) u := by
    funext F
    simp
  rw [this]
  exact V.smul_mem _ (pow_stays Hl V hV hu m)

include hV hsym in
theorem pow_symmetric {u w : Vec ℂ} (hu : u ∈ V) (hw : w ∈ V) (m : ℕ) :
    innerProduct n ((Hl ^ m) u) w = innerProduct n u ((Hl ^ m) w) := by
  induction m generalizing w with
  | zero => rfl
  | succ m ih =>
    rw [pow_succ', Module.End.mul_apply, hsym _ (pow_stays Hl V hV hu m) _ hw, ih (hV _ hw), ← Module.End.mul_apply,
      ← pow_succ, pow_succ', Module.End.mul_apply]

include hV hsym in
theorem poly_symmetric {u w : Vec ℂ} (hu : u ∈ V) (hw : w ∈ V) (P : Polynomial ℝ) :
    innerProduct n (Polynomial.aeval Hl P u) w = innerProduct n u (Polynomial.aeval Hl P w) := by
  rw [Polynomial.aeval_eq_sum_range, LinearMap.sum_apply, LinearMap.sum_apply,
    show (∑ m ∈ range (P.natDegree + 1), (P.coeff m • Hl ^ m) u)
      = fun S => ∑ m ∈ range (P.natDegree + 1), (P.coeff m • Hl ^ m) u S by funext S; rw [Finset.sum_apply],
    show (∑ m ∈ range (P.natDegree + 1), (P.coeff m • Hl ^ m) w)
      = fun S => ∑ m ∈ range (P.natDegree + 1), (P.coeff m • Hl ^ m) w S by funext S; rw [Finset.sum_apply],
    innerProduct_sum_left, innerProduct_sum_right]
  refine sum_congr rfl fun m _ => ?_
  rw [LinearMap.smul_apply, LinearMap.smul_apply, innerProduct_real_smul, innerProduct_real_smul_left,
    pow_symmetric Hl V hV hsym hu hw]

/-- The moments give the expectation value of any polynomial. -/
theorem gauss_poly {v : Vec ℂ} {k : ℕ} {L : List (ℝ × ℝ)} (hL : IsGauss n Hl v k L) {P : Polynomial ℝ} (hP : P.natDegree < 2 * k) :
    (((L.map fun p => p.2 * P.eval p.1).sum : ℝ) : ℂ) = innerProduct n v (Polynomial.aeval Hl P v) := by
  have h1 : (L.map fun p => p.2 * P.eval p.1).sum = ∑ m ∈ range (2 * k), P.coeff m * momentOf L m := by
    clear hL
    induction L with
    | nil => simp [momentOf]
    | cons p L ih =>
      rw [List.map_cons, List.sum_cons, ih, Polynomial.eval_eq_sum_range' hP, mul_sum, ← sum_add_distrib]
      refine sum_congr rfl fun m _ => ?_
      unfold momentOf
      rw [List.map_cons, List.sum_cons]
      ring
  rw [h1, Polynomial.aeval_eq_sum_range' hP, LinearMap.sum_apply,
    show (∑ m ∈ range (2 * k), (P.coeff m • Hl ^ m) v)
      = fun S => ∑ m ∈ range (2 * k), (P.coeff m • Hl ^ m) v S by funext S; rw [Finset.sum_apply], innerProduct_sum_right,
    Complex.ofReal_sum]
  refine sum_congr rfl fun m hm => ?_
  rw [LinearMap.smul_apply, innerProduct_real_smul, Complex.ofReal_mul, hL.2.2 m (mem_range.1 hm), Module.End.pow_apply]

include hV hsym in
/-- The energies lie where a linear function of the Hamiltonian is not negative. -/
theorem gauss_support {v : Vec ℂ} (hv : v ∈ V) {k : ℕ} {L : List (ℝ × ℝ)} (hL : IsGauss n Hl v k L) (a c : ℝ)
    (hpos : ∀ u ∈ V, 0 ≤ a * (innerProduct n u (Hl u)).re + c * Spec.normSq n u) {p : ℝ × ℝ} (hp : p ∈ L) (hw : p.2 ≠ 0) :
    0 ≤ a * p.1 + c := by
  classical
  set X : Finset ℝ := (L.map Prod.fst).toFinset.erase p.1 with hX
  have hcard : X.card + 1 ≤ k := by
    have h1 : (L.map Prod.fst).toFinset.card ≤ L.length := by
      refine (List.toFinset_card_le _).trans ?_
      rw [List.length_map]
    have h2 : p.1 ∈ (L.map Prod.fst).toFinset := List.mem_toFinset.2 (List.mem_map.2 ⟨p, hp, rfl⟩)
    rw [hX, card_erase_add_one h2]
    exact h1.trans hL.1
  set R : Polynomial ℝ := ∏ x ∈ X, (Polynomial.X - Polynomial.C x) with hR
  have hRdeg : R.natDegree ≤ X.card := by
    rw [hR, Polynomial.natDegree_prod_of_monic _ _ fun x _ => Polynomial.monic_X_sub_C x]
    simp
  set Q : Polynomial ℝ := R * ((Polynomial.C a * Polynomial.X + Polynomial.C c) * R) with hQ
  have hQdeg : Q.natDegree < 2 * k := by
    have h1 : (Polynomial.C a * Polynomial.X + Polynomial.C c : Polynomial ℝ).natDegree ≤ 1 := Polynomial.natDegree_linear_le
    have h2 := (Polynomial.natDegree_mul_le (p := R) (q := (Polynomial.C a * Polynomial.X + Polynomial.C c) * R))
    have h3 := (Polynomial.natDegree_mul_le (p := (Polynomial.C a * Polynomial.X + Polynomial.C c : Polynomial ℝ)) (q := R))
    rw [← hQ] at h2
    omega
  have hval := gauss_poly Hl hL hQdeg
  set u := Polynomial.aeval Hl R v with hu
  have huV : u ∈ V := poly_stays Hl V hV hv R
  have e1 : Polynomial.aeval Hl Q v = Polynomial.aeval Hl R (a • Hl u + c • u) := by
    rw [hQ, map_mul, map_mul, map_add, map_mul, Polynomial.aeval_X, Polynomial.aeval_C, Polynomial.aeval_C,
      Module.End.mul_apply, Module.End.mul_apply, ← hu, LinearMap.add_apply, Module.End.mul_apply,
      Module.algebraMap_end_apply, Module.algebraMap_end_apply]
  have hsm : ∀ (x : ℝ) (w : Vec ℂ), w ∈ V → x • w ∈ V := by
    intro x w hw
    have : (x • w : Vec ℂ) = (x : ℂ) • w := by funext F; simp
    rw [this]
    exact V.smul_mem _ hw
  rw [e1, ← poly_symmetric Hl V hV hsym hv (V.add_mem (hsm a _ (hV _ huV)) (hsm c _ huV)), ← hu] at hval
  have hval' : (L.map fun p => p.2 * Q.eval p.1).sum = a * (innerProduct n u (Hl u)).re + c * Spec.normSq n u := by
    have h2 : innerProduct n u (a • Hl u + c • u) = (a : ℂ) * innerProduct n u (Hl u) + (c : ℂ) * innerProduct n u u := by
      rw [← innerProduct_real_smul, ← innerProduct_real_smul]
      unfold innerProduct
      rw [← sum_add_distrib]
      exact sum_congr rfl fun F _ => by rw [Pi.add_apply, mul_add]
    rw [h2, innerProduct_self] at hval
    have := congrArg Complex.re hval
    simpa using this
  have hnn : 0 ≤ (L.map fun p => p.2 * Q.eval p.1).sum := by rw [hval']; exact hpos u huV
  have hQe : ∀ x, Q.eval x = R.eval x ^ 2 * (a * x + c) := by
    intro x
    rw [hQ]
    simp only [Polynomial.eval_mul, Polynomial.eval_add, Polynomial.eval_C, Polynomial.eval_X]
    ring
  have hzero : ∀ q ∈ L, q.1 ≠ p.1 → Q.eval q.1 = 0 := by
    intro q hq hne
    have : R.eval q.1 = 0 := by
      rw [hR, Polynomial.eval_prod]
      refine prod_eq_zero (i := q.1) ?_ (by simp)
      rw [hX, mem_erase]
      exact ⟨hne, List.mem_toFinset.2 (List.mem_map.2 ⟨q, hq, rfl⟩)⟩
    rw [hQe, this]
    ring
  have hRp : R.eval p.1 ≠ 0 := by
    rw [hR, Polynomial.eval_prod, prod_ne_zero_iff]
    intro x hx
    rw [hX, mem_erase] at hx
    rw [Polynomial.eval_sub, Polynomial.eval_X, Polynomial.eval_C, sub_ne_zero]
    exact fun e => hx.1 e.symm
  by_contra hneg
  have hneg' : a * p.1 + c < 0 := not_le.1 hneg
  have hp0 : 0 < p.2 := lt_of_le_of_ne (hL.2.1 p hp) (Ne.symm hw)
  have hlt : (L.map fun q => q.2 * Q.eval q.1).sum < 0 := by
    obtain ⟨L1, L2, rfl⟩ := List.append_of_mem hp
    have hle : ∀ M : List (ℝ × ℝ), (∀ q ∈ M, q ∈ L1 ++ p :: L2) → (M.map fun q => q.2 * Q.eval q.1).sum ≤ 0 := by
      intro M hM
      rw [← neg_nonneg, List.sum_neg, List.map_map]
      refine List.sum_nonneg fun y hy => ?_
      obtain ⟨q, hq, rfl⟩ := List.mem_map.1 hy
      rw [Function.comp_apply, neg_nonneg]
      by_cases he : q.1 = p.1
      · rw [he, hQe]
        exact mul_nonpos_of_nonneg_of_nonpos (hL.2.1 q (hM q hq)) (mul_nonpos_of_nonneg_of_nonpos (sq_nonneg _) hneg'.le)
      · rw [hzero q (hM q hq) he, mul_zero]
    rw [List.map_append, List.map_cons, List.sum_append, List.sum_cons]
    have a1 := hle L1 fun q hq => List.mem_append_left _ hq
    have a2 := hle L2 fun q hq => List.mem_append_right _ (List.mem_cons_of_mem _ hq)
    have a3 : p.2 * Q.eval p.1 < 0 := by
      rw [hQe]
      exact mul_neg_of_pos_of_neg hp0 (mul_neg_of_pos_of_neg (by positivity) hneg')
    linarith
  linarith

end

/-! ### tails -/

/-- The imaginary part of one Lorentzian. -/
theorem lorentz_im (w e x δ : ℝ) : ((w : ℂ) / ((x : ℂ) + Complex.I * δ - e)).im = -(w * lorentzian δ (x - e)) := by
  unfold lorentzian
  rw [Complex.div_im]
  simp [Complex.normSq_apply]
  ring

theorem lorentzian_le {δ D D' : ℝ} (hδ : 0 < δ) (hD : 0 ≤ D) (h : D ≤ |D'|) : lorentzian δ D' ≤ lorentzian δ D := by
  unfold lorentzian
  have : D ^ 2 ≤ D' ^ 2 := by rw [← sq_abs D']; exact pow_le_pow_left₀ hD h 2
  exact div_le_div_of_nonneg_left hδ.le (by positivity) (by linarith)

/-- A sum of Lorentzians outside of the range of its energies. -/
theorem lehmann_outside {L : List (ℝ × ℝ)} {lo hi x δ D : ℝ} (hδ : 0 < δ) (hL : ∀ p ∈ L, 0 ≤ p.2 ∧ (p.2 ≠ 0 → lo ≤ p.1 ∧ p.1 ≤ hi))
    (h : Outside lo hi x D) : 0 ≤ -(lehmann L ((x : ℂ) + Complex.I * δ)).im ∧
      -(lehmann L ((x : ℂ) + Complex.I * δ)).im ≤ totalWeight L * lorentzian δ D := by
  have pos : ∀ y, 0 ≤ lorentzian δ y := fun y => by unfold lorentzian; positivity
  induction L with
  | nil => simp [lehmann, totalWeight]
  | cons p L ih =>
    obtain ⟨i1, i2⟩ := ih fun q hq => hL q (List.mem_cons_of_mem _ hq)
    obtain ⟨p0, p1⟩ := hL p (List.mem_cons_self ..)
    have e : -(lehmann (p :: L) ((x : ℂ) + Complex.I * δ)).im
        = p.2 * lorentzian δ (x - p.1) + -(lehmann L ((x : ℂ) + Complex.I * δ)).im := by
      unfold lehmann
      rw [List.map_cons, List.sum_cons, Complex.add_im, lorentz_im]
      ring
    have e2 : totalWeight (p :: L) = p.2 + totalWeight L := by unfold totalWeight; simp
    rw [e, e2, add_mul]
    have h1 : p.2 * lorentzian δ (x - p.1) ≤ p.2 * lorentzian δ D := by
      by_cases h0 : p.2 = 0
      · rw [h0, zero_mul, zero_mul]
      refine mul_le_mul_of_nonneg_left (lorentzian_le hδ h.1 ?_) p0
      obtain ⟨b1, b2⟩ := p1 h0
      rcases h.2 with rfl | h2 | h2
      · exact abs_nonneg _
      · rw [abs_sub_comm]; exact (by linarith : D ≤ p.1 - x).trans (le_abs_self _)
      · exact (by linarith : D ≤ x - p.1).trans (le_abs_self _)
    exact ⟨add_nonneg (mul_nonneg p0 (pos _)) i1, add_le_add h1 i2⟩

/-- The same for electrons that are removed. -/
theorem lehmann_outside_neg {L : List (ℝ × ℝ)} {lo hi x δ D : ℝ} (hδ : 0 < δ)
    (hL : ∀ p ∈ L, 0 ≤ p.2 ∧ (p.2 ≠ 0 → lo ≤ p.1 ∧ p.1 ≤ hi))
    (h : Outside lo hi x D) : 0 ≤ (lehmann L ((x : ℂ) - Complex.I * δ)).im ∧
      (lehmann L ((x : ℂ) - Complex.I * δ)).im ≤ totalWeight L * lorentzian δ D := by
  have e : (lehmann L ((x : ℂ) - Complex.I * δ)).im = -(lehmann L ((x : ℂ) + Complex.I * δ)).im := by
    clear hL
    induction L with
    | nil => simp [lehmann]
    | cons p L ih =>
      unfold lehmann at ih ⊢
      rw [List.map_cons, List.sum_cons, List.map_cons, List.sum_cons, Complex.add_im, Complex.add_im, ih, lorentz_im,
        show (x : ℂ) - Complex.I * δ - p.1 = (x : ℂ) + Complex.I * ((-δ : ℝ) : ℂ) - p.1 by push_cast; ring, lorentz_im]
      unfold lorentzian
      rw [neg_sq, neg_div]
      ring
  rw [e]
  exact lehmann_outside hδ hL h

end

end Verif
