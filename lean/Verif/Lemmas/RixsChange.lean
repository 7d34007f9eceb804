/-
Lemmas for C97: how far the intermediate states of RIXS and Boltzmann averages move.
-/
import Verif.Lemmas.SpectraChange

namespace Verif

open Finset Psr Spec Matrix

noncomputable section

section
variable {d : ℕ}

/-- The length of a vector. -/
def l2 (v : Fin d → ℂ) : ℝ := Real.sqrt (∑ i, ‖v i‖ ^ 2)

theorem l2_eq (v : Fin d → ℂ) : l2 v = ‖(WithLp.toLp 2 v : EuclideanSpace ℂ (Fin d))‖ := by
  rw [EuclideanSpace.norm_eq]; rfl

theorem l2_add_le (v w : Fin d → ℂ) : l2 (v + w) ≤ l2 v + l2 w := by
  rw [l2_eq, l2_eq, l2_eq, WithLp.toLp_add]
  exact norm_add_le _ _

theorem l2_smul (c : ℂ) (v : Fin d → ℂ) : l2 (c • v) = ‖c‖ * l2 v := by
  rw [l2_eq, l2_eq, WithLp.toLp_smul]
  exact norm_smul _ _

/-- A vector that is the image of another under `z - M`. -/
theorem l2_resolvent_le {M : Matrix (Fin d) (Fin d) ℂ} (hM : M.IsHermitian) {z : ℂ} (hz : z.im ≠ 0) {u v : Fin d → ℂ}
    (h : (z • (1 : Matrix (Fin d) (Fin d) ℂ) - M) *ᵥ u = v) : l2 u ≤ l2 v / |z.im| := by
  have hdet := (Matrix.isUnit_iff_isUnit_det _).1 (isUnit_resolvent hM hz)
  have hu : u = (z • (1 : Matrix (Fin d) (Fin d) ℂ) - M)⁻¹ *ᵥ v := by
    rw [← h, mulVec_mulVec, nonsing_inv_mul _ hdet, one_mulVec]
  have := resolvent_vector_le hM hz v
  rw [← hu] at this
  unfold l2
  rw [← Real.sqrt_sq_eq_abs, ← Real.sqrt_div (sum_nonneg fun _ _ => by positivity)]
  exact Real.sqrt_le_sqrt this

/-- A matrix whose rows and columns sum up to at most `c`. -/
theorem l2_mulVec_le {D : Matrix (Fin d) (Fin d) ℂ} {c : ℝ} (hrow : ∀ i, ∑ j, ‖D i j‖ ≤ c) (hcol : ∀ j, ∑ i, ‖D i j‖ ≤ c)
    (hc : 0 ≤ c) (y : Fin d → ℂ) : l2 (D *ᵥ y) ≤ c * l2 y := by
  unfold l2
  rw [← Real.sqrt_sq hc, ← Real.sqrt_mul (sq_nonneg c)]
  refine Real.sqrt_le_sqrt ?_
  have h1 : ∀ i, ‖(D *ᵥ y) i‖ ^ 2 ≤ c * ∑ j, ‖D i j‖ * ‖y j‖ ^ 2 := by
    intro i
    have e : ‖(D *ᵥ y) i‖ ≤ ∑ j, Real.sqrt ‖D i j‖ * (Real.sqrt ‖D i j‖ * ‖y j‖) := by
      refine (norm_sum_le univ fun j => D i j * y j).trans (le_of_eq (sum_congr rfl fun j _ => ?_))
      rw [norm_mul, ← mul_assoc, Real.mul_self_sqrt (norm_nonneg _)]
    have cs := sum_mul_sq_le_sq_mul_sq univ (fun j => Real.sqrt ‖D i j‖) (fun j => Real.sqrt ‖D i j‖ * ‖y j‖)
    simp only [mul_pow, Real.sq_sqrt (norm_nonneg _)] at cs
    refine (pow_le_pow_left₀ (norm_nonneg _) e 2).trans (cs.trans ?_)
    exact mul_le_mul_of_nonneg_right (hrow i) (sum_nonneg fun j _ => by positivity)
  refine (sum_le_sum fun i _ => h1 i).trans ?_
  rw [← mul_sum, sum_comm, pow_two, mul_assoc]
  refine mul_le_mul_of_nonneg_left ?_ hc
  rw [mul_sum]
  refine sum_le_sum fun j _ => ?_
  rw [← sum_mul]
  exact mul_le_mul_of_nonneg_right (hcol j) (by positivity)

/-- Two equations with Hermitian matrices. -/
theorem l2_equation_close {M M' : Matrix (Fin d) (Fin d) ℂ} (hM : M.IsHermitian) (hM' : M'.IsHermitian) {z z' : ℂ}
    (hz : z.im ≠ 0) (him : z'.im = z.im) {c : ℝ} (hc0 : 0 ≤ c) (hc : ∀ j, ∑ i, ‖M i j - M' i j‖ ≤ c) {u v u' v' : Fin d → ℂ}
    (h : (z • (1 : Matrix (Fin d) (Fin d) ℂ) - M) *ᵥ u = v) (h' : (z' • (1 : Matrix (Fin d) (Fin d) ℂ) - M') *ᵥ u' = v') :
    l2 (u - u') ≤ l2 (v - v') / |z.im| + (c + ‖z - z'‖) * l2 v' / z.im ^ 2 := by
  have hrow : ∀ i, ∑ j, ‖(M - M') i j‖ ≤ c := by
    intro i
    refine le_trans (le_of_eq (sum_congr rfl fun j _ => ?_)) (hc i)
    rw [Matrix.sub_apply, ← norm_star (M j i - M' j i), star_sub, hM.apply i j, hM'.apply i j]
  have key : (z • (1 : Matrix (Fin d) (Fin d) ℂ) - M) *ᵥ (u - u') = (v - v') + ((z' - z) • u' + (M - M') *ᵥ u') := by
    rw [mulVec_sub, h, ← h', sub_mulVec, sub_mulVec, sub_mulVec, smul_mulVec, smul_mulVec, one_mulVec, sub_smul]
    abel
  have hu' : l2 u' ≤ l2 v' / |z.im| := by
    have := l2_resolvent_le hM' (by rw [him]; exact hz) h'
    rwa [him] at this
  have h1 := l2_resolvent_le hM hz key
  have h2 : l2 ((v - v') + ((z' - z) • u' + (M - M') *ᵥ u')) ≤ l2 (v - v') + (c + ‖z - z'‖) * (l2 v' / |z.im|) := by
    refine (l2_add_le _ _).trans (add_le_add le_rfl ((l2_add_le _ _).trans ?_))
    have h3 := l2_mulVec_le hrow (fun j => hc j) hc0 u'
    rw [l2_smul, norm_sub_rev]
    have : ‖z - z'‖ * l2 u' + c * l2 u' ≤ (c + ‖z - z'‖) * (l2 v' / |z.im|) := by
      rw [← add_mul, add_comm ‖z - z'‖]
      exact mul_le_mul_of_nonneg_left hu' (add_nonneg hc0 (norm_nonneg _))
    linarith
  refine h1.trans ((div_le_div_of_nonneg_right h2 (abs_nonneg _)).trans (le_of_eq ?_))
  have hz0 : |z.im| ≠ 0 := abs_ne_zero.2 hz
  rw [← sq_abs z.im]
  field_simp

end

/-- Solutions of two equations with different Hamiltonians, energies and right hand sides. -/
theorem solves_change {n : ℕ} {op op' : Op ℕ ℂ} (hop : OpInSystem n op) (hdict : Dict.NodupKeys op) (hh : isHermitianOp op)
    (hop' : OpInSystem n op') (hdict' : Dict.NodupKeys op') (hh' : isHermitianOp op')
    (r : Option Restrictions) {cut cut' : ℝ} {z z' : ℂ} (hz : z.im ≠ 0) (him : z'.im = z.im) {b b' x x' : Vec ℂ}
    (hb : ∀ S, ¬ (S ⊆ range n ∧ AllowedOpt r S) → b S = 0) (hb' : ∀ S, ¬ (S ⊆ range n ∧ AllowedOpt r S) → b' S = 0)
    (h : Solves n (hamiltonian n op cut r) z b x) (h' : Solves n (hamiltonian n op' cut' r) z' b' x') :
    Real.sqrt (Spec.normSq n (x - x')) ≤ Real.sqrt (Spec.normSq n (b - b')) / |z.im|
      + (strengthChange op op' + op.length * Real.sqrt cut + op'.length * Real.sqrt cut' + ‖z - z'‖)
        * Real.sqrt (Spec.normSq n b') / z.im ^ 2 := by
  classical
  set sts := {S ∈ (range n).powerset | AllowedOpt r S} with hsts
  set states := sts.toList with hstates
  have hmem : ∀ S, S ∈ states ↔ S ⊆ range n ∧ AllowedOpt r S := by
    intro S
    rw [hstates, mem_toList, hsts, mem_filter, mem_powerset]
  have hnd : states.Nodup := nodup_toList _
  have hsub : ∀ S ∈ states, S ⊆ range n := fun S h => ((hmem S).1 h).1
  have hall : ∀ S ∈ states, AllowedOpt r S := fun S h => ((hmem S).1 h).2
  let M : Op ℕ ℂ → ℝ → Matrix (Fin states.length) (Fin states.length) ℂ :=
    fun o c i j => column o c r states[j.val] states[i.val]
  let v : Vec ℂ → Fin states.length → ℂ := fun f i => f states[i.val]
  have hvs : ∀ f : Vec ℂ, (∀ S, ¬ (S ⊆ range n ∧ AllowedOpt r S) → f S = 0) → l2 (v f) = Real.sqrt (Spec.normSq n f) := by
    intro f hf
    unfold Spec.normSq l2
    rw [← sum_over_states_real hnd hsub rfl (fun S => Complex.normSq (f S)) (fun S hS hn => by
      rw [hf S (fun h => hn ((hmem S).2 h)), Complex.normSq_zero])]
    congr 1
    exact sum_congr rfl fun i _ => (Complex.normSq_eq_norm_sq _).symm
  have hz' : z'.im ≠ 0 := by rw [him]; exact hz
  have hherm : ∀ {o : Op ℕ ℂ} {c : ℝ}, OpInSystem n o → Dict.NodupKeys o → isHermitianOp o → (M o c).IsHermitian := by
    intro o c h1 h2 h3
    ext i j
    rw [Matrix.conjTranspose_apply]
    exact (column_hermitian h1 h2 h3 r (hsub _ (List.getElem_mem _)) (hsub _ (List.getElem_mem _))
      (hall _ (List.getElem_mem _)) (hall _ (List.getElem_mem _))).symm
  have houtside : ∀ {o : Op ℕ ℂ} {c : ℝ} {z : ℂ} {b x : Vec ℂ}, z.im ≠ 0 → (∀ S, ¬ (S ⊆ range n ∧ AllowedOpt r S) → b S = 0) →
      Solves n (hamiltonian n o c r) z b x → ∀ S, ¬ (S ⊆ range n ∧ AllowedOpt r S) → x S = 0 := by
    intro o c z b x hz hb hx S hS
    by_cases hSn : S ⊆ range n
    · have h1 := hx.inside S hSn
      have h0 : hamiltonian n o c r x S = 0 := by
        unfold hamiltonian column
        rw [if_pos hSn]
        exact sum_eq_zero fun T _ => by rw [if_neg (fun h => hS ⟨hSn, h.1⟩), zero_mul]
      rw [h0, sub_zero, hb S hS] at h1
      rcases mul_eq_zero.1 h1 with h1 | h1
      · exact absurd (by rw [h1]; rfl) hz
      · exact h1
    · exact hx.outside S hSn
  have hmat : ∀ {o : Op ℕ ℂ} {c : ℝ} {z : ℂ} {b x : Vec ℂ}, (∀ S, ¬ (S ⊆ range n ∧ AllowedOpt r S) → x S = 0) →
      Solves n (hamiltonian n o c r) z b x → (z • (1 : Matrix (Fin states.length) (Fin states.length) ℂ) - M o c) *ᵥ v x = v b := by
    intro o c z b x hx0 hx
    funext i
    have h1 := hx.inside _ (hsub states[i.val] (List.getElem_mem _))
    rw [Matrix.sub_mulVec, Matrix.smul_mulVec, Matrix.one_mulVec]
    simp only [Pi.sub_apply, Pi.smul_apply, smul_eq_mul, Matrix.mulVec, dotProduct]
    have e : hamiltonian n o c r x states[i.val] = ∑ j : Fin states.length, M o c i j * v x j := by
      unfold hamiltonian
      rw [if_pos (hsub states[i.val] (List.getElem_mem _)),
        ← sum_over_states hnd hsub rfl (fun T => column o c r T states[i.val] * x T)
        (fun T _ hT => by rw [hx0 T (fun h => hT ((hmem T).2 h)), mul_zero])]
    rw [e] at h1
    exact h1
  have hx0 := houtside hz hb h
  have hx0' := houtside hz' hb' h'
  have key := l2_equation_close (hherm hop hdict hh) (hherm hop' hdict' hh') hz him
    (c := strengthChange op op' + op.length * Real.sqrt cut + op'.length * Real.sqrt cut')
    (add_nonneg (add_nonneg (strengthChange_nonneg _ _) (mul_nonneg (Nat.cast_nonneg _) (Real.sqrt_nonneg _)))
      (mul_nonneg (Nat.cast_nonneg _) (Real.sqrt_nonneg _))) ?_ (hmat hx0 h) (hmat hx0' h')
  · have e1 : v x - v x' = v (x - x') := rfl
    have e2 : v b - v b' = v (b - b') := rfl
    rw [e1, e2, hvs _ (fun S hS => by rw [Pi.sub_apply, hx0 S hS, hx0' S hS, sub_zero]),
      hvs _ (fun S hS => by rw [Pi.sub_apply, hb S hS, hb' S hS, sub_zero]), hvs _ hb'] at key
    exact key
  · intro j
    rw [show ∑ i, ‖M op cut i j - M op' cut' i j‖
        = ∑ S ∈ (range n).powerset, ‖column op cut r states[j.val] S - column op' cut' r states[j.val] S‖ from
      sum_over_states_real hnd hsub rfl (fun S => ‖column op cut r states[j.val] S - column op' cut' r states[j.val] S‖) (by
        intro S hS hn
        have hna : ¬ AllowedOpt r S := fun h => hn ((hmem S).2 ⟨hS, h⟩)
        unfold column
        rw [if_neg (fun h => hna h.1), if_neg (fun h => hna h.1), sub_zero, norm_zero])]
    exact column_change hdict hdict' r _ _

/-- Two Boltzmann averages: of different values, with energies that differ by a common shift up to `η`. -/
theorem boltzmann_close {m : ℕ} {p p' : Fin m → ℝ} (hm : 0 < m) (hp : ∀ i, 0 < p i) (hp' : ∀ i, 0 < p' i) {x x' : Fin m → ℝ}
    {ε r D : ℝ} (hr : ∀ i, p i ≤ r * p' i ∧ p' i ≤ r * p i) (hx : ∀ i, |x i - x' i| ≤ ε) (hD : ∀ i j, |x' i - x' j| ≤ D) :
    |(∑ i, p i * x i) / ∑ i, p i - (∑ i, p' i * x' i) / ∑ i, p' i| ≤ ε + (r ^ 2 - 1) * D := by
  have : Nonempty (Fin m) := ⟨⟨0, hm⟩⟩
  set Z := ∑ i, p i with hZ
  set Z' := ∑ i, p' i with hZ'
  have hZ0 : 0 < Z := sum_pos (fun i _ => hp i) univ_nonempty
  have hZ0' : 0 < Z' := sum_pos (fun i _ => hp' i) univ_nonempty
  have hD0 : 0 ≤ D := (abs_nonneg _).trans (hD ⟨0, hm⟩ ⟨0, hm⟩)
  have hr1 : 1 ≤ r := by
    by_contra hlt
    have i : Fin m := ⟨0, hm⟩
    have h1 := hr i
    nlinarith [hp i, hp' i]
  have hZr : Z ≤ r * Z' := by rw [hZ, hZ', mul_sum]; exact sum_le_sum fun i _ => (hr i).1
  have hZr' : Z' ≤ r * Z := by rw [hZ, hZ', mul_sum]; exact sum_le_sum fun i _ => (hr i).2
  set y : Fin m → ℝ := fun i => x' i - x' ⟨0, hm⟩ with hy
  have hpt : ∀ i, |p i / Z - p' i / Z'| ≤ (r ^ 2 - 1) * (p' i / Z') := by
    intro i
    have hq : 0 < p' i / Z' := div_pos (hp' i) hZ0'
    have h1 : p i / Z ≤ r ^ 2 * (p' i / Z') := by
      rw [div_le_iff₀ hZ0]
      calc p i ≤ r * p' i := (hr i).1
        _ = r * (p' i / Z') * Z' := by field_simp
        _ ≤ r * (p' i / Z') * (r * Z) := mul_le_mul_of_nonneg_left hZr' (by positivity)
        _ = _ := by ring
    have h2 : p' i / Z' ≤ r ^ 2 * (p i / Z) := by
      rw [div_le_iff₀ hZ0']
      have : 0 < p i / Z := div_pos (hp i) hZ0
      calc p' i ≤ r * p i := (hr i).2
        _ = r * (p i / Z) * Z := by field_simp
        _ ≤ r * (p i / Z) * (r * Z') := mul_le_mul_of_nonneg_left hZr (by positivity)
        _ = _ := by ring
    have hr2 : 1 ≤ r ^ 2 := one_le_pow₀ hr1
    rw [_root_.abs_le]
    constructor
    · -- `p' - p ≤ (r² - 1) p ≤ (r² - 1) p'` if `p ≤ p'`, and negative otherwise
      rcases le_total (p i / Z) (p' i / Z') with hle | hle
      · nlinarith [mul_le_mul_of_nonneg_left hle (by linarith : (0 : ℝ) ≤ r ^ 2 - 1)]
      · nlinarith [mul_nonneg (by linarith : (0 : ℝ) ≤ r ^ 2 - 1) hq.le]
    · linarith
  have hsum1 : ∑ i, p i / Z = 1 := by rw [← sum_div, ← hZ, div_self hZ0.ne']
  have hsum1' : ∑ i, p' i / Z' = 1 := by rw [← sum_div, ← hZ', div_self hZ0'.ne']
  have e : (∑ i, p i * x i) / Z - (∑ i, p' i * x' i) / Z'
      = ∑ i, p i / Z * (x i - x' i) + ∑ i, (p i / Z - p' i / Z') * y i := by
    have e2 : ∑ i, (p i / Z - p' i / Z') * y i = ∑ i, (p i / Z - p' i / Z') * x' i := by
      simp only [hy, mul_sub, sum_sub_distrib, ← sum_mul]
      rw [hsum1, hsum1']
      ring
    rw [e2, sum_div, sum_div, ← sum_sub_distrib, ← sum_add_distrib]
    exact sum_congr rfl fun i _ => by ring
  rw [e]
  refine (abs_add_le _ _).trans (add_le_add ?_ ?_)
  · refine (abs_sum_le_sum_abs _ _).trans ?_
    calc ∑ i, |p i / Z * (x i - x' i)| ≤ ∑ i, p i / Z * ε := sum_le_sum fun i _ => by
          rw [abs_mul, abs_of_pos (div_pos (hp i) hZ0)]
          exact mul_le_mul_of_nonneg_left (hx i) (div_pos (hp i) hZ0).le
      _ = ε := by rw [← sum_mul, hsum1, one_mul]
  · refine (abs_sum_le_sum_abs _ _).trans ?_
    calc ∑ i, |(p i / Z - p' i / Z') * y i| ≤ ∑ i, (r ^ 2 - 1) * (p' i / Z') * D := sum_le_sum fun i _ => by
          rw [abs_mul]
          exact mul_le_mul (hpt i) (hD _ _) (abs_nonneg _) ((abs_nonneg _).trans (hpt i))
      _ = (r ^ 2 - 1) * D := by rw [← sum_mul, ← mul_sum, hsum1', mul_one]

end

end Verif
