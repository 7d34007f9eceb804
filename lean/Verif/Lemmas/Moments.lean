/-
The moments of the continued fraction.
-/
import Verif.Spec.Moments
import Verif.Lemmas.KrylovError
import Verif.Prop.Convergence
import Mathlib.LinearAlgebra.Lagrange

namespace Verif

open Finset Psr Spec Matrix

noncomputable section

theorem momentOf_ofFn {k : ℕ} (ε p : Fin k → ℝ) (m : ℕ) :
    momentOf (List.ofFn fun j => (ε j, p j)) m = ∑ j, p j * ε j ^ m := by
  unfold momentOf
  rw [List.map_ofFn, List.sum_ofFn]
  rfl

theorem momentOf_scale (c : ℝ) (L : List (ℝ × ℝ)) (m : ℕ) :
    momentOf (L.map fun p => (p.1, c * p.2)) m = c * momentOf L m := by
  unfold momentOf
  rw [List.map_map, ← List.sum_map_mul_left]
  congr 1
  refine List.map_congr_left fun p _ => ?_
  simp only [Function.comp_apply]
  ring

/-- The moments of the continued fraction are those of the tridiagonal matrix. -/
theorem fraction_moments {alpha beta : List ℝ} {k : ℕ} (hk : 0 < k) (ha : alpha.length = k) (hb : beta.length = k - 1) :
    ∃ L : List (ℝ × ℝ), L.length = k ∧ (∀ p ∈ L, 0 ≤ p.2) ∧
      (∀ m, ((momentOf L m : ℝ) : ℂ) = (tridiagonal alpha beta k ^ m) ⟨0, hk⟩ ⟨0, hk⟩) ∧
      ∀ z : ℂ, z.im ≠ 0 → continuedFraction alpha beta k z = .ok (lehmann L z) := by
  have hT := tridiagonal_hermitian alpha beta k
  set e0 : Fin k → ℂ := Pi.single ⟨0, hk⟩ 1 with he0
  obtain ⟨p, q1, q2, q3⟩ := spectral_vector hT e0
  have hentry : ∀ A : Matrix (Fin k) (Fin k) ℂ, star e0 ⬝ᵥ (A *ᵥ e0) = A ⟨0, hk⟩ ⟨0, hk⟩ := by
    intro A
    have hst : star e0 = e0 := by
      rw [he0]
      ext j
      by_cases hj : j = ⟨0, hk⟩
      · subst hj; simp
      · simp [Pi.single_eq_of_ne hj]
    rw [hst, he0, Matrix.mulVec_single_one, single_dotProduct, one_mul]
    rfl
  refine ⟨List.ofFn fun j => (hT.eigenvalues j, p j), by simp, ?_, fun m => ?_, fun z hz => ?_⟩
  · intro q hq
    obtain ⟨j, rfl⟩ := (List.mem_ofFn' _ _).1 hq
    exact q1 j
  · rw [momentOf_ofFn, ← q3 m, hentry]
  · have h1 := hentry ((z • (1 : Matrix (Fin k) (Fin k) ℂ) - tridiagonal alpha beta k)⁻¹)
    rw [show star e0 ⬝ᵥ ((z • (1 : Matrix (Fin k) (Fin k) ℂ) - tridiagonal alpha beta k)⁻¹ *ᵥ e0)
      = Spec.resolvent (tridiagonal alpha beta k) e0 z from rfl, q2 z hz] at h1
    rw [lehmann_ofFn, continuedFraction_eq ha hb hz, ← cf_inverse hk hz, ← h1]

/-- The moments give the sum of any polynomial. -/
theorem sum_polynomial (L : List (ℝ × ℝ)) (P : Polynomial ℂ) {k : ℕ} (hP : P.natDegree < k) :
    (L.map fun p => (p.2 : ℂ) * P.eval (p.1 : ℂ)).sum = ∑ m ∈ range k, P.coeff m * ((momentOf L m : ℝ) : ℂ) := by
  induction L with
  | nil => simp [momentOf]
  | cons p L ih =>
    rw [List.map_cons, List.sum_cons, ih, Polynomial.eval_eq_sum_range' hP, mul_sum, ← sum_add_distrib]
    refine sum_congr rfl fun m _ => ?_
    unfold momentOf
    rw [List.map_cons, List.sum_cons]
    push_cast
    ring

/-- Sums of at most `k` Lorentzians with equal first `2 k` moments agree. -/
theorem lehmann_unique {k : ℕ} {L L' : List (ℝ × ℝ)} (hL : L.length ≤ k) (hL' : L'.length ≤ k)
    (h : ∀ m < 2 * k, momentOf L m = momentOf L' m) (z : ℂ) : lehmann L z = lehmann L' z := by
  classical
  rcases Nat.eq_zero_or_pos k with rfl | hk
  · rw [List.length_eq_zero_iff.1 (by omega : L.length = 0), List.length_eq_zero_iff.1 (by omega : L'.length = 0)]
  set X : Finset ℂ := ((L ++ L').map fun p => (p.1 : ℂ)).toFinset with hX
  have hcard : X.card ≤ 2 * k := by
    refine (List.toFinset_card_le _).trans ?_
    rw [List.length_map, List.length_append]
    omega
  set P : Polynomial ℂ := Lagrange.interpolate X id (fun x => (z - x)⁻¹) with hP
  have hdeg : P.natDegree < 2 * k := by
    by_cases h0 : P = 0
    · rw [h0, Polynomial.natDegree_zero]; omega
    · rw [Polynomial.natDegree_lt_iff_degree_lt h0]
      refine (Lagrange.degree_interpolate_lt _ (Function.injective_id.injOn)).trans_le ?_
      exact_mod_cast hcard
  have hval : ∀ p ∈ L ++ L', P.eval (p.1 : ℂ) = (z - (p.1 : ℂ))⁻¹ := by
    intro p hp
    have : (p.1 : ℂ) ∈ X := List.mem_toFinset.2 (List.mem_map.2 ⟨p, hp, rfl⟩)
    exact Lagrange.eval_interpolate_at_node (v := id) (fun x => (z - x)⁻¹) (Function.injective_id.injOn) this
  have hsum : ∀ M : List (ℝ × ℝ), (∀ p ∈ M, p ∈ L ++ L') →
      lehmann M z = ∑ m ∈ range (2 * k), P.coeff m * ((momentOf M m : ℝ) : ℂ) := by
    intro M hM
    rw [← sum_polynomial M P hdeg]
    unfold lehmann
    congr 1
    refine List.map_congr_left fun p hp => ?_
    rw [hval p (hM p hp), div_eq_mul_inv]
  rw [hsum L fun p hp => List.mem_append_left _ hp, hsum L' fun p hp => List.mem_append_right _ hp]
  exact sum_congr rfl fun m hm => by rw [h m (mem_range.1 hm)]

/-- All moments are exact if the Krylov space is the whole space. -/
theorem moments_whole {n : ℕ} {H : Matrix (Fin n) (Fin n) ℂ} (hH : H.IsHermitian) {psi0 : Fin n → ℂ}
    (hnorm : star psi0 ⬝ᵥ psi0 = 1) {K : ℕ} {alpha beta : List ℝ} (h : tridiagonalKrylov H psi0 K = .ok (alpha, beta))
    (hK : n ≤ K) (hn : 0 < n) (m : ℕ) :
    star psi0 ⬝ᵥ ((H ^ m) *ᵥ psi0) = (tridiagonal alpha beta n ^ m) ⟨0, hn⟩ ⟨0, hn⟩ := by
  have hmin : min K n = n := by omega
  obtain ⟨-, -, -, V, hV0, hV, hT⟩ := C41_tridiagonal H hH psi0 hnorm K alpha beta h
  rw [hmin] at hV
  set W := krylovMat V n with hW
  have hort : Wᴴ * W = 1 := by
    ext i j
    rw [mul_apply]
    simp only [conjTranspose_apply, hW, krylovMat]
    have := hV i i.isLt j j.isLt
    rw [dotProduct] at this
    rw [show (∑ x, star (V i x) * V j x) = _ from this, one_apply]
    simp [Fin.ext_iff]
  have hort' : W * Wᴴ = 1 := mul_eq_one_comm.1 hort
  have hmat : Wᴴ * H * W = tridiagonal alpha beta n := by
    ext i j
    have := hT ⟨i, by omega⟩ ⟨j, by omega⟩
    have e : tridiagonal alpha beta (min K n) ⟨i, by omega⟩ ⟨j, by omega⟩ = tridiagonal alpha beta n i j := by
      unfold tridiagonal
      simp only [Fin.ext_iff]
    rw [e] at this
    rw [← this, Matrix.mul_assoc]
    rfl
  have hpow : tridiagonal alpha beta n ^ m = Wᴴ * H ^ m * W := by
    rw [← hmat]
    induction m with
    | zero => rw [pow_zero, pow_zero, Matrix.mul_one, hort]
    | succ m ih =>
      rw [pow_succ, ih, pow_succ]
      calc Wᴴ * H ^ m * W * (Wᴴ * H * W) = Wᴴ * H ^ m * (W * Wᴴ) * H * W := by noncomm_ring
        _ = _ := by rw [hort']; noncomm_ring
  rw [hpow, Matrix.mul_assoc]
  show _ = star (V 0) ⬝ᵥ (fun x => (H ^ m * W) x ⟨0, hn⟩)
  rw [hV0]
  congr 1
  funext x
  rw [mul_apply]
  simp only [hW, krylovMat, hV0]
  rfl

section
variable {n : ℕ} {op : Op ℕ ℂ} (hop : OpInSystem n op) (hdict : Dict.NodupKeys op) (hh : isHermitianOp op) {cut : ℝ}
  (hcut : 0 < cut) (r : Option Restrictions) {psi : Psi ℂ} (hpsi : IsState n psi)
  (hall : ∀ S ⊆ range n, encBytes n S ∈ Dict.keys psi → AllowedOpt r S) (hnorm : norm2 psi = (1 : ℝ))

include hop hdict hh hcut hpsi hall hnorm in
theorem getGreen_moments {krylovSize fuel : ℕ} (hf : 2 ^ n + 2 ≤ fuel) {e₀ delta₀ : ℝ} {omega₀ : List ℝ} {hDict : OpResult ℂ}
    (hd : ColumnsExact n op cut r hDict) {x : List ℂ × OpResult ℂ}
    (h : getGreen n e₀ psi op omega₀ delta₀ krylovSize cut r hDict fuel = .ok x) :
    ∃ L : List (ℝ × ℝ), IsGauss n (hamiltonian n op cut r) (ampl n psi) krylovSize L ∧
      ∀ (e : ℝ) (omega : List ℝ) (delta : ℝ), delta ≠ 0 → getGreen n e psi op omega delta krylovSize cut r hDict fuel
        = .ok (omega.map fun (w : ℝ) => lehmann L ((w : ℂ) + Complex.I * (delta : ℂ) + (e : ℂ)), x.2) := by
  obtain ⟨states, d, hlen, M, v, hnd, -, hherm, hvn, -, -, hmom, hs, hv, hM, hser⟩ :=
    getGreen_matrix_full hop hdict hh hcut r hpsi (norm_one_ne_nil hnorm) hall hnorm hf krylovSize
  obtain ⟨h', -, hx⟩ := hser hDict hd
  rw [hx] at h
  cases hkr : tridiagonalKrylov M v (min krylovSize d) with
  | error err => rw [hkr] at h; cases h
  | ok ab =>
    rw [hkr] at h
    simp only [ok_bind] at h
    have hm : min (min krylovSize d) d = min krylovSize d := by omega
    obtain ⟨hk, ha, hb⟩ := tridiagonalKrylov_length hkr
    rw [hm] at hk ha hb
    obtain ⟨L, l0, l1, l2, l4⟩ := fraction_moments hk ha hb
    refine ⟨L, ⟨by omega, l1, fun m hmm => ?_⟩, fun e omega delta hdel => ?_⟩
    · rw [l2, hmom]
      have e : ∀ (k k' : ℕ) (_ : k' = k) (h0 : 0 < k) (h0' : 0 < k'),
          (tridiagonal ab.1 ab.2 k' ^ m) ⟨0, h0'⟩ ⟨0, h0'⟩ = (tridiagonal ab.1 ab.2 k ^ m) ⟨0, h0⟩ ⟨0, h0⟩ := by
        rintro _ _ rfl _ _
        rfl
      by_cases hdk : d ≤ krylovSize
      · rw [moments_whole hherm hvn (alpha := ab.1) (beta := ab.2) hkr (by omega) (by omega)]
        exact e _ _ (by omega) _ _
      · rw [C41_moments M hherm v hvn (min krylovSize d) ab.1 ab.2 hkr m (by omega)]
        exact e _ _ (by omega) _ _
    · rw [hx, hkr]
      simp only [ok_bind]
      rw [greenOnMesh_lehmann l4 omega hdel e]
      cases h4 : greenOnMesh ab.1 ab.2 (min krylovSize d) omega₀ delta₀ e₀ with
      | error err => rw [h4] at h; cases h
      | ok g => rw [h4] at h; cases h; rfl

end

/-- The hamiltonian acts linearly. -/
theorem hamiltonian_iter_smul (n : ℕ) (op : Op ℕ ℂ) (cut : ℝ) (r : Option Restrictions) (c : ℂ) (v : Vec ℂ) (m : ℕ) :
    (hamiltonian n op cut r)^[m] (fun S => c * v S) = fun S => c * (hamiltonian n op cut r)^[m] v S := by
  induction m with
  | zero => rfl
  | succ m ih =>
    rw [Function.iterate_succ_apply', ih, Function.iterate_succ_apply']
    funext S
    unfold hamiltonian
    split
    · rw [mul_sum]
      exact sum_congr rfl fun T _ => by ring
    · rw [mul_zero]

theorem iter_zero {n : ℕ} {op : Op ℕ ℂ} {cut : ℝ} {r : Option Restrictions} (v : Vec ℂ) (hv : ∀ S, v S = 0) (m : ℕ) :
    innerProduct n v ((hamiltonian n op cut r)^[m] v) = 0 := by
  unfold innerProduct
  exact sum_eq_zero fun S _ => by rw [hv S, star_zero, zero_mul]

theorem spectrumOf_moments {A : SpectraArgs} (hA : A.Valid) (hdict : Dict.NodupKeys A.hOp) (hh : isHermitianOp A.hOp)
    {psiR : Psi ℂ} (hE : Excited A.n A.slaterWeightMin A.restrictions psiR) {w₀ : List ℝ} {delta₀ e₀ : ℝ} (hd₀ : delta₀ ≠ 0)
    {g₀ : List ℂ} (hg₀ : spectrumOf (A.on w₀ delta₀) psiR e₀ = .ok g₀) :
    ∃ L : List (ℝ × ℝ), IsGauss A.n (hamiltonian A.n A.hOp A.cut A.restrictions) (ampl A.n psiR) A.krylovSize L ∧
      ∀ (w : List ℝ) (delta e : ℝ), delta ≠ 0 → ∀ g, spectrumOf (A.on w delta) psiR e = .ok g →
        g = w.map fun (x : ℝ) => lehmann L ((x : ℂ) + Complex.I * (delta : ℂ) + (e : ℂ)) := by
  by_cases hnil : psiR = []
  · subst hnil
    refine ⟨[], ⟨by simp, by simp, fun m _ => ?_⟩, fun w delta e hd g hg => ?_⟩
    · rw [iter_zero _ (fun S => by unfold ampl; split <;> simp)]
      simp [momentOf]
    unfold spectrumOf at hg
    have h0 : getGreen (A.on w delta).n e (unit []) (A.on w delta).hOp (A.on w delta).w (A.on w delta).delta
        (A.on w delta).krylovSize (A.on w delta).cut (A.on w delta).restrictions [] (A.on w delta).fuel
        = .ok (List.replicate w.length 0, []) := rfl
    rw [h0] at hg
    simp only [ok_bind, pure_ok] at hg
    cases hg
    unfold scaleSpectrum lehmann
    simp [List.map_const']
  · have hp := hE.norm_pos hA.weight hnil
    have hs0 : ((Real.sqrt (norm2 psiR) : ℝ) : ℂ) ≠ 0 := by
      rw [Ne, Complex.ofReal_eq_zero]; exact Real.sqrt_ne_zero'.2 hp
    have hu : ampl A.n psiR = fun S => ((Real.sqrt (norm2 psiR) : ℝ) : ℂ) * ampl A.n (unit psiR) S := by
      funext S; rw [ampl_unit]; field_simp
    unfold spectrumOf at hg₀
    obtain ⟨x, hx, -⟩ := bind_ok hg₀
    obtain ⟨L, ⟨l0, l1, l2⟩, l4⟩ := getGreen_moments hA.hop hdict hh hA.cut A.restrictions (isState_unit hE.state)
      (fun S hS hk => hE.allowed S hS (by rwa [keys_unit] at hk)) (norm2_unit hp) hA.fuel (columnsExact_nil ..) hx
    refine ⟨L.map fun p => (p.1, norm2 psiR * p.2), ⟨by rw [List.length_map]; exact l0, ?_, fun m hm => ?_⟩, ?_⟩
    · intro p hpm
      obtain ⟨q, hq, rfl⟩ := List.mem_map.1 hpm
      exact mul_nonneg hp.le (l1 q hq)
    · rw [momentOf_scale, hu, hamiltonian_iter_smul]
      have : ∀ a b : Vec ℂ, innerProduct A.n (fun S => ((Real.sqrt (norm2 psiR) : ℝ) : ℂ) * a S)
          (fun S => ((Real.sqrt (norm2 psiR) : ℝ) : ℂ) * b S) = ((norm2 psiR : ℝ) : ℂ) * innerProduct A.n a b := by
        intro a b
        unfold innerProduct
        rw [mul_sum]
        refine sum_congr rfl fun S _ => ?_
        rw [star_mul', Complex.star_def, Complex.conj_ofReal]
        have h2 : ((norm2 psiR : ℝ) : ℂ) = ((Real.sqrt (norm2 psiR) : ℝ) : ℂ) * ((Real.sqrt (norm2 psiR) : ℝ) : ℂ) := by
          rw [← Complex.ofReal_mul, Real.mul_self_sqrt hp.le]
        rw [h2]
        simp only [RCLike.star_def]
        ring
      rw [this, ← l2 m hm]
      push_cast
      rfl
    · intro w delta e hd g hg
      unfold spectrumOf at hg
      have := l4 e w delta hd
      have h1 : getGreen (A.on w delta).n e (unit psiR) (A.on w delta).hOp (A.on w delta).w (A.on w delta).delta
          (A.on w delta).krylovSize (A.on w delta).cut (A.on w delta).restrictions [] (A.on w delta).fuel = _ := this
      rw [h1] at hg
      simp only [ok_bind, pure_ok] at hg
      cases hg
      unfold scaleSpectrum
      rw [List.map_map]
      refine List.map_congr_left fun y _ => ?_
      rw [lehmann_scale, Function.comp_apply, Real.sq_sqrt hp.le]

end

end Verif
