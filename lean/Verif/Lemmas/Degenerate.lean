/-
Responses of superpositions of states, and superpositions of degenerate eigenvectors.
-/
import Verif.Lemmas.Variational
import Verif.Lemmas.Fock
import Verif.Lemmas.OneBodyAlg
import Verif.Spec.Degenerate

namespace Verif

open Finset Spec

section
variable {m : ℕ} {U : ℕ → ℕ → ℂ} {n : ℕ} {H : Vec ℂ → Vec ℂ}

/-- `∑_j U i j v_j`. -/
def mix (m : ℕ) (U : ℕ → ℕ → ℂ) (v : ℕ → Vec ℂ) (i : ℕ) : Vec ℂ := fun F => ∑ j ∈ range m, U i j * v j F

theorem mix_eq (v : ℕ → Vec ℂ) (i : ℕ) : mix m U v i = ∑ j ∈ range m, U i j • v j := by
  funext F
  simp [mix]

theorem linear_mix {T : Vec ℂ → Vec ℂ} (hT : IsLinearMap ℂ T) (v : ℕ → Vec ℂ) (i : ℕ) :
    T (mix m U v i) = mix m U (fun j => T (v j)) i := by
  rw [mix_eq, mix_eq]
  exact (map_sum (IsLinearMap.mk' T hT) (fun j => U i j • v j) (range m)).trans
    (Finset.sum_congr rfl fun j _ => hT.map_smul _ _)

theorem mix_congr {v w : ℕ → Vec ℂ} {i : ℕ} (h : ∀ j < m, U i j ≠ 0 → v j = w j) : mix m U v i = mix m U w i := by
  funext F
  refine Finset.sum_congr rfl fun j hj => ?_
  by_cases hU : U i j = 0
  · rw [hU, zero_mul, zero_mul]
  · rw [h j (mem_range.1 hj) hU]

theorem innerProduct_mix (v w : ℕ → Vec ℂ) (i : ℕ) :
    innerProduct n (mix m U v i) (mix m U w i)
      = ∑ j ∈ range m, ∑ k ∈ range m, star (U i j) * U i k * innerProduct n (v j) (w k) := by
  unfold mix
  rw [innerProduct_sum_left]
  refine Finset.sum_congr rfl fun j _ => ?_
  rw [innerProduct_sum_right]
  refine Finset.sum_congr rfl fun k _ => ?_
  unfold innerProduct
  rw [Finset.mul_sum]
  refine Finset.sum_congr rfl fun F _ => ?_
  rw [star_mul]
  ring

/-- A sum of weighted products over all superpositions is that over the states. -/
theorem trace_mix (hU : ∀ j < m, ∀ k < m, ∑ i ∈ range m, star (U i j) * U i k = if j = k then 1 else 0)
    {wt : ℕ → ℂ} (hwt : ∀ i < m, ∀ j < m, U i j ≠ 0 → wt i = wt j) (v w : ℕ → Vec ℂ) :
    ∑ i ∈ range m, wt i * innerProduct n (mix m U v i) (mix m U w i) = ∑ j ∈ range m, wt j * innerProduct n (v j) (w j) := by
  have h1 : ∀ i ∈ range m, wt i * innerProduct n (mix m U v i) (mix m U w i)
      = ∑ j ∈ range m, ∑ k ∈ range m, star (U i j) * U i k * (wt j * innerProduct n (v j) (w k)) := by
    intro i hi
    rw [innerProduct_mix, Finset.mul_sum]
    refine Finset.sum_congr rfl fun j hj => ?_
    rw [Finset.mul_sum]
    refine Finset.sum_congr rfl fun k _ => ?_
    by_cases h0 : U i j = 0
    · rw [h0]; simp
    · rw [hwt i (mem_range.1 hi) j (mem_range.1 hj) h0]; ring
  rw [Finset.sum_congr rfl h1, Finset.sum_comm]
  refine Finset.sum_congr rfl fun j hj => ?_
  rw [Finset.sum_comm]
  have h2 : ∀ k ∈ range m, ∑ i ∈ range m, star (U i j) * U i k * (wt j * innerProduct n (v j) (w k))
      = (if j = k then 1 else 0) * (wt j * innerProduct n (v j) (w k)) := by
    intro k hk
    rw [← Finset.sum_mul, hU j (mem_range.1 hj) k (mem_range.1 hk)]
  rw [Finset.sum_congr rfl h2]
  simp only [ite_mul, one_mul, zero_mul]
  rw [Finset.sum_ite_eq, if_pos hj]

theorem solves_mix (hH : IsLinearMap ℂ H) {z : ℕ → ℂ} {b x : ℕ → Vec ℂ} {i : ℕ}
    (hz : ∀ j < m, U i j ≠ 0 → z i = z j) (hx : ∀ j < m, Solves n H (z j) (b j) (x j)) :
    Solves n H (z i) (mix m U b i) (mix m U x i) := by
  constructor
  · intro F hF
    rw [linear_mix hH]
    unfold mix
    rw [Finset.mul_sum, ← Finset.sum_sub_distrib]
    refine Finset.sum_congr rfl fun j hj => ?_
    rw [← (hx j (mem_range.1 hj)).inside F hF]
    by_cases h0 : U i j = 0
    · rw [h0]; ring
    · rw [hz j (mem_range.1 hj) h0]; ring
  · intro F hF
    refine Finset.sum_eq_zero fun j hj => ?_
    rw [(hx j (mem_range.1 hj)).outside F hF, mul_zero]

/-- The weighted sum of the responses of all states does not depend on the choice of the states. -/
theorem green_mix (hH : IsLinearMap ℂ H)
    (hU : ∀ j < m, ∀ k < m, ∑ i ∈ range m, star (U i j) * U i k = if j = k then 1 else 0)
    {wt z : ℕ → ℂ} (hwt : ∀ i < m, ∀ j < m, U i j ≠ 0 → wt i = wt j) (hz : ∀ i < m, ∀ j < m, U i j ≠ 0 → z i = z j)
    {b b' : ℕ → Vec ℂ} (hb : ∀ i < m, b' i = mix m U b i) {g g' : ℕ → ℂ}
    (hg : ∀ j < m, IsGreen n H (z j) (b j) (g j)) (hg' : ∀ j < m, IsGreen n H (z j) (b' j) (g' j)) :
    ∑ i ∈ range m, wt i * g' i = ∑ i ∈ range m, wt i * g i := by
  classical
  choose x hx using hg
  let y : ℕ → Vec ℂ := fun j => if h : j < m then x j h else 0
  have hy : ∀ j < m, Solves n H (z j) (b j) (y j) ∧ g j = innerProduct n (b j) (y j) := by
    intro j hj
    simp only [y, dif_pos hj]
    exact ⟨(hx j hj).1, (hx j hj).2.2⟩
  rw [← Finset.sum_congr rfl (fun j hj => by rw [(hy j (mem_range.1 hj)).2] : ∀ j ∈ range m,
    wt j * innerProduct n (b j) (y j) = wt j * g j), ← trace_mix hU hwt]
  refine Finset.sum_congr rfl fun i hi => ?_
  obtain ⟨x', -, hu, e⟩ := hg' i (mem_range.1 hi)
  have := hu (mix m U y i) (by
    rw [hb i (mem_range.1 hi)]
    exact solves_mix hH (hz i (mem_range.1 hi)) fun j hj => (hy j hj).1)
  rw [e, ← this, hb i (mem_range.1 hi)]

end

/-! ### Linear operators -/

theorem create_linear (x : ℕ) : IsLinearMap ℂ (create x : Vec ℂ → Vec ℂ) :=
  ⟨fun v w => ladder_add x true v w, fun c v => ladder_smul x true c v⟩

theorem annihilate_linear (x : ℕ) : IsLinearMap ℂ (annihilate x : Vec ℂ → Vec ℂ) :=
  ⟨fun v w => ladder_add x false v w, fun c v => ladder_smul x false c v⟩

theorem between_linear (f : Label → ℕ) (li lj : ℕ) (M : ℤ → ℤ → ℂ) : IsLinearMap ℂ (between f li lj M) := by
  constructor
  · intro v w
    funext F
    simp only [between, Pi.add_apply, ← Finset.sum_add_distrib]
    refine Finset.sum_congr rfl fun s _ => Finset.sum_congr rfl fun m _ => Finset.sum_congr rfl fun m' _ => ?_
    rw [(annihilate_linear _).map_add, (create_linear _).map_add, Pi.add_apply, mul_add]
  · intro c v
    funext F
    simp only [between, Pi.smul_apply, smul_eq_mul, Finset.mul_sum]
    refine Finset.sum_congr rfl fun s _ => Finset.sum_congr rfl fun m _ => Finset.sum_congr rfl fun m' _ => ?_
    rw [(annihilate_linear _).map_smul, (create_linear _).map_smul, Pi.smul_apply, smul_eq_mul]
    ring

theorem planeWaveDD_linear (S : SimulateArgs) (b : ℕ → ℕ) (q : ℝ) : IsLinearMap ℂ (planeWaveDD S b q) := by
  constructor
  · intro v w
    funext F
    simp only [planeWaveDD, Pi.add_apply]
    rw [(between_linear _ _ _ _).map_add, Pi.add_apply, mul_add]
  · intro c v
    funext F
    simp only [planeWaveDD, Pi.smul_apply, smul_eq_mul]
    rw [(between_linear _ _ _ _).map_smul, Pi.smul_apply, smul_eq_mul]
    ring

theorem hamiltonian_linear (n : ℕ) (op : Op ℕ ℂ) (cut : ℝ) (r : Option Restrictions) :
    IsLinearMap ℂ (hamiltonian n op cut r) := by
  constructor
  · intro v w
    funext F
    simp only [hamiltonian, Pi.add_apply]
    split
    · rw [← Finset.sum_add_distrib]
      exact Finset.sum_congr rfl fun T _ => by ring
    · simp
  · intro c v
    funext F
    simp only [hamiltonian, Pi.smul_apply, smul_eq_mul]
    split
    · rw [Finset.mul_sum]
      exact Finset.sum_congr rfl fun T _ => by ring
    · simp

/-- Without losses `T x` is linear in `x`. -/
theorem exciteVec_eq {S : SimulateArgs} {T : Vec ℂ → Vec ℂ} {x : Vec ℂ} (h : NothingLost S T x) :
    exciteVec S T x = fun F => if F ⊆ range (size S) ∧ AllowedOpt S.restrictions F then T x F else 0 := by
  funext F
  unfold exciteVec excited
  by_cases h1 : F ⊆ range (size S) ∧ AllowedOpt S.restrictions F
  · rw [if_pos h1]
    rcases h F h1.1 h1.2 with h0 | h0
    · rw [h0]; simp
    · rw [if_pos ⟨h1.1, h1.2, h0⟩]
  · rw [if_neg h1, if_neg fun h => h1 ⟨h.1, h.2.1⟩]

theorem exciteVec_mix {S : SimulateArgs} {T : Vec ℂ → Vec ℂ} (hT : IsLinearMap ℂ T) {m : ℕ} {U : ℕ → ℕ → ℂ} {v : ℕ → Vec ℂ}
    (hv : ∀ j < m, NothingLost S T (v j)) {i : ℕ} (hi : NothingLost S T (mix m U v i)) :
    exciteVec S T (mix m U v i) = mix m U (fun j => exciteVec S T (v j)) i := by
  rw [exciteVec_eq hi, linear_mix hT]
  funext F
  unfold mix
  by_cases h1 : F ⊆ range (size S) ∧ AllowedOpt S.restrictions F
  · rw [if_pos h1]
    refine Finset.sum_congr rfl fun j hj => ?_
    dsimp only
    rw [exciteVec_eq (hv j (mem_range.1 hj))]
    exact congrArg _ (if_pos h1).symm
  · rw [if_neg h1]
    refine (Finset.sum_eq_zero fun j hj => ?_).symm
    dsimp only
    rw [exciteVec_eq (hv j (mem_range.1 hj))]
    exact (congrArg _ (if_neg h1)).trans (mul_zero _)

/-! ### Degenerate eigenvectors -/

local notation "⟪" x ", " y "⟫" => Inner.inner ℂ x y

section
variable {E : Type} [NormedAddCommGroup E] [InnerProductSpace ℂ E] {T : E →ₗ[ℂ] E}

theorem inner_eigen (hsym : T.IsSymmetric) {x y : E} {e f : ℝ} (hx : T x = (e : ℂ) • x) (hy : T y = (f : ℂ) • y) (h : e ≠ f) :
    ⟪x, y⟫ = 0 := by
  have h1 := hsym x y
  rw [hx, hy, inner_smul_left, inner_smul_right, Complex.conj_ofReal] at h1
  have h2 : ((e : ℂ) - f) * ⟪x, y⟫ = 0 := by rw [sub_mul, h1, sub_self]
  rcases mul_eq_zero.1 h2 with h3 | h3
  · rw [sub_eq_zero] at h3
    exact absurd (Complex.ofReal_injective h3) h
  · exact h3

/-- An eigenvector of an energy below the last one is a superposition of the eigenvectors. -/
theorem eigen_expand (hsym : T.IsSymmetric) {k : ℕ} {x : Fin k → E} {e : Fin k → ℝ} (hx : Orthonormal ℂ x)
    (hT : ∀ v, T (x v) = (e v : ℂ) • x v)
    (hlow : ∀ z, (∀ v, ⟪x v, z⟫ = 0) → ∀ v, e v * ‖z‖ ^ 2 ≤ (⟪z, T z⟫).re) (l : Fin k) {y : E} {f : ℝ}
    (hy : T y = (f : ℂ) • y) (hf : f < e l) : y = ∑ j, ⟪x j, y⟫ • x j := by
  set c : Fin k → ℂ := fun v => ⟪x v, y⟫ with hc
  set p : E := ∑ v, c v • x v with hp
  set z : E := y - p with hz
  have hxz : ∀ v, ⟪x v, z⟫ = 0 := by
    intro v
    rw [hz, inner_sub_right, hp, hx.inner_right_fintype, sub_self]
  have hTp : T p = (f : ℂ) • p := by
    rw [hp, map_sum, Finset.smul_sum]
    refine Finset.sum_congr rfl fun v _ => ?_
    by_cases h : e v = f
    · rw [map_smul, hT, h, smul_comm]
    · rw [hc]
      dsimp only
      rw [inner_eigen hsym (hT v) hy h]
      simp
  have hTz : T z = (f : ℂ) • z := by rw [hz, map_sub, hy, hTp, smul_sub]
  have h1 := hlow z hxz l
  rw [hTz, inner_smul_right, inner_self_eq_norm_sq_to_K] at h1
  have h2 : (((f : ℂ) * ((‖z‖ : ℝ) : ℂ) ^ 2)).re = f * ‖z‖ ^ 2 := by
    rw [← Complex.ofReal_pow, ← Complex.ofReal_mul, Complex.ofReal_re]
  have h3 : e l * ‖z‖ ^ 2 ≤ f * ‖z‖ ^ 2 := h1.trans_eq h2
  have h4 : ‖z‖ ^ 2 = 0 := by
    by_contra hne
    have hpos : 0 < ‖z‖ ^ 2 := lt_of_le_of_ne (sq_nonneg _) (Ne.symm hne)
    exact absurd (le_of_mul_le_mul_right h3 hpos) (not_le.2 hf)
  have h5 : z = 0 := norm_eq_zero.1 (pow_eq_zero_iff two_ne_zero |>.1 h4)
  exact sub_eq_zero.1 h5

end

section
variable {s : Finset (Finset ℕ)} {h : Finset ℕ → Finset ℕ → ℂ} {es : List ℝ} {x x' : ℕ → Finset ℕ → ℂ}

theorem LowestIn.expand (H : LowestIn s h es x) (H' : LowestIn s h es x') (hh : ∀ S ∈ s, ∀ T ∈ s, h S T = star (h T S))
    {m : ℕ} (hm : m < es.length) (hlt : ∀ i (hi : i < m), es[i] < es[m]) {i : ℕ} (hi : i < m) :
    (∀ j (hj : j < es.length), es[j] ≠ es[i] → ∑ S ∈ s, star (x j S) * x' i S = 0) ∧
    ∀ F ∈ s, x' i F = ∑ j ∈ range m, (∑ S ∈ s, star (x j S) * x' i S) * x j F := by
  have hsym := matrixOn_symmetric hh
  have h0 : ∀ j (hj : j < es.length), es[j] ≠ es[i] → ∑ S ∈ s, star (x j S) * x' i S = 0 := by
    intro j hj hne
    rw [← inner_onStates]
    exact inner_eigen hsym (H.map ⟨j, hj⟩) (H'.map ⟨i, hi.trans hm⟩) hne
  refine ⟨h0, fun F hF => ?_⟩
  have h1 := eigen_expand hsym H.orthonormal H.map H.lowest ⟨m, hm⟩ (H'.map ⟨i, hi.trans hm⟩) (hlt i hi)
  have h2 := congrArg (fun v : EuclideanSpace ℂ s => v ⟨F, hF⟩) h1
  simp only [WithLp.ofLp_sum, WithLp.ofLp_smul, Finset.sum_apply, Pi.smul_apply, smul_eq_mul, inner_onStates] at h2
  have h3 : x' i F = ∑ j : Fin es.length, (∑ S ∈ s, star (x j.val S) * x' i S) * x j.val F := h2
  rw [h3, Fin.sum_univ_eq_sum_range (fun j => (∑ S ∈ s, star (x j S) * x' i S) * x j F)]
  symm
  refine Finset.sum_subset (Finset.range_subset_range.2 hm.le) fun j hj hj' => ?_
  rw [mem_range] at hj hj'
  have hle : es[m] ≤ es[j] := by
    rcases (not_lt.1 hj').lt_or_eq with h4 | h4
    · exact List.pairwise_iff_getElem.1 H.asc _ _ _ _ h4
    · simp only [h4]; exact le_rfl
  rw [h0 j hj (ne_of_gt ((hlt i hi).trans_le hle)), zero_mul]

/-- Two choices of eigenvectors, up to an energy that is not cut through, differ by a unitary matrix. -/
theorem LowestIn.unitary (H : LowestIn s h es x) (H' : LowestIn s h es x') (hh : ∀ S ∈ s, ∀ T ∈ s, h S T = star (h T S))
    {m : ℕ} (hm : m < es.length) (hlt : ∀ i (hi : i < m), es[i] < es[m]) :
    ∃ U : ℕ → ℕ → ℂ, (∀ j < m, ∀ k < m, ∑ i ∈ range m, star (U i j) * U i k = if j = k then 1 else 0) ∧
      (∀ i < m, ∀ j < m, es.getD i 0 ≠ es.getD j 0 → U i j = 0) ∧
      ∀ i < m, ∀ F ∈ s, x' i F = ∑ j ∈ range m, U i j * x j F := by
  refine ⟨fun i j => ∑ S ∈ s, star (x j S) * x' i S, ?_, ?_, fun i hi => (H.expand H' hh hm hlt hi).2⟩
  · intro j hj k hk
    have h1 := (H'.expand H hh hm hlt hj).2
    have h2 := H.ortho k (hk.trans hm) j (hj.trans hm)
    have h3 : ∑ S ∈ s, star (x k S) * x j S = ∑ i ∈ range m, star (∑ S ∈ s, star (x j S) * x' i S) * ∑ S ∈ s, star (x k S) * x' i S := by
      rw [Finset.sum_congr rfl fun S hS => by rw [h1 S hS, Finset.mul_sum], Finset.sum_comm]
      refine Finset.sum_congr rfl fun i _ => ?_
      rw [Finset.mul_sum]
      refine Finset.sum_congr rfl fun S _ => ?_
      rw [star_sum]
      simp only [star_mul, star_star]
      ring
    rw [← h3, h2]
    simp only [eq_comm]
  · intro i hi j hj hne
    rw [List.getD_eq_getElem _ _ (hi.trans hm), List.getD_eq_getElem _ _ (hj.trans hm)] at hne
    exact (H.expand H' hh hm hlt hi).1 j (hj.trans hm) (Ne.symm hne)

end

end Verif
