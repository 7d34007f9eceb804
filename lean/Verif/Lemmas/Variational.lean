/-
The min-max principle for the lowest eigenvalues of a symmetric operator, and for nested
spaces of product states.
-/
import Verif.Spec.Main
import Mathlib.Analysis.InnerProductSpace.PiL2
import Mathlib.Analysis.InnerProductSpace.Orthonormal
import Mathlib.LinearAlgebra.FiniteDimensional.Lemmas

namespace Verif

open Finset ComplexConjugate

local notation "⟪" x ", " y "⟫" => Inner.inner ℂ x y

section
variable {E : Type} [NormedAddCommGroup E] [InnerProductSpace ℂ E] {T : E →ₗ[ℂ] E}

theorem orthonormal_normSq {k : ℕ} {u : Fin k → E} (hu : Orthonormal ℂ u) (a : Fin k → ℂ) :
    ‖∑ v, a v • u v‖ ^ 2 = ∑ v, ‖a v‖ ^ 2 := by
  have h := hu.inner_sum a a univ
  rw [← inner_self_eq_norm_sq (𝕜 := ℂ), h, map_sum]
  refine Finset.sum_congr rfl fun v _ => ?_
  rw [Complex.conj_mul', ← Complex.ofReal_pow]
  rfl

theorem form_sum {k : ℕ} {u : Fin k → E} {e : Fin k → ℝ} (hT : ∀ v w, ⟪u v, T (u w)⟫ = if v = w then (e w : ℂ) else 0)
    (a : Fin k → ℂ) : ⟪∑ v, a v • u v, T (∑ v, a v • u v)⟫ = ((∑ v, e v * ‖a v‖ ^ 2 : ℝ) : ℂ) := by
  rw [map_sum, sum_inner, Complex.ofReal_sum]
  refine Finset.sum_congr rfl fun v _ => ?_
  rw [inner_sum, Finset.sum_eq_single v]
  · rw [map_smul, inner_smul_left, inner_smul_right, hT, if_pos rfl, ← mul_assoc, Complex.conj_mul', mul_comm]
    push_cast
    rfl
  · intro w _ hw
    rw [map_smul, inner_smul_left, inner_smul_right, hT, if_neg hw.symm]
    simp
  · simp

/-- What is orthogonal to the eigenvectors below `i` has at least the energy `e i`. -/
theorem lower_bound (hsym : T.IsSymmetric) {k : ℕ} {x : Fin k → E} {e : Fin k → ℝ} (hx : Orthonormal ℂ x)
    (hT : ∀ v, T (x v) = (e v : ℂ) • x v) (hmono : Monotone e)
    (hlow : ∀ z, (∀ v, ⟪x v, z⟫ = 0) → ∀ v, e v * ‖z‖ ^ 2 ≤ (⟪z, T z⟫).re) (i : Fin k) (y : E)
    (hy : ∀ w < i, ⟪x w, y⟫ = 0) : e i * ‖y‖ ^ 2 ≤ (⟪y, T y⟫).re := by
  set c : Fin k → ℂ := fun v => ⟪x v, y⟫ with hc
  set p : E := ∑ v, c v • x v with hp
  set z : E := y - p with hz
  have hxz : ∀ v, ⟪x v, z⟫ = 0 := by
    intro v
    rw [hz, inner_sub_right, hp, hx.inner_right_fintype, sub_self]
  have hpz : ⟪p, z⟫ = 0 := by
    rw [hp, sum_inner]
    exact Finset.sum_eq_zero fun v _ => by rw [inner_smul_left, hxz, mul_zero]
  have hTp : T p = ∑ v, (c v * e v) • x v := by
    rw [hp, map_sum]
    exact Finset.sum_congr rfl fun v _ => by rw [map_smul, hT, smul_smul]
  have hzTp : ⟪z, T p⟫ = 0 := by
    rw [hTp, inner_sum]
    refine Finset.sum_eq_zero fun v _ => ?_
    rw [inner_smul_right, ← inner_conj_symm, hxz, map_zero, mul_zero]
  have hpTz : ⟪p, T z⟫ = 0 := by
    rw [← hsym p z, ← inner_conj_symm, hzTp, map_zero]
  have hxT : ∀ v w, ⟪x v, T (x w)⟫ = if v = w then (e w : ℂ) else 0 := by
    intro v w
    rw [hT, inner_smul_right, orthonormal_iff_ite.1 hx]
    split <;> simp
  have hpp := form_sum hxT c
  have hy' : y = p + z := by rw [hz]; abel
  have hE : (⟪y, T y⟫).re = (∑ v, e v * ‖c v‖ ^ 2) + (⟪z, T z⟫).re := by
    rw [hy', map_add, inner_add_left, inner_add_right, inner_add_right, hpTz, hzTp, hpp]
    simp only [add_zero, zero_add, Complex.add_re, Complex.ofReal_re]
  have hN : ‖y‖ ^ 2 = (∑ v, ‖c v‖ ^ 2) + ‖z‖ ^ 2 := by
    rw [hy', sq, norm_add_sq_eq_norm_sq_add_norm_sq_of_inner_eq_zero _ _ hpz, ← sq, ← sq, hp, orthonormal_normSq hx]
  rw [hE, hN, mul_add]
  refine add_le_add ?_ (hlow z hxz i)
  rw [Finset.mul_sum]
  refine Finset.sum_le_sum fun v _ => ?_
  rcases lt_or_ge v i with h | h
  · rw [hc]
    dsimp only
    rw [hy v h]
    simp
  · exact mul_le_mul_of_nonneg_right (hmono h) (sq_nonneg _)

/-- Orthonormal vectors on which the operator is diagonal with values at most `E` bound the eigenvalues from above. -/
theorem minmax (hsym : T.IsSymmetric) {k : ℕ} {x : Fin k → E} {e : Fin k → ℝ} (hx : Orthonormal ℂ x)
    (hT : ∀ v, T (x v) = (e v : ℂ) • x v) (hmono : Monotone e)
    (hlow : ∀ z, (∀ v, ⟪x v, z⟫ = 0) → ∀ v, e v * ‖z‖ ^ 2 ≤ (⟪z, T z⟫).re) (i : Fin k)
    {u : Fin (i.val + 1) → E} (hu : Orthonormal ℂ u) {d : Fin (i.val + 1) → ℝ}
    (hd : ∀ v w, ⟪u v, T (u w)⟫ = if v = w then (d w : ℂ) else 0) {B : ℝ} (hB : ∀ v, d v ≤ B) : e i ≤ B := by
  let f : (Fin (i.val + 1) → ℂ) →ₗ[ℂ] (Fin i.val → ℂ) :=
    LinearMap.pi fun w => (innerSL ℂ (x ⟨w.val, w.isLt.trans i.isLt⟩)).toLinearMap.comp
      (Fintype.linearCombination ℂ u)
  have hker : LinearMap.ker f ≠ ⊥ := by
    refine LinearMap.ker_ne_bot_of_finrank_lt ?_
    simp
  obtain ⟨a, ha, hne⟩ := (Submodule.ne_bot_iff _).1 hker
  set y : E := ∑ v, a v • u v with hy
  have hortho : ∀ w < i, ⟪x w, y⟫ = 0 := by
    intro w hw
    have := congrFun (LinearMap.mem_ker.1 ha) ⟨w.val, hw⟩
    simpa [f, Fintype.linearCombination_apply, hy] using this
  have h1 := lower_bound hsym hx hT hmono hlow i y hortho
  have h2 : (⟪y, T y⟫).re = ∑ v, d v * ‖a v‖ ^ 2 := by
    rw [hy, form_sum hd, Complex.ofReal_re]
  have h3 : ‖y‖ ^ 2 = ∑ v, ‖a v‖ ^ 2 := orthonormal_normSq hu a
  have hpos : 0 < ‖y‖ ^ 2 := by
    rw [h3]
    obtain ⟨v, hv⟩ := Function.ne_iff.1 hne
    refine Finset.sum_pos' (fun v _ => sq_nonneg _) ⟨v, mem_univ _, ?_⟩
    have : 0 < ‖a v‖ := norm_pos_iff.2 hv
    exact pow_pos this 2
  have h4 : ∑ v, d v * ‖a v‖ ^ 2 ≤ B * ‖y‖ ^ 2 := by
    rw [h3, Finset.mul_sum]
    exact Finset.sum_le_sum fun v _ => mul_le_mul_of_nonneg_right (hB v) (sq_nonneg _)
  rw [h2] at h1
  exact le_of_mul_le_mul_right (h1.trans h4) hpos

end

/-! ### Product states -/

section
variable {s : Finset (Finset ℕ)} {h : Finset ℕ → Finset ℕ → ℂ}

/-- The vector of the amplitudes in `s`. -/
noncomputable def onStates (s : Finset (Finset ℕ)) (y : Finset ℕ → ℂ) : EuclideanSpace ℂ s := WithLp.toLp 2 fun S => y S.1

/-- The operator with the matrix elements `h` in `s`. -/
noncomputable def matrixOn (s : Finset (Finset ℕ)) (h : Finset ℕ → Finset ℕ → ℂ) :
    EuclideanSpace ℂ s →ₗ[ℂ] EuclideanSpace ℂ s :=
  Matrix.toEuclideanLin (Matrix.of fun S T : s => h S.1 T.1)

theorem matrixOn_apply (y : Finset ℕ → ℂ) : matrixOn s h (onStates s y) = onStates s fun S => ∑ T ∈ s, h S T * y T := by
  unfold matrixOn onStates
  apply PiLp.ext
  intro S
  simp only [Matrix.toLpLin_apply, Matrix.mulVec, dotProduct, Matrix.of_apply]
  exact Finset.sum_coe_sort s fun T => h S.1 T * y T

theorem inner_onStates (x y : Finset ℕ → ℂ) : ⟪onStates s x, onStates s y⟫ = ∑ S ∈ s, star (x S) * y S := by
  rw [PiLp.inner_apply, ← Finset.sum_coe_sort s]
  refine Finset.sum_congr rfl fun S _ => ?_
  rw [RCLike.inner_apply, mul_comm]
  rfl

theorem norm_onStates (y : Finset ℕ → ℂ) : ‖onStates s y‖ ^ 2 = ∑ S ∈ s, Complex.normSq (y S) := by
  rw [EuclideanSpace.norm_sq_eq, ← Finset.sum_coe_sort s]
  exact Finset.sum_congr rfl fun S _ => (Complex.normSq_eq_norm_sq _).symm

theorem onStates_surj (z : EuclideanSpace ℂ s) : ∃ y, z = onStates s y := by
  classical
  refine ⟨fun S => if hS : S ∈ s then z ⟨S, hS⟩ else 0, ?_⟩
  apply PiLp.ext
  intro S
  simp [onStates]

theorem matrixOn_symmetric (hh : ∀ S ∈ s, ∀ T ∈ s, h S T = star (h T S)) : (matrixOn s h).IsSymmetric := by
  intro x y
  obtain ⟨x, rfl⟩ := onStates_surj x
  obtain ⟨y, rfl⟩ := onStates_surj y
  rw [matrixOn_apply, matrixOn_apply, inner_onStates, inner_onStates]
  simp only [star_sum, Finset.mul_sum, Finset.sum_mul]
  rw [Finset.sum_comm]
  refine Finset.sum_congr rfl fun S hS => Finset.sum_congr rfl fun T hT => ?_
  rw [hh S hS T hT, star_mul]
  ring

theorem form_onStates (y : Finset ℕ → ℂ) :
    ⟪onStates s y, matrixOn s h (onStates s y)⟫ = ∑ S ∈ s, ∑ T ∈ s, star (y S) * h S T * y T := by
  rw [matrixOn_apply, inner_onStates]
  refine Finset.sum_congr rfl fun S _ => ?_
  rw [Finset.mul_sum]
  exact Finset.sum_congr rfl fun T _ => by ring

end

open Spec

/-- Eigenvalues and -vectors in the space of `s`. -/
structure LowestIn (s : Finset (Finset ℕ)) (h : Finset ℕ → Finset ℕ → ℂ) (es : List ℝ) (x : ℕ → Finset ℕ → ℂ) : Prop where
  asc : es.Pairwise (· ≤ ·)
  ortho : ∀ v < es.length, ∀ w < es.length, ∑ S ∈ s, star (x v S) * x w S = if v = w then 1 else 0
  eigen : ∀ v (hv : v < es.length), ∀ S ∈ s, ∑ T ∈ s, h S T * x v T = es[v] * x v S
  low : ∀ y : Finset ℕ → ℂ, (∀ v < es.length, ∑ S ∈ s, star (x v S) * y S = 0) → ∀ v (hv : v < es.length),
      es[v] * ∑ S ∈ s, Complex.normSq (y S) ≤ (∑ S ∈ s, ∑ T ∈ s, star (y S) * h S T * y T).re

section
variable {s : Finset (Finset ℕ)} {h : Finset ℕ → Finset ℕ → ℂ} {es : List ℝ} {x : ℕ → Finset ℕ → ℂ} (H : LowestIn s h es x)

include H

theorem LowestIn.orthonormal : Orthonormal ℂ fun v : Fin es.length => onStates s (x v.val) := by
  rw [orthonormal_iff_ite]
  intro v w
  rw [inner_onStates, H.ortho v v.isLt w w.isLt]
  simp only [Fin.ext_iff]

theorem LowestIn.map (v : Fin es.length) :
    matrixOn s h (onStates s (x v.val)) = ((es[v.val] : ℝ) : ℂ) • onStates s (x v.val) := by
  rw [matrixOn_apply]
  apply PiLp.ext
  intro S
  exact H.eigen v v.isLt S.1 S.2

theorem LowestIn.mono : Monotone fun v : Fin es.length => es[v.val] := by
  intro v w hvw
  rcases hvw.lt_or_eq with h | h
  · exact List.pairwise_iff_getElem.1 H.asc _ _ _ _ h
  · rw [h]

theorem LowestIn.lowest (z : EuclideanSpace ℂ s) (hz : ∀ v : Fin es.length, ⟪onStates s (x v.val), z⟫ = 0)
    (v : Fin es.length) : es[v.val] * ‖z‖ ^ 2 ≤ (⟪z, matrixOn s h z⟫).re := by
  obtain ⟨y, rfl⟩ := onStates_surj z
  rw [norm_onStates, form_onStates]
  exact H.low y (fun w hw => by rw [← inner_onStates]; exact hz ⟨w, hw⟩) v v.isLt

/-- The variational principle: no state has a lower energy than the lowest eigenvalue. -/
theorem LowestIn.variational (hh : ∀ S ∈ s, ∀ T ∈ s, h S T = star (h T S)) (h0 : 0 < es.length) (y : Finset ℕ → ℂ) :
    es[0] * ∑ S ∈ s, Complex.normSq (y S) ≤ (∑ S ∈ s, ∑ T ∈ s, star (y S) * h S T * y T).re := by
  have := lower_bound (matrixOn_symmetric hh) H.orthonormal H.map H.mono H.lowest ⟨0, h0⟩ (onStates s y)
    (fun w hw => absurd hw (by simp [Fin.lt_def]))
  rwa [norm_onStates, form_onStates] at this

/-- In a larger space no eigenvalue is larger. -/
theorem LowestIn.antitone {s' : Finset (Finset ℕ)} {es' : List ℝ} {x' : ℕ → Finset ℕ → ℂ} (H' : LowestIn s' h es' x')
    (hsub : s ⊆ s') (hh : ∀ S ∈ s', ∀ T ∈ s', h S T = star (h T S)) (i : ℕ) (hi : i < es.length) (hi' : i < es'.length) :
    es'[i] ≤ es[i] := by
  classical
  let u : Fin (i + 1) → Finset ℕ → ℂ := fun v S => if S ∈ s then x v.val S else 0
  have hlt : ∀ v : Fin (i + 1), v.val < es.length := fun v => lt_of_le_of_lt (Nat.lt_succ_iff.1 v.isLt) hi
  have hred : ∀ (v : Fin (i + 1)) (f : Finset ℕ → ℂ), ∑ S ∈ s', star (u v S) * f S = ∑ S ∈ s, star (x v.val S) * f S := by
    intro v f
    rw [← Finset.sum_subset hsub]
    · exact Finset.sum_congr rfl fun S hS => by simp only [u, if_pos hS]
    · intro S _ hS
      simp only [u, if_neg hS, star_zero, zero_mul]
  refine minmax (matrixOn_symmetric hh) H'.orthonormal H'.map H'.mono H'.lowest ⟨i, hi'⟩
    (u := fun v => onStates s' (u v)) (d := fun v => es[v.val]'(hlt v)) ?_ ?_ ?_
  · rw [orthonormal_iff_ite]
    intro v w
    rw [inner_onStates, hred]
    have := H.ortho v (hlt v) w (hlt w)
    simp only [Fin.ext_iff]
    rw [← this]
    exact Finset.sum_congr rfl fun S hS => by simp only [u, if_pos hS]
  · intro v w
    rw [matrixOn_apply, inner_onStates, hred]
    have h1 : ∀ S ∈ s, ∑ T ∈ s', h S T * u w T = es[w.val]'(hlt w) * x w.val S := by
      intro S hS
      rw [← H.eigen w (hlt w) S hS, ← Finset.sum_subset hsub]
      · exact Finset.sum_congr rfl fun T hT => by simp only [u, if_pos hT]
      · intro T _ hT
        simp only [u, if_neg hT, mul_zero]
    have h2 := H.ortho v (hlt v) w (hlt w)
    rw [Finset.sum_congr rfl fun S hS => by rw [h1 S hS, mul_left_comm], ← Finset.mul_sum, h2]
    simp only [Fin.ext_iff]
    split <;> simp
  · intro v
    rcases (Nat.lt_succ_iff.1 v.isLt).lt_or_eq with h | h
    · exact List.pairwise_iff_getElem.1 H.asc _ _ _ _ h
    · simp only [h]; exact le_rfl

end

theorem lowestIn_of {n : ℕ} {op : Op ℕ ℂ} {cut weight : ℝ} {states : Finset (Finset ℕ)} {es : List ℝ} {psis : List (Psi ℂ)}
    (H : LowestStates n op cut weight states es psis) : ∃ x, LowestIn states (storedElement op cut) es x := by
  obtain ⟨h1, -, x, h2, h3, h4, -⟩ := H
  exact ⟨x, h1, h2, h3, h4⟩

end Verif
