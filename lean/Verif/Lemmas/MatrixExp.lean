/-
Exponentials of matrices: intertwiners, tensor products and unitarity.
-/
import Mathlib.Analysis.Normed.Algebra.MatrixExponential
import Mathlib.LinearAlgebra.Matrix.Kronecker
import Mathlib.Analysis.SpecialFunctions.Exponential
import Mathlib.Topology.Instances.Matrix

namespace Verif

open Matrix NormedSpace

noncomputable section

section
variable {m k κ : Type} [Fintype m] [DecidableEq m] [Fintype k] [DecidableEq k] [Fintype κ] [DecidableEq κ]

open scoped Matrix.Norms.Operator in
theorem exp_hasSum (A : Matrix m m ℂ) : HasSum (fun n : ℕ => ((n.factorial : ℂ)⁻¹) • A ^ n) (exp A) :=
  exp_series_hasSum_exp' A

/-- A matrix that carries `B` to `A` carries the exponentials. -/
theorem exp_intertwine {A : Matrix m m ℂ} {B : Matrix k k ℂ} {C : Matrix m k ℂ} (h : A * C = C * B) :
    exp A * C = C * exp B := by
  have hp : ∀ n : ℕ, A ^ n * C = C * B ^ n := by
    intro n
    induction n with
    | zero => rw [pow_zero, pow_zero, Matrix.one_mul, Matrix.mul_one]
    | succ n ih => rw [pow_succ, pow_succ, Matrix.mul_assoc, h, ← Matrix.mul_assoc, ih, Matrix.mul_assoc]
  have h1 : HasSum (fun n : ℕ => (((n.factorial : ℂ)⁻¹) • A ^ n) * C) (exp A * C) :=
    (exp_hasSum A).map (AddMonoidHom.mk' (fun X : Matrix m m ℂ => X * C) fun X Y => Matrix.add_mul X Y C)
      (continuous_id.matrix_mul continuous_const)
  have h2 : HasSum (fun n : ℕ => C * (((n.factorial : ℂ)⁻¹) • B ^ n)) (C * exp B) :=
    (exp_hasSum B).map (AddMonoidHom.mk' (fun X : Matrix k k ℂ => C * X) fun X Y => Matrix.mul_add C X Y)
      (continuous_const.matrix_mul continuous_id)
  refine h1.unique ?_
  have e : (fun n : ℕ => (((n.factorial : ℂ)⁻¹) • A ^ n) * C) = fun n : ℕ => C * (((n.factorial : ℂ)⁻¹) • B ^ n) := by
    funext n
    rw [Matrix.smul_mul, hp, Matrix.mul_smul]
  rw [e]
  exact h2

open Kronecker

theorem exp_kronecker_one (A : Matrix m m ℂ) : exp (A ⊗ₖ (1 : Matrix k k ℂ)) = exp A ⊗ₖ (1 : Matrix k k ℂ) := by
  ext i j
  let C : k → Matrix (m × k) m ℂ := fun b => Matrix.of fun p a => if p.2 = b ∧ p.1 = a then 1 else 0
  have h := exp_intertwine (A := A ⊗ₖ (1 : Matrix k k ℂ)) (B := A) (C := C j.2) (by
    ext p a
    rw [Matrix.mul_apply, Matrix.mul_apply]
    simp only [C, Matrix.of_apply, kroneckerMap_apply, Fintype.sum_prod_type, Matrix.one_apply, ite_and, mul_ite, ite_mul, mul_one,
      mul_zero, zero_mul, one_mul, Finset.sum_ite_eq', Finset.mem_univ, if_true]
    by_cases hp : p.2 = j.2 <;> simp [hp])
  have := congrFun (congrFun h i) j.1
  rw [Matrix.mul_apply, Matrix.mul_apply] at this
  simp only [C, Matrix.of_apply, Fintype.sum_prod_type, ite_and, mul_ite, ite_mul, mul_one, mul_zero, zero_mul, one_mul,
    Finset.sum_ite_eq', Finset.mem_univ, if_true] at this
  rw [kroneckerMap_apply, Matrix.one_apply]
  by_cases hp : i.2 = j.2
  · simp [hp] at this ⊢
    exact this
  · simp [hp] at this ⊢
    exact this

theorem exp_one_kronecker (A : Matrix m m ℂ) : exp ((1 : Matrix k k ℂ) ⊗ₖ A) = (1 : Matrix k k ℂ) ⊗ₖ exp A := by
  ext i j
  let C : k → Matrix (k × m) m ℂ := fun b => Matrix.of fun p a => if p.1 = b ∧ p.2 = a then 1 else 0
  have h := exp_intertwine (A := (1 : Matrix k k ℂ) ⊗ₖ A) (B := A) (C := C j.1) (by
    ext p a
    rw [Matrix.mul_apply, Matrix.mul_apply]
    simp only [C, Matrix.of_apply, kroneckerMap_apply, Fintype.sum_prod_type, Matrix.one_apply, ite_and, mul_ite, ite_mul, mul_one, mul_zero,
      zero_mul, one_mul]
    by_cases hp : p.1 = j.1 <;> simp [hp])
  have := congrFun (congrFun h i) j.2
  rw [Matrix.mul_apply, Matrix.mul_apply] at this
  simp only [C, Matrix.of_apply, Fintype.sum_prod_type, ite_and, mul_ite, ite_mul, mul_one, mul_zero, zero_mul, one_mul] at this
  rw [kroneckerMap_apply, Matrix.one_apply]
  by_cases hp : i.1 = j.1
  · simp [hp] at this ⊢
    exact this
  · simp [hp] at this ⊢
    exact this

/-- The exponential of a sum of operators of two particles. -/
theorem exp_pair (A : Matrix m m ℂ) (B : Matrix k k ℂ) :
    exp (A ⊗ₖ (1 : Matrix k k ℂ) + (1 : Matrix m m ℂ) ⊗ₖ B) = exp A ⊗ₖ exp B := by
  have hc : Commute (A ⊗ₖ (1 : Matrix k k ℂ)) ((1 : Matrix m m ℂ) ⊗ₖ B) := by
    unfold Commute SemiconjBy
    rw [← mul_kronecker_mul, ← mul_kronecker_mul, Matrix.mul_one, Matrix.one_mul, Matrix.mul_one, Matrix.one_mul]
  rw [Matrix.exp_add_of_commute _ _ hc, exp_kronecker_one, exp_one_kronecker, ← mul_kronecker_mul, Matrix.mul_one, Matrix.one_mul]

/-- A family of matrices that is mixed by the commutator is mixed by the exponential. -/
theorem exp_family {A : Matrix m m ℂ} {B : Matrix k k ℂ} {X : κ → Matrix m k ℂ} {g : Matrix κ κ ℂ}
    (h : ∀ a, A * X a = X a * B + ∑ b, g b a • X b) (a : κ) : exp A * X a = ∑ b, exp g b a • (X b * exp B) := by
  let C : Matrix m (κ × k) ℂ := Matrix.of fun i p => X p.1 i p.2
  have hC : A * C = C * (g ⊗ₖ (1 : Matrix k k ℂ) + (1 : Matrix κ κ ℂ) ⊗ₖ B) := by
    ext i p
    have h' := congrFun (congrFun (h p.1) i) p.2
    rw [Matrix.add_apply, Matrix.mul_apply, Matrix.mul_apply, Matrix.sum_apply] at h'
    rw [Matrix.mul_apply]
    refine h'.trans ?_
    rw [Matrix.mul_add, Matrix.add_apply, Matrix.mul_apply, Matrix.mul_apply, add_comm]
    simp only [C, Matrix.of_apply, kroneckerMap_apply, Fintype.sum_prod_type, Matrix.one_apply, Matrix.smul_apply, smul_eq_mul, ite_mul, mul_ite,
      mul_one, one_mul, mul_zero, zero_mul, Finset.sum_ite_eq', Finset.mem_univ, if_true]
    congr 1
    · exact Finset.sum_congr rfl fun b _ => mul_comm _ _
    · rw [Finset.sum_comm]
      exact Finset.sum_congr rfl fun j _ => by rw [Finset.sum_ite_eq', if_pos (Finset.mem_univ _)]
  have h1 := exp_intertwine hC
  rw [exp_pair] at h1
  ext i j
  have h2 := congrFun (congrFun h1 i) (a, j)
  rw [Matrix.mul_apply, Matrix.mul_apply] at h2
  rw [Matrix.mul_apply, Matrix.sum_apply]
  refine h2.trans ?_
  simp only [C, Matrix.of_apply, kroneckerMap_apply, Fintype.sum_prod_type, Matrix.smul_apply, Matrix.mul_apply, smul_eq_mul, Finset.mul_sum]
  exact Finset.sum_congr rfl fun b _ => Finset.sum_congr rfl fun k _ => by ring

/-- The exponential of a skew-Hermitian matrix is unitary. -/
theorem exp_unitary {A : Matrix m m ℂ} (h : Aᴴ = -A) : (exp A)ᴴ * exp A = 1 ∧ exp A * (exp A)ᴴ = 1 := by
  have e : (exp A)ᴴ = exp (-A) := by rw [← Matrix.exp_conjTranspose, h]
  rw [e]
  have c : Commute (-A) A := (Commute.refl A).neg_left
  constructor
  · rw [← Matrix.exp_add_of_commute _ _ c, neg_add_cancel, exp_zero]
  · rw [← Matrix.exp_add_of_commute _ _ c.symm, add_neg_cancel, exp_zero]

/-- The exponential on an eigenvector. -/
theorem exp_eigen {A : Matrix m m ℂ} {x : m → ℂ} {c : ℂ} (h : A *ᵥ x = c • x) : exp A *ᵥ x = Complex.exp c • x := by
  have h1 := exp_intertwine (A := A) (B := diagonal fun _ : Unit => c) (C := Matrix.of fun i _ => x i) (by
    ext i j
    rw [Matrix.mul_diagonal, Matrix.mul_apply]
    have := congrFun h i
    rw [Matrix.mulVec, dotProduct, Pi.smul_apply, smul_eq_mul] at this
    exact this.trans (mul_comm _ _))
  rw [Matrix.exp_diagonal] at h1
  funext i
  have h2 := congrFun (congrFun h1 i) ()
  rw [Matrix.mul_diagonal, Matrix.mul_apply] at h2
  rw [Pi.smul_apply, smul_eq_mul, Complex.exp_eq_exp_ℂ]
  refine h2.trans ((mul_comm _ _).trans ?_)
  rw [Pi.coe_exp, Matrix.of_apply]

end

end

end Verif
