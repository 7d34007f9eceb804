/-
Rotations from their generators: the change of the one-electron states that belongs to an exponential.
-/
import Verif.Lemmas.MatrixExp
import Verif.Lemmas.ShellTurn

namespace Verif

open Finset Spec Matrix NormedSpace

noncomputable section

/-- The exponential of a matrix of one-electron states. -/
def expOrb (n : ℕ) (t : ℕ → ℕ → ℂ) : ℕ → ℕ → ℂ := fun i j =>
  if h : i < n ∧ j < n then exp (Matrix.of fun a b : Fin n => t a b) ⟨i, h.1⟩ ⟨j, h.2⟩ else 0

/-- The exponential of a matrix of a shell. -/
def expShell (M : ℕ → ℤ × ℤ → ℤ × ℤ → ℂ) (l : ℕ) : ℤ × ℤ → ℤ × ℤ → ℂ := fun x y =>
  if h : x ∈ shell l ∧ y ∈ shell l then exp (Matrix.of fun a b : {x // x ∈ shell l} => M l a b) ⟨x, h.1⟩ ⟨y, h.2⟩ else 0

theorem expOrb_apply {n : ℕ} (t : ℕ → ℕ → ℂ) (i j : Fin n) :
    expOrb n t i j = exp (Matrix.of fun a b : Fin n => t a b) i j := dif_pos ⟨i.2, j.2⟩

theorem expShell_apply (M : ℕ → ℤ × ℤ → ℤ × ℤ → ℂ) {l : ℕ} (x y : {x // x ∈ shell l}) :
    expShell M l x y = exp (Matrix.of fun a b : {x // x ∈ shell l} => M l a b) x y := dif_pos ⟨x.2, y.2⟩

theorem expOrb_unitary {n : ℕ} {t : ℕ → ℕ → ℂ} (h : ∀ i < n, ∀ j < n, star (t j i) = -t i j) : UnitaryOn n (expOrb n t) := by
  obtain ⟨h1, h2⟩ := exp_unitary (A := Matrix.of fun a b : Fin n => t a b) (by
    ext i j
    rw [conjTranspose_apply, Matrix.neg_apply, Matrix.of_apply, Matrix.of_apply]
    exact h i i.2 j j.2)
  refine ⟨fun j hj k hk => ?_, fun j hj k hk => ?_⟩
  · have := congrFun (congrFun h1 ⟨j, hj⟩) ⟨k, hk⟩
    rw [Matrix.mul_apply, Matrix.one_apply] at this
    rw [Finset.sum_range]
    refine Eq.trans (sum_congr rfl fun i _ => ?_) (this.trans (by simp only [Fin.mk.injEq]))
    rw [conjTranspose_apply, ← expOrb_apply, ← expOrb_apply]
  · have := congrFun (congrFun h2 ⟨j, hj⟩) ⟨k, hk⟩
    rw [Matrix.mul_apply, Matrix.one_apply] at this
    rw [Finset.sum_range]
    refine Eq.trans (sum_congr rfl fun i _ => ?_) (this.trans (by simp only [Fin.mk.injEq]))
    rw [conjTranspose_apply, ← expOrb_apply, ← expOrb_apply]

theorem expShell_unitary {M : ℕ → ℤ × ℤ → ℤ × ℤ → ℂ} {l : ℕ} (h : ∀ x ∈ shell l, ∀ y ∈ shell l, star (M l y x) = -M l x y) :
    (∀ x ∈ shell l, ∀ z ∈ shell l, ∑ y ∈ shell l, star (expShell M l y x) * expShell M l y z = if x = z then 1 else 0) ∧
    ∀ x ∈ shell l, ∀ z ∈ shell l, ∑ y ∈ shell l, expShell M l x y * star (expShell M l z y) = if x = z then 1 else 0 := by
  obtain ⟨h1, h2⟩ := exp_unitary (A := Matrix.of fun a b : {x // x ∈ shell l} => M l a b) (by
    ext i j
    rw [conjTranspose_apply, Matrix.neg_apply, Matrix.of_apply, Matrix.of_apply]
    exact h i i.2 j j.2)
  refine ⟨fun j hj k hk => ?_, fun j hj k hk => ?_⟩
  · have := congrFun (congrFun h1 ⟨j, hj⟩) ⟨k, hk⟩
    rw [Matrix.mul_apply, Matrix.one_apply] at this
    rw [← Finset.sum_coe_sort]
    refine Eq.trans (sum_congr rfl fun i _ => ?_) (this.trans (by simp only [Subtype.mk.injEq]))
    rw [conjTranspose_apply, ← expShell_apply, ← expShell_apply]
  · have := congrFun (congrFun h2 ⟨j, hj⟩) ⟨k, hk⟩
    rw [Matrix.mul_apply, Matrix.one_apply] at this
    rw [← Finset.sum_coe_sort]
    refine Eq.trans (sum_congr rfl fun i _ => ?_) (this.trans (by simp only [Subtype.mk.injEq]))
    rw [conjTranspose_apply, ← expShell_apply, ← expShell_apply]

/-- States that are not mixed by the matrix are not mixed by the exponential. -/
theorem expOrb_group {n : ℕ} {t : ℕ → ℕ → ℂ} {G : Finset ℕ} (h : ∀ i < n, ∀ j < n, t i j ≠ 0 → (i ∈ G ↔ j ∈ G)) {i j : ℕ}
    (hi : i < n) (hj : j < n) (hne : expOrb n t i j ≠ 0) : i ∈ G ↔ j ∈ G := by
  let C : Matrix (Fin n) (Fin n) ℂ := diagonal fun a => if (a : ℕ) ∈ G then 1 else 0
  have h1 := exp_intertwine (A := Matrix.of fun a b : Fin n => t a b) (B := Matrix.of fun a b : Fin n => t a b) (C := C) (by
    ext a c
    rw [mul_diagonal, diagonal_mul, Matrix.of_apply]
    by_cases hz : t a c = 0
    · rw [hz, zero_mul, mul_zero]
    · have := h a a.2 c c.2 hz
      simp only [this, mul_comm])
  have h2 := congrFun (congrFun h1 ⟨i, hi⟩) ⟨j, hj⟩
  rw [mul_diagonal, diagonal_mul, ← expOrb_apply] at h2
  dsimp only at h2
  by_cases k1 : i ∈ G <;> by_cases k2 : j ∈ G <;> simp only [k1, k2, if_true, if_false, mul_one, mul_zero, one_mul, zero_mul] at h2
  · simp only [k1, k2]
  · exact absurd h2.symm hne
  · exact absurd h2 hne
  · simp only [k1, k2]

/-- What is needed of a generator. -/
structure Generator (b : ℕ → ℕ) (P : BasisParams) (t : ℕ → ℕ → ℂ) (M : ℕ → ℤ × ℤ → ℤ × ℤ → ℂ) : Prop where
  skew : ∀ i < nTotal (pdSystem b), ∀ j < nTotal (pdSystem b), star (t j i) = -t i j
  shell : ∀ l ∈ [1, 2], ∀ x ∈ Spec.shell l, ∀ y ∈ Spec.shell l,
    t (position (pdSystem b) (.imp l x.1 x.2)) (position (pdSystem b) (.imp l y.1 y.2)) = M l x y
  groups : ∀ l ∈ [1, 2], ∀ i < nTotal (pdSystem b), ∀ j < nTotal (pdSystem b), t i j ≠ 0 →
    (i ∈ impOrbs (pdSystem b) l ↔ j ∈ impOrbs (pdSystem b) l) ∧
    (i ∈ valOrbs (pdSystem b) l (P.val l) ↔ j ∈ valOrbs (pdSystem b) l (P.val l)) ∧
    (i ∈ conOrbs (pdSystem b) l (b l) (P.val l) ↔ j ∈ conOrbs (pdSystem b) l (b l) (P.val l))

section
variable {b : ℕ → ℕ} {P : BasisParams} {t : ℕ → ℕ → ℂ} {M : ℕ → ℤ × ℤ → ℤ × ℤ → ℂ} (hG : Generator b P t M)

theorem pd_angular {l : ℕ} (hl : l ∈ [1, 2]) : l ∈ allAngulars (pdSystem b) := by
  obtain ⟨-, h1, h2⟩ := pd_system b
  simp only [List.mem_cons, List.not_mem_nil, or_false] at hl
  rcases hl with rfl | rfl
  · exact h1
  · exact h2

theorem pd_position_inj {l : ℕ} (hl : l ∈ [1, 2]) {x y : ℤ × ℤ} (hx : x ∈ shell l) (hy : y ∈ shell l)
    (h : position (pdSystem b) (.imp l x.1 x.2) = position (pdSystem b) (.imp l y.1 y.2)) : x = y :=
  (systemApart (pd_system b).1 l (List.mem_toFinset.2 (pd_angular hl)) x hx l (List.mem_toFinset.2 (pd_angular hl)) y hy h).2

include hG in
/-- The exponential of a generator turns every shell into itself. -/
theorem generator_turn : ShellTurn b P (expOrb (nTotal (pdSystem b)) t) (expShell M) := by
  have hM : ∀ l ∈ [1, 2], ∀ x ∈ Spec.shell l, ∀ y ∈ Spec.shell l, star (M l y x) = -M l x y := by
    intro l hl x hx y hy
    rw [← hG.shell l hl x hx y hy, ← hG.shell l hl y hy x hx]
    exact hG.skew _ (shell_position_lt hl hx) _ (shell_position_lt hl hy)
  refine ⟨expOrb_unitary hG.skew, fun l hl x hx i hi => ?_, fun l hl => (expShell_unitary (hM l hl)).1,
    fun l hl => (expShell_unitary (hM l hl)).2, fun l hl i hi j hj hne => ?_⟩
  · let p : {x // x ∈ shell l} → Fin (nTotal (pdSystem b)) := fun y =>
      ⟨position (pdSystem b) (.imp l y.1.1 y.1.2), shell_position_lt hl y.2⟩
    let C : Matrix (Fin (nTotal (pdSystem b))) {x // x ∈ shell l} ℂ := Matrix.of fun a y => if a = p y then 1 else 0
    have h1 := exp_intertwine (A := Matrix.of fun a b : Fin (nTotal (pdSystem b)) => t a b)
      (B := Matrix.of fun a b : {x // x ∈ shell l} => M l a b) (C := C) (by
        ext a y
        rw [Matrix.mul_apply, Matrix.mul_apply]
        simp only [C, Matrix.of_apply, mul_ite, mul_one, mul_zero, ite_mul, one_mul, zero_mul]
        rw [sum_ite_eq' univ (p y), if_pos (mem_univ _)]
        by_cases ha : (a : ℕ) ∈ impOrbs (pdSystem b) l
        · obtain ⟨z, hz, hza⟩ := mem_image.1 ((image_shell (pd_system b).1 (pd_angular (b := b) hl)).symm ▸ ha)
          rw [sum_eq_single (⟨z, hz⟩ : {x // x ∈ shell l})]
          · rw [if_pos (Fin.ext hza.symm), ← hG.shell l hl z hz y.1 y.2]
            congr 1
            exact hza.symm
          · intro w _ hw
            refine if_neg fun h => hw (Subtype.ext ?_)
            exact pd_position_inj hl w.2 hz ((congrArg Fin.val h).symm.trans hza.symm)
          · intro h
            exact absurd (mem_univ _) h
        · rw [sum_eq_zero fun w _ => if_neg fun h => ha (by
            rw [h]
            exact position_mem (mem_product.1 w.2).1 (mem_product.1 w.2).2)]
          by_contra hne
          exact ha ((hG.groups l hl a a.2 (p y) (p y).2 hne).1.2 (position_mem (mem_product.1 y.2).1 (mem_product.1 y.2).2)))
    have h2 := congrFun (congrFun h1 ⟨i, hi⟩) ⟨x, hx⟩
    rw [Matrix.mul_apply, Matrix.mul_apply] at h2
    simp only [C, Matrix.of_apply, mul_ite, mul_one, mul_zero, ite_mul, one_mul, zero_mul] at h2
    rw [sum_ite_eq' univ (p ⟨x, hx⟩), if_pos (mem_univ _), ← expOrb_apply] at h2
    rw [← Finset.sum_coe_sort]
    refine h2.trans (sum_congr rfl fun y _ => ?_)
    rw [← expShell_apply]
    simp only [p, Fin.mk.injEq]
  · exact ⟨expOrb_group (fun i hi j hj h => (hG.groups l hl i hi j hj h).1) hi hj hne,
      expOrb_group (fun i hi j hj h => (hG.groups l hl i hi j hj h).2.1) hi hj hne,
      expOrb_group (fun i hi j hj h => (hG.groups l hl i hi j hj h).2.2) hi hj hne⟩

/-- A family of matrices of the shells that is mixed by the generator. -/
theorem expShell_family {κ : Type} [Fintype κ] [DecidableEq κ] {l l' : ℕ} {X : κ → ℤ × ℤ → ℤ × ℤ → ℂ} {g : Matrix κ κ ℂ}
    (h : ∀ a, ∀ x ∈ shell l, ∀ y ∈ shell l', ∑ z ∈ shell l, M l x z * X a z y
      = ∑ z ∈ shell l', X a x z * M l' z y + ∑ c, g c a * X c x y) (a : κ) {x y : ℤ × ℤ} (hx : x ∈ shell l) (hy : y ∈ shell l') :
    ∑ z ∈ shell l, expShell M l x z * X a z y = ∑ z ∈ shell l', (∑ c, exp g c a * X c x z) * expShell M l' z y := by
  have h1 := exp_family (A := Matrix.of fun a b : {x // x ∈ shell l} => M l a b) (B := Matrix.of fun a b : {x // x ∈ shell l'} => M l' a b)
    (X := fun a => Matrix.of fun (x : {x // x ∈ shell l}) (y : {x // x ∈ shell l'}) => X a x y) (g := g) (fun a => by
      ext x y
      have := h a x x.2 y y.2
      rw [← Finset.sum_coe_sort, ← Finset.sum_coe_sort (shell l')] at this
      rw [Matrix.add_apply, Matrix.mul_apply, Matrix.mul_apply, Matrix.sum_apply]
      exact this) a
  have h2 := congrFun (congrFun h1 ⟨x, hx⟩) ⟨y, hy⟩
  rw [Matrix.mul_apply, Matrix.sum_apply] at h2
  rw [← Finset.sum_coe_sort, ← Finset.sum_coe_sort (shell l')]
  refine Eq.trans (sum_congr rfl fun z _ => ?_) (h2.trans ?_)
  · exact congrArg (· * _) (expShell_apply M ⟨x, hx⟩ z)
  · simp only [Matrix.smul_apply, Matrix.mul_apply, smul_eq_mul, mul_sum, sum_mul]
    rw [sum_comm]
    refine sum_congr rfl fun z _ => sum_congr rfl fun c _ => ?_
    rw [← mul_assoc]
    exact congrArg (_ * ·) (expShell_apply M z ⟨y, hy⟩).symm

open Kronecker in
/-- Coefficients of a two-particle operator that are left alone by the generator. -/
theorem expShell_tensor {l1 l2 l3 l4 : ℕ} {W : ℤ × ℤ → ℤ × ℤ → ℤ × ℤ → ℤ × ℤ → ℂ}
    (h : ∀ x1 ∈ shell l1, ∀ x2 ∈ shell l2, ∀ x3 ∈ shell l3, ∀ x4 ∈ shell l4,
      ∑ y ∈ shell l1, M l1 x1 y * W y x2 x3 x4 + ∑ y ∈ shell l2, M l2 x2 y * W x1 y x3 x4
        - ∑ y ∈ shell l3, M l3 y x3 * W x1 x2 y x4 - ∑ y ∈ shell l4, M l4 y x4 * W x1 x2 x3 y = 0)
    {x1 x2 x3 x4 : ℤ × ℤ} (h1 : x1 ∈ shell l1) (h2 : x2 ∈ shell l2) (h3 : x3 ∈ shell l3) (h4 : x4 ∈ shell l4) :
    ∑ z ∈ shell l1 ×ˢ shell l2, expShell M l1 x1 z.1 * expShell M l2 x2 z.2 * W z.1 z.2 x3 x4
      = ∑ z ∈ shell l3 ×ˢ shell l4, W x1 x2 z.1 z.2 * (expShell M l3 z.1 x3 * expShell M l4 z.2 x4) := by
  let A : ∀ l : ℕ, Matrix {x // x ∈ shell l} {x // x ∈ shell l} ℂ := fun l => Matrix.of fun a b => M l a b
  let C : Matrix ({x // x ∈ shell l1} × {x // x ∈ shell l2}) ({x // x ∈ shell l3} × {x // x ∈ shell l4}) ℂ :=
    Matrix.of fun p q => W p.1 p.2 q.1 q.2
  have k := exp_intertwine (A := A l1 ⊗ₖ (1 : Matrix {x // x ∈ shell l2} {x // x ∈ shell l2} ℂ)
      + (1 : Matrix {x // x ∈ shell l1} {x // x ∈ shell l1} ℂ) ⊗ₖ A l2)
    (B := A l3 ⊗ₖ (1 : Matrix {x // x ∈ shell l4} {x // x ∈ shell l4} ℂ)
      + (1 : Matrix {x // x ∈ shell l3} {x // x ∈ shell l3} ℂ) ⊗ₖ A l4) (C := C) (by
    ext p q
    have := h p.1 p.1.2 p.2 p.2.2 q.1 q.1.2 q.2 q.2.2
    rw [← Finset.sum_coe_sort, ← Finset.sum_coe_sort (shell l2), ← Finset.sum_coe_sort (shell l3), ← Finset.sum_coe_sort (shell l4)] at this
    rw [Matrix.add_mul, Matrix.mul_add, Matrix.add_apply, Matrix.add_apply, Matrix.mul_apply, Matrix.mul_apply, Matrix.mul_apply,
      Matrix.mul_apply]
    simp only [A, C, Matrix.of_apply, kroneckerMap_apply, Fintype.sum_prod_type, Matrix.one_apply, ite_mul, mul_ite,
      mul_one, one_mul, mul_zero, zero_mul]
    have e1 : ∀ f : {x // x ∈ shell l1} → {x // x ∈ shell l2} → ℂ, ∑ a, ∑ c, (if p.1 = a then f a c else 0) = ∑ c, f p.1 c := by
      intro f
      rw [sum_comm]
      exact sum_congr rfl fun c _ => by rw [sum_ite_eq, if_pos (mem_univ _)]
    have e2 : ∀ f : {x // x ∈ shell l3} → {x // x ∈ shell l4} → ℂ, ∑ a, ∑ c, (if a = q.1 then f a c else 0) = ∑ c, f q.1 c := by
      intro f
      rw [sum_comm]
      exact sum_congr rfl fun c _ => by rw [sum_ite_eq', if_pos (mem_univ _)]
    rw [e1, e2]
    simp only [sum_ite_eq, sum_ite_eq', mem_univ, if_true]
    simp only [mul_comm (W _ _ _ _)]
    linear_combination this)
  rw [exp_pair, exp_pair] at k
  have k2 := congrFun (congrFun k (⟨x1, h1⟩, ⟨x2, h2⟩)) (⟨x3, h3⟩, ⟨x4, h4⟩)
  rw [Matrix.mul_apply, Matrix.mul_apply] at k2
  simp only [Fintype.sum_prod_type, kroneckerMap_apply, C, Matrix.of_apply] at k2
  rw [sum_product, sum_product, ← Finset.sum_coe_sort, ← Finset.sum_coe_sort (shell l3)]
  refine Eq.trans (sum_congr rfl fun z _ => ?_) (k2.trans (sum_congr rfl fun z _ => ?_))
  · rw [← Finset.sum_coe_sort]
    refine sum_congr rfl fun w _ => ?_
    exact congrArg (· * _) (congrArg₂ (· * ·) (expShell_apply M ⟨x1, h1⟩ z) (expShell_apply M ⟨x2, h2⟩ w))
  · rw [← Finset.sum_coe_sort (shell l4)]
    refine sum_congr rfl fun w _ => ?_
    exact congrArg (_ * ·) (congrArg₂ (· * ·) (expShell_apply M z ⟨x3, h3⟩) (expShell_apply M w ⟨x4, h4⟩)).symm

end

end

end Verif
