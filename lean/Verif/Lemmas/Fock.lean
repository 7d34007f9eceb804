import Verif.Spec.Fock
import Verif.Lemmas.CreateRemove
import Mathlib.Algebra.Star.BigOperators
import Mathlib.Tactic.Ring

set_option linter.unusedSimpArgs false

namespace Verif.Spec

open Finset

variable {R : Type*} [CommRing R]

theorem sgn_sq (i : ℕ) (S : Finset ℕ) : (sgn i S : R) * (sgn i S : R) = 1 := by
  rw [← Int.cast_mul, sgn, ← pow_add, ← two_mul, pow_mul]; simp

theorem sgn_erase_self (i : ℕ) (S : Finset ℕ) : sgn i (S.erase i) = sgn i S := by
  rw [sgn, below_erase_self, sgn]

theorem sgn_insert_self (i : ℕ) (S : Finset ℕ) : sgn i (insert i S) = sgn i S := by
  rw [sgn, below_insert_self, sgn]

theorem sgn_insert {i j : ℕ} {S : Finset ℕ} (h : j ∉ S) :
    sgn i (insert j S) = if j < i then - sgn i S else sgn i S := by
  unfold sgn below
  rw [filter_insert]
  split
  · rw [card_insert_of_notMem (by simp [h]), pow_succ]; ring
  · rfl

theorem sgn_erase {i j : ℕ} {S : Finset ℕ} (h : j ∈ S) :
    sgn i (S.erase j) = if j < i then - sgn i S else sgn i S := by
  have := sgn_insert (i := i) (notMem_erase j S)
  rw [insert_erase h] at this
  rw [this]
  split <;> ring

theorem create_create (i j : ℕ) (f : Vec R) (S : Finset ℕ) :
    create i (create j f) S + create j (create i f) S = 0 := by
  unfold create
  by_cases hij : i = j
  · subst hij; simp
  by_cases hi : i ∈ S <;> by_cases hj : j ∈ S <;>
    simp only [hi, hj, mem_erase, ne_eq, hij, Ne.symm hij, not_false_eq_true, and_self, if_true,
      if_false, and_false, mul_zero, add_zero]
  rw [sgn_erase hi, sgn_erase hj, erase_right_comm]
  rcases Nat.lt_or_gt_of_ne hij with h | h
  · rw [if_pos h, if_neg (by omega)]; push_cast; ring
  · rw [if_neg (by omega), if_pos h]; push_cast; ring

theorem annihilate_annihilate (i j : ℕ) (f : Vec R) (S : Finset ℕ) :
    annihilate i (annihilate j f) S + annihilate j (annihilate i f) S = 0 := by
  unfold annihilate
  by_cases hij : i = j
  · subst hij; simp
  by_cases hi : i ∈ S <;> by_cases hj : j ∈ S <;>
    simp only [hi, hj, mem_insert, hij, Ne.symm hij, or_true, or_false, false_or, if_true,
      if_false, mul_zero, add_zero, not_false_eq_true]
  rw [sgn_insert hi, sgn_insert hj, Finset.insert_comm]
  rcases Nat.lt_or_gt_of_ne hij with h | h
  · rw [if_pos h, if_neg (by omega)]; push_cast; ring
  · rw [if_neg (by omega), if_pos h]; push_cast; ring

theorem annihilate_create (i j : ℕ) (f : Vec R) (S : Finset ℕ) :
    annihilate i (create j f) S + create j (annihilate i f) S = if i = j then f S else 0 := by
  unfold annihilate create
  by_cases hij : i = j
  · subst hij
    by_cases hi : i ∈ S
    · simp only [hi, if_true, zero_add, mem_erase, ne_eq, not_true_eq_false, false_and, if_false]
      rw [insert_erase hi, sgn_erase_self, ← mul_assoc, sgn_sq, one_mul]
    · simp only [hi, if_false, mem_insert_self, if_true, add_zero]
      rw [erase_insert hi, sgn_insert_self, ← mul_assoc, sgn_sq, one_mul]
  rw [if_neg hij]
  by_cases hi : i ∈ S <;> by_cases hj : j ∈ S <;>
    simp only [hi, hj, mem_insert, mem_erase, hij, Ne.symm hij, ne_eq, not_false_eq_true, and_true,
      true_and, and_false, or_true, or_false, false_or, if_true, if_false, mul_zero, add_zero,
      and_self]
  rw [sgn_insert hi, sgn_erase hj, erase_insert_of_ne hij]
  rcases Nat.lt_or_gt_of_ne hij with h | h
  · rw [if_pos h, if_neg (by omega)]; push_cast; ring
  · rw [if_neg (by omega), if_pos h]; push_cast; ring

/-! ### linearity -/

theorem ladder_add (i : ℕ) (b : Bool) (f g : Vec R) : ladder i b (f + g) = ladder i b f + ladder i b g := by
  funext S
  unfold ladder create annihilate
  cases b <;> simp only [Bool.false_eq_true, if_false, if_true, Pi.add_apply] <;> split <;> ring

theorem ladder_smul (i : ℕ) (b : Bool) (x : R) (f : Vec R) :
    ladder i b (fun S => x * f S) = fun S => x * ladder i b f S := by
  funext S
  unfold ladder create annihilate
  cases b <;> simp only [Bool.false_eq_true, if_false, if_true] <;> split <;> ring

theorem ladder_zero (i : ℕ) (b : Bool) : ladder i b (0 : Vec R) = 0 := by
  funext S
  unfold ladder create annihilate
  cases b <;> simp

theorem product_cons (x : ℕ × Bool) (p : List (ℕ × Bool)) (f : Vec R) :
    product (x :: p) f = ladder x.1 x.2 (product p f) := rfl

theorem product_append (p q : List (ℕ × Bool)) (f : Vec R) :
    product (p ++ q) f = product p (product q f) := by
  simp [product, List.foldr_append]

theorem product_add (p : List (ℕ × Bool)) (f g : Vec R) :
    product p (f + g) = product p f + product p g := by
  induction p with
  | nil => rfl
  | cons x p ih => rw [product_cons, ih, ladder_add, product_cons, product_cons]

theorem product_smul (p : List (ℕ × Bool)) (x : R) (f : Vec R) :
    product p (fun S => x * f S) = fun S => x * product p f S := by
  induction p with
  | nil => rfl
  | cons y p ih => rw [product_cons, ih, ladder_smul, product_cons]

theorem product_zero (p : List (ℕ × Bool)) : product p (0 : Vec R) = 0 := by
  induction p with
  | nil => rfl
  | cons x p ih => rw [product_cons, ih, ladder_zero]

theorem product_list_sum {α : Type*} (p : List (ℕ × Bool)) (l : List α) (f : α → Vec R) :
    product p (fun S => (l.map fun x => f x S).sum) = fun S => (l.map fun x => product p (f x) S).sum := by
  induction l with
  | nil => exact product_zero p
  | cons x l ih =>
    have : (fun S => ((x :: l).map fun x => f x S).sum) = f x + fun S => (l.map fun x => f x S).sum := by
      funext S; simp
    rw [this, product_add, ih]
    funext S; simp

theorem operator_add (op : List (List (ℕ × Bool) × R)) (f g : Vec R) (S : Finset ℕ) :
    operator op (f + g) S = operator op f S + operator op g S := by
  unfold operator
  rw [← List.sum_map_add]
  congr 1
  apply List.map_congr_left
  intro q _
  rw [product_add]; simp [mul_add]

theorem operator_smul (op : List (List (ℕ × Bool) × R)) (x : R) (f : Vec R) (S : Finset ℕ) :
    operator op (fun S => x * f S) S = x * operator op f S := by
  unfold operator
  rw [← List.sum_map_mul_left]
  congr 1
  apply List.map_congr_left
  intro q _
  rw [product_smul]; ring

/-! ### adjoints -/

variable [StarRing R]

theorem innerProduct_create (n i : ℕ) (hi : i < n) (f g : Vec R) :
    innerProduct n f (create i g) = innerProduct n (annihilate i f) g := by
  unfold innerProduct create annihilate
  simp only [mul_ite, mul_zero]
  have h1 : (∑ S ∈ (range n).powerset, if i ∈ S then star (f S) * ((sgn i S : R) * g (S.erase i)) else 0)
      = ∑ S ∈ (range n).powerset.filter (i ∈ ·), star (f S) * ((sgn i S : R) * g (S.erase i)) := by
    rw [sum_filter]
  have h2 : (∑ S ∈ (range n).powerset, star (if i ∈ S then 0 else (sgn i S : R) * f (insert i S)) * g S)
      = ∑ S ∈ (range n).powerset.filter (i ∉ ·), (sgn i S : R) * star (f (insert i S)) * g S := by
    rw [sum_filter]
    apply sum_congr rfl
    intro S _
    by_cases h : i ∈ S
    · simp [h]
    · simp only [h, if_false, not_false_eq_true, if_true, star_mul']
      rw [star_intCast]
  rw [h1, h2]
  refine sum_bij' (fun S _ => S.erase i) (fun S _ => insert i S) ?_ ?_ ?_ ?_ ?_
  · intro S hS
    rw [mem_filter, mem_powerset] at hS ⊢
    exact ⟨(erase_subset _ _).trans hS.1, notMem_erase _ _⟩
  · intro S hS
    rw [mem_filter, mem_powerset] at hS ⊢
    exact ⟨insert_subset (mem_range.2 hi) hS.1, mem_insert_self _ _⟩
  · intro S hS; exact insert_erase (mem_filter.1 hS).2
  · intro S hS; exact erase_insert (mem_filter.1 hS).2
  · intro S hS
    rw [insert_erase (mem_filter.1 hS).2, sgn_erase_self]; ring

theorem innerProduct_star (n : ℕ) (f g : Vec R) : star (innerProduct n f g) = innerProduct n g f := by
  unfold innerProduct
  rw [star_sum]
  apply sum_congr rfl
  intro S _
  rw [star_mul', star_star, mul_comm]

theorem innerProduct_annihilate (n i : ℕ) (hi : i < n) (f g : Vec R) :
    innerProduct n f (annihilate i g) = innerProduct n (create i f) g := by
  rw [← innerProduct_star, ← innerProduct_create n i hi, innerProduct_star]

/-- The adjoint of a product of ladder operators: reversed, with creations and
annihilations exchanged. -/
def adjointProduct (p : List (ℕ × Bool)) : List (ℕ × Bool) := p.reverse.map fun x => (x.1, !x.2)

theorem innerProduct_ladder (n i : ℕ) (b : Bool) (hi : i < n) (f g : Vec R) :
    innerProduct n f (ladder i b g) = innerProduct n (ladder i (!b) f) g := by
  cases b
  · exact innerProduct_annihilate n i hi f g
  · exact innerProduct_create n i hi f g

theorem innerProduct_product (n : ℕ) (p : List (ℕ × Bool)) (hp : ∀ x ∈ p, x.1 < n) (f g : Vec R) :
    innerProduct n f (product p g) = innerProduct n (product (adjointProduct p) f) g := by
  induction p generalizing f with
  | nil => rfl
  | cons x p ih =>
    rw [product_cons, innerProduct_ladder n _ _ (hp x (by simp)),
      ih (fun y hy => hp y (by simp [hy]))]
    congr 1
    rw [adjointProduct, adjointProduct, List.reverse_cons, List.map_append, product_append]
    rfl

theorem innerProduct_list_sum_right {α : Type*} (n : ℕ) (f : Vec R) (l : List α) (g : α → Vec R) :
    innerProduct n f (fun S => (l.map fun x => g x S).sum) = (l.map fun x => innerProduct n f (g x)).sum := by
  induction l with
  | nil => simp [innerProduct]
  | cons x l ih =>
    rw [List.map_cons, List.sum_cons, ← ih]
    unfold innerProduct
    rw [← sum_add_distrib]
    apply sum_congr rfl
    intro S _
    simp [mul_add]

theorem innerProduct_smul_right (n : ℕ) (f g : Vec R) (x : R) :
    innerProduct n f (fun S => x * g S) = x * innerProduct n f g := by
  unfold innerProduct
  rw [mul_sum]
  apply sum_congr rfl
  intro S _; ring

theorem innerProduct_smul_left (n : ℕ) (f g : Vec R) (x : R) :
    innerProduct n (fun S => star x * f S) g = x * innerProduct n f g := by
  unfold innerProduct
  rw [mul_sum]
  apply sum_congr rfl
  intro S _; rw [star_mul', star_star]; ring

theorem innerProduct_list_sum_left {α : Type*} (n : ℕ) (f : Vec R) (l : List α) (g : α → Vec R) :
    innerProduct n (fun S => (l.map fun x => g x S).sum) f = (l.map fun x => innerProduct n (g x) f).sum := by
  induction l with
  | nil => simp [innerProduct]
  | cons x l ih =>
    rw [List.map_cons, List.sum_cons, ← ih]
    unfold innerProduct
    rw [← sum_add_distrib]
    apply sum_congr rfl
    intro S _
    simp [add_mul]

/-- The adjoint operator. -/
def adjointOperator (op : List (List (ℕ × Bool) × R)) : List (List (ℕ × Bool) × R) :=
  op.map fun q => (adjointProduct q.1, star q.2)

theorem innerProduct_operator (n : ℕ) (op : List (List (ℕ × Bool) × R))
    (hop : ∀ q ∈ op, ∀ x ∈ q.1, x.1 < n) (f g : Vec R) :
    innerProduct n f (operator op g) = innerProduct n (operator (adjointOperator op) f) g := by
  unfold operator adjointOperator
  simp only [List.map_map]
  rw [innerProduct_list_sum_right, innerProduct_list_sum_left]
  congr 1
  apply List.map_congr_left
  intro q hq
  simp only [Function.comp]
  rw [innerProduct_smul_right, innerProduct_smul_left, innerProduct_product n _ (hop q hq)]

end Verif.Spec
