/-
Helper lemmas: algebra of one-particle operators.
-/
import Verif.Lemmas.OneBody
import Mathlib.Algebra.Module.LinearMap.End
import Mathlib.Algebra.Algebra.Basic
import Mathlib.Tactic.NoncommRing

set_option linter.unusedSectionVars false
set_option linter.unusedSimpArgs false

namespace Verif

open Spec Finset

section abstractAlgebra

variable {A : Type} [Ring A] [Algebra ℂ A]

theorem ring_hop_commutator (ca ab cc ad : A) (p q : A)
    (h1 : ab * cc = p - cc * ab) (h2 : ad * ca = q - ca * ad)
    (h3 : cc * ca = - (ca * cc)) (h4 : ad * ab = - (ab * ad)) :
    ca * ab * (cc * ad) - cc * ad * (ca * ab) = ca * p * ad - cc * q * ab := by
  have e1 : ca * ab * (cc * ad) = ca * p * ad - ca * cc * (ab * ad) := by
    calc ca * ab * (cc * ad) = ca * (ab * cc) * ad := by simp only [mul_assoc]
      _ = _ := by rw [h1, mul_sub, sub_mul]; simp only [mul_assoc]
  have e2 : cc * ad * (ca * ab) = cc * q * ab - cc * ca * (ad * ab) := by
    calc cc * ad * (ca * ab) = cc * (ad * ca) * ab := by simp only [mul_assoc]
      _ = _ := by rw [h2, mul_sub, sub_mul]; simp only [mul_assoc]
  rw [e1, e2, h3, h4, neg_mul_neg]
  abel

variable {ι : Type} [DecidableEq ι]

theorem sum_commutator (s : Finset ι) (E : ι → ι → A)
    (hE : ∀ x ∈ s, ∀ y ∈ s, ∀ z ∈ s, ∀ w ∈ s, E x y * E z w - E z w * E x y
      = (if y = z then E x w else 0) - (if w = x then E z y else 0)) (M N : ι → ι → ℂ) :
    (∑ x ∈ s, ∑ y ∈ s, M x y • E x y) * (∑ x ∈ s, ∑ y ∈ s, N x y • E x y)
      - (∑ x ∈ s, ∑ y ∈ s, N x y • E x y) * (∑ x ∈ s, ∑ y ∈ s, M x y • E x y)
      = ∑ x ∈ s, ∑ z ∈ s, ((∑ y ∈ s, M x y * N y z) - ∑ y ∈ s, N x y * M y z) • E x z := by
  have h1 : (∑ x ∈ s, ∑ y ∈ s, M x y • E x y) * (∑ x ∈ s, ∑ y ∈ s, N x y • E x y)
      = ∑ x ∈ s, ∑ y ∈ s, ∑ z ∈ s, ∑ w ∈ s, (M x y * N z w) • (E x y * E z w) := by
    simp only [sum_mul]
    refine sum_congr rfl fun x _ => sum_congr rfl fun y _ => ?_
    simp only [mul_sum]
    refine sum_congr rfl fun z _ => sum_congr rfl fun w _ => ?_
    rw [smul_mul_smul_comm]
  have h2 : (∑ x ∈ s, ∑ y ∈ s, N x y • E x y) * (∑ x ∈ s, ∑ y ∈ s, M x y • E x y)
      = ∑ x ∈ s, ∑ y ∈ s, ∑ z ∈ s, ∑ w ∈ s, (M x y * N z w) • (E z w * E x y) := by
    simp only [mul_sum]
    refine sum_congr rfl fun x _ => sum_congr rfl fun y _ => ?_
    simp only [sum_mul]
    refine sum_congr rfl fun z _ => sum_congr rfl fun w _ => ?_
    rw [smul_mul_smul_comm, mul_comm (N z w)]
  have h3 : (∑ x ∈ s, ∑ y ∈ s, M x y • E x y) * (∑ x ∈ s, ∑ y ∈ s, N x y • E x y)
      - (∑ x ∈ s, ∑ y ∈ s, N x y • E x y) * (∑ x ∈ s, ∑ y ∈ s, M x y • E x y)
      = ∑ x ∈ s, ∑ y ∈ s, ∑ z ∈ s, ∑ w ∈ s, ((if y = z then (M x y * N z w) • E x w else 0)
          - (if w = x then (M x y * N z w) • E z y else 0)) := by
    rw [h1, h2]
    simp only [← sum_sub_distrib]
    refine sum_congr rfl fun x hx => sum_congr rfl fun y hy => sum_congr rfl fun z hz =>
      sum_congr rfl fun w hw => ?_
    rw [← smul_sub, hE x hx y hy z hz w hw, smul_sub]
    simp only [smul_ite, smul_zero]
  have hA : (∑ x ∈ s, ∑ y ∈ s, ∑ z ∈ s, ∑ w ∈ s, if y = z then (M x y * N z w) • E x w else 0)
      = ∑ x ∈ s, ∑ w ∈ s, ∑ y ∈ s, (M x y * N y w) • E x w := by
    refine sum_congr rfl fun x _ => ?_
    rw [sum_comm]
    rw [sum_comm (s := s) (t := s) (f := fun w y => (M x y * N y w) • E x w)]
    refine sum_congr rfl fun z hz => ?_
    rw [sum_comm]
    refine sum_congr rfl fun w _ => ?_
    rw [sum_ite_eq' s z, if_pos hz]
  have hB : (∑ x ∈ s, ∑ y ∈ s, ∑ z ∈ s, ∑ w ∈ s, if w = x then (M x y * N z w) • E z y else 0)
      = ∑ z ∈ s, ∑ y ∈ s, ∑ x ∈ s, (N z x * M x y) • E z y := by
    have : ∀ x ∈ s, (∑ y ∈ s, ∑ z ∈ s, ∑ w ∈ s, if w = x then (M x y * N z w) • E z y else 0)
        = ∑ z ∈ s, ∑ y ∈ s, (N z x * M x y) • E z y := by
      intro x hx
      rw [sum_comm]
      refine sum_congr rfl fun z _ => sum_congr rfl fun y _ => ?_
      rw [sum_ite_eq' s x, if_pos hx, mul_comm]
    rw [sum_congr rfl this, sum_comm]
    refine sum_congr rfl fun z _ => ?_
    rw [sum_comm]
  rw [h3]
  simp only [sum_sub_distrib, hA, hB]
  simp only [← sum_sub_distrib]
  refine sum_congr rfl fun x _ => sum_congr rfl fun z _ => ?_
  rw [sum_smul]
  refine sum_congr rfl fun y _ => ?_
  rw [sub_smul]

end abstractAlgebra

/-- Creation and annihilation as linear maps. -/
noncomputable def crL (i : ℕ) : Module.End ℂ (Vec ℂ) where
  toFun := create i
  map_add' f g := ladder_add i true f g
  map_smul' x f := ladder_smul i true x f

noncomputable def anL (i : ℕ) : Module.End ℂ (Vec ℂ) where
  toFun := annihilate i
  map_add' f g := ladder_add i false f g
  map_smul' x f := ladder_smul i false x f

theorem anL_crL (i j : ℕ) : anL i * crL j = (if i = j then 1 else 0) - crL j * anL i := by
  apply LinearMap.ext
  intro f
  funext S
  have := annihilate_create i j f S
  have h2 : (((if i = j then 1 else 0) - crL j * anL i : Module.End ℂ (Vec ℂ)) f) S
      = (if i = j then f S else 0) - create j (annihilate i f) S := by
    split <;> rfl
  rw [h2]
  exact eq_sub_of_add_eq this

theorem crL_crL (i j : ℕ) : crL i * crL j = - (crL j * crL i) := by
  apply LinearMap.ext
  intro f
  funext S
  exact eq_neg_of_add_eq_zero_left (create_create i j f S)

theorem anL_anL (i j : ℕ) : anL i * anL j = - (anL j * anL i) := by
  apply LinearMap.ext
  intro f
  funext S
  exact eq_neg_of_add_eq_zero_left (annihilate_annihilate i j f S)

/-- `[c†_a c_b, c†_c c_d] = δ_bc c†_a c_d - δ_ad c†_c c_b`. -/
theorem hop_commutator (a b c d : ℕ) :
    crL a * anL b * (crL c * anL d) - crL c * anL d * (crL a * anL b)
      = (if b = c then crL a * anL d else 0) - (if d = a then crL c * anL b else 0) := by
  rw [ring_hop_commutator (crL a) (anL b) (crL c) (anL d) _ _ (anL_crL b c) (anL_crL d a)
    (crL_crL c a) (anL_anL d b)]
  congr 1
  · split
    · rw [mul_one]
    · rw [mul_zero, zero_mul]
  · split
    · rw [mul_one]
    · rw [mul_zero, zero_mul]

section
variable (f : Label → ℕ) (l : ℕ)

/-- `oneBody` as a linear map. -/
noncomputable def obL (M : ℤ × ℤ → ℤ × ℤ → ℂ) : Module.End ℂ (Vec ℂ) :=
  ∑ x ∈ shell l, ∑ y ∈ shell l, M x y • (crL (f (.imp l x.1 x.2)) * anL (f (.imp l y.1 y.2)))

theorem endSum_apply {ι : Type} (s : Finset ι) (E : ι → Module.End ℂ (Vec ℂ)) (v : Vec ℂ) (S : Finset ℕ) :
    (∑ x ∈ s, E x) v S = ∑ x ∈ s, E x v S := by
  classical
  induction s using Finset.induction_on with
  | empty => rfl
  | insert a s ha ih => rw [sum_insert ha, sum_insert ha, ← ih]; rfl

theorem obL_apply (M : ℤ × ℤ → ℤ × ℤ → ℂ) (v : Vec ℂ) : obL f l M v = oneBody f l M v := by
  funext S
  unfold obL oneBody
  rw [sum_product, endSum_apply]
  refine sum_congr rfl fun x _ => ?_
  rw [endSum_apply]
  rfl

/-- Matrix product over the shell. -/
noncomputable def mmul (A B : ℤ × ℤ → ℤ × ℤ → ℂ) (x z : ℤ × ℤ) : ℂ := ∑ y ∈ shell l, A x y * B y z

variable {f l}

theorem oneBody_congr {A B : ℤ × ℤ → ℤ × ℤ → ℂ} (h : ∀ x ∈ shell l, ∀ y ∈ shell l, A x y = B x y)
    (v : Vec ℂ) : oneBody f l A v = oneBody f l B v := by
  funext S
  unfold oneBody
  refine sum_congr rfl fun p hp => ?_
  rw [mem_product] at hp
  rw [h p.1 hp.1 p.2 hp.2]

theorem obL_commutator (hf : ∀ x ∈ shell l, ∀ y ∈ shell l,
      f (.imp l x.1 x.2) = f (.imp l y.1 y.2) → x = y) (A B : ℤ × ℤ → ℤ × ℤ → ℂ) :
    obL f l A * obL f l B - obL f l B * obL f l A
      = obL f l (fun x z => mmul l A B x z - mmul l B A x z) := by
  refine sum_commutator (shell l) (fun x y => crL (f (.imp l x.1 x.2)) * anL (f (.imp l y.1 y.2))) ?_ A B
  intro x hx y hy z hz w hw
  have i1 : f (.imp l y.1 y.2) = f (.imp l z.1 z.2) ↔ y = z := ⟨hf y hy z hz, fun h => by rw [h]⟩
  have i2 : f (.imp l w.1 w.2) = f (.imp l x.1 x.2) ↔ w = x := ⟨hf w hw x hx, fun h => by rw [h]⟩
  have := hop_commutator (f (.imp l x.1 x.2)) (f (.imp l y.1 y.2)) (f (.imp l z.1 z.2)) (f (.imp l w.1 w.2))
  simp only [i1, i2] at this
  exact this

/-- The commutator of two one-particle operators is the one-particle operator of
the commutator. -/
theorem oneBody_commutator (hf : ∀ x ∈ shell l, ∀ y ∈ shell l,
      f (.imp l x.1 x.2) = f (.imp l y.1 y.2) → x = y) (A B : ℤ × ℤ → ℤ × ℤ → ℂ) (v : Vec ℂ)
      (S : Finset ℕ) :
    oneBody f l A (oneBody f l B v) S - oneBody f l B (oneBody f l A v) S
      = oneBody f l (fun x z => mmul l A B x z - mmul l B A x z) v S := by
  simp only [← obL_apply]
  rw [← obL_commutator hf]
  rfl

theorem innerProduct_sum_right {ι : Type} (n : ℕ) (s : Finset ι) (v : Vec ℂ) (w : ι → Vec ℂ) :
    innerProduct n v (fun S => ∑ x ∈ s, w x S) = ∑ x ∈ s, innerProduct n v (w x) := by
  unfold innerProduct
  simp only [mul_sum]
  rw [sum_comm]

theorem innerProduct_sum_left {ι : Type} (n : ℕ) (s : Finset ι) (v : Vec ℂ) (w : ι → Vec ℂ) :
    innerProduct n (fun S => ∑ x ∈ s, w x S) v = ∑ x ∈ s, innerProduct n (w x) v := by
  unfold innerProduct
  simp only [star_sum, sum_mul]
  rw [sum_comm]

theorem innerProduct_oneBody {n : ℕ} (hfn : ∀ x ∈ shell l, f (.imp l x.1 x.2) < n)
    (M : ℤ × ℤ → ℤ × ℤ → ℂ) (v w : Vec ℂ) :
    innerProduct n v (oneBody f l M w) = innerProduct n (oneBody f l (fun x y => star (M y x)) v) w := by
  unfold oneBody
  rw [innerProduct_sum_right, innerProduct_sum_left]
  refine sum_bij' (fun p _ => (p.2, p.1)) (fun p _ => (p.2, p.1)) ?_ ?_ ?_ ?_ ?_
  · intro p hp; rw [mem_product] at hp ⊢; exact ⟨hp.2, hp.1⟩
  · intro p hp; rw [mem_product] at hp ⊢; exact ⟨hp.2, hp.1⟩
  · intro p _; rfl
  · intro p _; rfl
  · intro p hp
    rw [mem_product] at hp
    rw [innerProduct_smul_right, innerProduct_smul_left, innerProduct_create n _ (hfn _ hp.1),
      innerProduct_annihilate n _ (hfn _ hp.2)]

end

end Verif
