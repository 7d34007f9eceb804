/-
Commutators of the components of the angular momentum with the field, the dipole operators and the Hamiltonian.
-/
import Verif.Lemmas.TurnExp
import Verif.Spec.Isotropy

namespace Verif

open Finset Spec

noncomputable section

/-- `ε_abc`. -/
def levi (a b c : Fin 3) : ℂ := ((a.val : ℂ) - b.val) * ((b.val : ℂ) - c.val) * ((c.val : ℂ) - a.val) / 2

/-- The matrix of `h ↦ w × h`. -/
def crossMat (w : Fin 3 → ℝ) : Matrix (Fin 3) (Fin 3) ℂ := Matrix.of fun c a => ∑ d, levi d a c * w d

/-- The generator of the rotation by the vector `w`. -/
def turnGen (K : ℕ → Fin 3 → ℤ × ℤ → ℤ × ℤ → ℂ) (w : Fin 3 → ℝ) (l : ℕ) (x y : ℤ × ℤ) : ℂ := ∑ a, -Complex.I * w a * K l a x y

/-! ### Two particles -/

/-- The coefficients are left alone by the matrices `M`. -/
def TwoInv (l1 l2 l3 l4 : ℕ) (W : ℤ × ℤ → ℤ × ℤ → ℤ × ℤ → ℤ × ℤ → ℂ) (M : ℕ → ℤ × ℤ → ℤ × ℤ → ℂ) : Prop :=
  ∀ x1 ∈ shell l1, ∀ x2 ∈ shell l2, ∀ x3 ∈ shell l3, ∀ x4 ∈ shell l4,
    ∑ y ∈ shell l1, M l1 x1 y * W y x2 x3 x4 + ∑ y ∈ shell l2, M l2 x2 y * W x1 y x3 x4
      - ∑ y ∈ shell l3, M l3 y x3 * W x1 x2 y x4 - ∑ y ∈ shell l4, M l4 y x4 * W x1 x2 x3 y = 0

section
variable {l1 l2 l3 l4 : ℕ} {W : ℤ × ℤ → ℤ × ℤ → ℤ × ℤ → ℤ × ℤ → ℂ}

theorem TwoInv.add {M M' : ℕ → ℤ × ℤ → ℤ × ℤ → ℂ} (h : TwoInv l1 l2 l3 l4 W M) (h' : TwoInv l1 l2 l3 l4 W M') :
    TwoInv l1 l2 l3 l4 W fun l x y => M l x y + M' l x y := by
  intro x1 k1 x2 k2 x3 k3 x4 k4
  simp only [add_mul, sum_add_distrib]
  linear_combination h x1 k1 x2 k2 x3 k3 x4 k4 + h' x1 k1 x2 k2 x3 k3 x4 k4

theorem TwoInv.smul {M : ℕ → ℤ × ℤ → ℤ × ℤ → ℂ} (h : TwoInv l1 l2 l3 l4 W M) (c : ℂ) :
    TwoInv l1 l2 l3 l4 W fun l x y => c * M l x y := by
  intro x1 k1 x2 k2 x3 k3 x4 k4
  simp only [mul_assoc, ← mul_sum]
  linear_combination c * h x1 k1 x2 k2 x3 k3 x4 k4

theorem TwoInv.gen {K : ℕ → Fin 3 → ℤ × ℤ → ℤ × ℤ → ℂ} (h : ∀ a, TwoInv l1 l2 l3 l4 W fun l => K l a) (w : Fin 3 → ℝ) :
    TwoInv l1 l2 l3 l4 W (turnGen K w) := by
  have := (((h 0).smul (-Complex.I * w 0)).add ((h 1).smul (-Complex.I * w 1))).add ((h 2).smul (-Complex.I * w 2))
  intro x1 k1 x2 k2 x3 k3 x4 k4
  unfold turnGen
  simp only [Fin.sum_univ_three]
  exact this x1 k1 x2 k2 x3 k3 x4 k4

theorem twoInv_spin (u : ℤ → ℤ → ℤ → ℤ → ℝ) (A : ℤ → ℤ → ℂ) : TwoInv l1 l2 l3 l4 (spinDiag u) fun _ => spinOp A := by
  intro x1 k1 x2 k2 x3 k3 x4 k4
  rw [sum_spinOp k1, sum_spinOp k2, sum_spinOp' k3, sum_spinOp' k4]
  have m1 := (mem_product.1 k1).1
  have m2 := (mem_product.1 k2).1
  have m3 := (mem_product.1 k3).1
  have m4 := (mem_product.1 k4).1
  have p : ∀ g : ℤ → ℂ, ∑ s ∈ ({0, 1} : Finset ℤ), g s = g 0 + g 1 := fun g => sum_pair (by decide)
  unfold spinDiag
  simp only [p]
  simp only [mem_insert, mem_singleton] at m1 m2 m3 m4
  rcases m1 with e1 | e1 <;> rcases m2 with e2 | e2 <;> rcases m3 with e3 | e3 <;> rcases m4 with e4 | e4 <;>
    simp [e1, e2, e3, e4]

theorem twoInv_orb {u : ℤ → ℤ → ℤ → ℤ → ℝ} {B : ℕ → ℤ → ℤ → ℂ}
    (h : ∀ m1 ∈ mRange l1, ∀ m2 ∈ mRange l2, ∀ m3 ∈ mRange l3, ∀ m4 ∈ mRange l4,
      ∑ m ∈ mRange l1, B l1 m1 m * u m m2 m3 m4 + ∑ m ∈ mRange l2, B l2 m2 m * u m1 m m3 m4
        - ∑ m ∈ mRange l3, B l3 m m3 * u m1 m2 m m4 - ∑ m ∈ mRange l4, B l4 m m4 * u m1 m2 m3 m = 0) :
    TwoInv l1 l2 l3 l4 (spinDiag u) fun l => orbOp (B l) := by
  intro x1 k1 x2 k2 x3 k3 x4 k4
  rw [sum_orbOp k1, sum_orbOp k2, sum_orbOp' k3, sum_orbOp' k4]
  unfold spinDiag
  by_cases hs : x1.1 = x4.1 ∧ x2.1 = x3.1
  · simp only [if_pos hs]
    have := h x1.2 (mem_product.1 k1).2 x2.2 (mem_product.1 k2).2 x3.2 (mem_product.1 k3).2 x4.2 (mem_product.1 k4).2
    have e : ∀ (s : Finset ℤ) (a b : ℤ → ℂ), ∑ m ∈ s, a m * (1 / 2 * b m) = 1 / 2 * ∑ m ∈ s, a m * b m := by
      intro s a b
      rw [mul_sum]
      refine sum_congr rfl fun m _ => by ring
    simp only [e, ← mul_add, ← mul_sub]
    rw [this, mul_zero]
  · simp only [if_neg hs]
    simp

section
variable {gaunt : GauntFun} (hi : GauntInvariant gaunt) (hs : GauntSymmetric gaunt) (R : List ℝ)

theorem twoInv_lZ : TwoInv l1 l2 l3 l4 (spinDiag (coulomb gaunt l1 l2 l3 l4 R)) fun _ => orbOp lZ := by
  refine twoInv_orb (B := fun _ => lZ) fun m1 k1 m2 k2 m3 k3 m4 k4 => ?_
  unfold lZ
  simp only [ite_mul, zero_mul, sum_ite_eq, sum_ite_eq', if_pos k1, if_pos k2, if_pos k3, if_pos k4]
  unfold coulomb
  split
  · next h =>
    have : (m1 : ℂ) + m2 = m3 + m4 := by exact_mod_cast h
    linear_combination ((∑ k ∈ range R.length, R.getD k 0 * (ck gaunt k l1 m1 l4 m4 * ck gaunt k l3 m3 l2 m2) : ℝ) : ℂ) * this
  · simp

include hi hs

theorem twoInv_lPlus : TwoInv l1 l2 l3 l4 (spinDiag (coulomb gaunt l1 l2 l3 l4 R)) fun l => orbOp (lPlus l) := by
  refine twoInv_orb (B := lPlus) fun m1 k1 m2 k2 m3 k3 m4 k4 => ?_
  rw [sum_lPlus_left k1, sum_lPlus_left k2, sum_lPlus_right k3, sum_lPlus_right k4]
  exact_mod_cast coulomb_raise hi hs l1 l2 l3 l4 R m1 m2 m3 m4

theorem twoInv_lMinus : TwoInv l1 l2 l3 l4 (spinDiag (coulomb gaunt l1 l2 l3 l4 R)) fun l => orbOp (lMinus l) := by
  refine twoInv_orb (B := lMinus) fun m1 k1 m2 k2 m3 k3 m4 k4 => ?_
  simp only [lMinus_eq]
  rw [sum_lPlus_right k1, sum_lPlus_right k2, sum_lPlus_left k3, sum_lPlus_left k4]
  exact_mod_cast coulomb_lower hi hs l1 l2 l3 l4 R m1 m2 m3 m4

/-- The Coulomb interaction is left alone by the components of `j`. -/
theorem twoInv_total (a : Fin 3) : TwoInv l1 l2 l3 l4 (spinDiag (coulomb gaunt l1 l2 l3 l4 R)) fun l => totalComponent l a := by
  have hp := twoInv_lPlus (l1 := l1) (l2 := l2) (l3 := l3) (l4 := l4) hi hs R
  have hm := twoInv_lMinus (l1 := l1) (l2 := l2) (l3 := l3) (l4 := l4) hi hs R
  have hx : TwoInv l1 l2 l3 l4 (spinDiag (coulomb gaunt l1 l2 l3 l4 R)) fun l => orbOp (lX l) := by
    have e : (fun l => orbOp (lX l)) = fun l x y => (1 / 2 : ℂ) * (orbOp (lPlus l) x y + orbOp (lMinus l) x y) := by
      funext l x y
      unfold orbOp lX
      ring
    rw [e]
    exact (hp.add hm).smul _
  have hy : TwoInv l1 l2 l3 l4 (spinDiag (coulomb gaunt l1 l2 l3 l4 R)) fun l => orbOp (lY l) := by
    have e : (fun l => orbOp (lY l)) = fun l x y => (1 / (2 * Complex.I) : ℂ) * (orbOp (lPlus l) x y + (-1) * orbOp (lMinus l) x y) := by
      funext l x y
      unfold orbOp lY
      ring
    rw [e]
    exact (hp.add (hm.smul _)).smul _
  have hz := twoInv_lZ (l1 := l1) (l2 := l2) (l3 := l3) (l4 := l4) (gaunt := gaunt) R
  fin_cases a
  · exact hx.add (twoInv_spin _ sX)
  · exact hy.add (twoInv_spin _ sY)
  · exact hz.add (twoInv_spin _ sZ)

end

theorem twoInv_spinComponent (u : ℤ → ℤ → ℤ → ℤ → ℝ) (a : Fin 3) :
    TwoInv l1 l2 l3 l4 (spinDiag u) fun l => spinComponent l a := twoInv_spin u _

end

/-! ### One particle -/

/-- The matrices `X b` are mixed by the generators as the components of a vector, or of several vectors. -/
def VecInv {κ : Type} [Fintype κ] (l l' : ℕ) (K : ℕ → ℤ × ℤ → ℤ × ℤ → ℂ) (X : κ → ℤ × ℤ → ℤ × ℤ → ℂ) (g : κ → κ → ℂ) : Prop :=
  ∀ a, ∀ x ∈ shell l, ∀ y ∈ shell l', ∑ z ∈ shell l, K l x z * X a z y
    = ∑ z ∈ shell l', X a x z * K l' z y + ∑ c, g c a * X c x y

section
variable {κ : Type} [Fintype κ] {l l' : ℕ} {X : κ → ℤ × ℤ → ℤ × ℤ → ℂ}

theorem VecInv.add {K K' : ℕ → ℤ × ℤ → ℤ × ℤ → ℂ} {g g' : κ → κ → ℂ} (h : VecInv l l' K X g) (h' : VecInv l l' K' X g') :
    VecInv l l' (fun l x y => K l x y + K' l x y) X fun c a => g c a + g' c a := by
  intro a x hx y hy
  simp only [add_mul, mul_add, sum_add_distrib]
  linear_combination h a x hx y hy + h' a x hx y hy

theorem VecInv.smul {K : ℕ → ℤ × ℤ → ℤ × ℤ → ℂ} {g : κ → κ → ℂ} (h : VecInv l l' K X g) (r : ℂ) :
    VecInv l l' (fun l x y => r * K l x y) X fun c a => r * g c a := by
  intro a x hx y hy
  have e : ∀ z, X a x z * (r * K l' z y) = r * (X a x z * K l' z y) := fun z => by ring
  simp only [mul_assoc, e, ← mul_sum]
  linear_combination r * h a x hx y hy

theorem VecInv.congr {K K' : ℕ → ℤ × ℤ → ℤ × ℤ → ℂ} {g g' : κ → κ → ℂ} (h : VecInv l l' K X g) (hK : K = K') (hg : ∀ c a, g c a = g' c a) :
    VecInv l l' K' X g' := by
  have : g = g' := funext fun c => funext fun a => hg c a
  rw [← hK, ← this]
  exact h

theorem VecInv.gen {K : ℕ → Fin 3 → ℤ × ℤ → ℤ × ℤ → ℂ} {g : Fin 3 → κ → κ → ℂ} (h : ∀ a, VecInv l l' (fun l => K l a) X (g a))
    (w : Fin 3 → ℝ) : VecInv l l' (turnGen K w) X fun c a => ∑ d, -Complex.I * w d * g d c a := by
  refine ((((h 0).smul (-Complex.I * w 0)).add ((h 1).smul (-Complex.I * w 1))).add ((h 2).smul (-Complex.I * w 2))).congr ?_ ?_
  · funext l x y
    unfold turnGen
    rw [Fin.sum_univ_three]
  · intro c a
    rw [Fin.sum_univ_three]

end

/-! ### The spin -/

theorem orb_spin_commute {l : ℕ} (B A : ℤ → ℤ → ℂ) {x y : ℤ × ℤ} (hx : x ∈ shell l) (hy : y ∈ shell l) :
    ∑ z ∈ shell l, orbOp B x z * spinOp A z y = ∑ z ∈ shell l, spinOp A x z * orbOp B z y := by
  have e : ∀ z, spinOp A x z * orbOp B z y = orbOp B z y * spinOp A x z := fun z => mul_comm _ _
  rw [sum_orbOp hx, sum_congr rfl fun z _ => e z, sum_orbOp' hy]
  unfold spinOp delta
  simp only [mul_ite, mul_one, mul_zero, sum_ite_eq, sum_ite_eq', if_pos (show x.2 ∈ mRange l from (mem_product.1 hx).2),
    if_pos (show y.2 ∈ mRange l from (mem_product.1 hy).2)]

theorem spin_product {l : ℕ} (A A' : ℤ → ℤ → ℂ) {x : ℤ × ℤ} (hx : x ∈ shell l) (y : ℤ × ℤ) :
    ∑ z ∈ shell l, spinOp A x z * spinOp A' z y = (A x.1 0 * A' 0 y.1 + A x.1 1 * A' 1 y.1) * delta x.2 y.2 := by
  rw [sum_spinOp hx, sum_pair (by decide)]
  unfold spinOp
  ring

/-- `[s_a, s_b] = i ε_abc s_c`. -/
theorem spin_vector (l : ℕ) (a : Fin 3) :
    VecInv l l (fun l => spinComponent l a) (fun b => spinComponent l b) fun c b => Complex.I * levi a b c := by
  intro b x hx y hy
  unfold spinComponent
  rw [spin_product _ _ hx, spin_product _ _ hx, Fin.sum_univ_three]
  unfold spinOp
  have m1 := (mem_product.1 hx).1
  have m2 := (mem_product.1 hy).1
  simp only [mem_insert, mem_singleton] at m1 m2
  have hI := Complex.I_mul_I
  fin_cases a <;> fin_cases b <;> simp only [levi] <;> rcases m1 with e1 | e1 <;> rcases m2 with e2 | e2 <;> rw [e1, e2] <;>
    simp [sX, sY, sZ, sPlus, sMinus] <;> ring_nf <;> simp <;> ring_nf <;> simp <;> ring

/-- `[j_a, s_b] = i ε_abc s_c`. -/
theorem total_vector (l : ℕ) (a : Fin 3) :
    VecInv l l (fun l => totalComponent l a) (fun b => spinComponent l b) fun c b => Complex.I * levi a b c := by
  have h : VecInv l l (fun l => orbOp (![lX l, lY l, lZ] a)) (fun b => spinComponent l b) fun _ _ => 0 := by
    intro b x hx y hy
    simp only [zero_mul, sum_const_zero, add_zero]
    exact orb_spin_commute _ _ hx hy
  refine (h.add (spin_vector l a)).congr ?_ ?_
  · rfl
  · intro c a
    rw [zero_add]

/-! ### The spin-orbit coupling -/

theorem lDotS_total (l : ℕ) (a : Fin 3) :
    VecInv l l (fun l => totalComponent l a) (fun _ : Unit => lDotS l) fun _ _ => 0 := by
  have hp : VecInv l l (fun l x y => orbOp (lPlus l) x y + spinOp sPlus x y) (fun _ : Unit => lDotS l) fun _ _ => 0 := by
    intro _ x hx y hy
    rw [lDotS_raise l x hx y hy]
    simp only [zero_mul, sum_const_zero, add_zero, mul_comm]
  have hm : VecInv l l (fun l x y => orbOp (lMinus l) x y + spinOp sMinus x y) (fun _ : Unit => lDotS l) fun _ _ => 0 := by
    intro _ x hx y hy
    rw [lDotS_lower l x hx y hy]
    simp only [zero_mul, sum_const_zero, add_zero, mul_comm]
  have hz : VecInv l l (fun _ x y => orbOp lZ x y + spinOp sZ x y) (fun _ : Unit => lDotS l) fun _ _ => 0 := by
    intro _ x hx y hy
    rw [lDotS_z l x hx y hy]
    simp only [zero_mul, sum_const_zero, add_zero, mul_comm]
  fin_cases a
  · refine ((hp.add hm).smul (1 / 2)).congr ?_ (by intro c a; ring)
    funext l x y
    simp only [totalComponent, spinComponent, Fin.zero_eta, Matrix.cons_val_zero, orbOp, spinOp, lX, sX]
    ring
  · refine ((hp.add (hm.smul (-1))).smul (1 / (2 * Complex.I))).congr ?_ (by intro c a; ring)
    funext l x y
    simp only [totalComponent, spinComponent, Fin.mk_one, Matrix.cons_val_one, Matrix.cons_val_zero, orbOp, spinOp, lY, sY]
    ring
  · exact hz.congr rfl (by intro c a; rfl)

/-! ### The dipole operators -/

/-- The components of `r/|r|`. -/
def position1 (gaunt : GauntFun) (l l' : ℕ) (b : Fin 3) (m m' : ℤ) : ℂ :=
  dipole gaunt (if b = 0 then 1 else 0) (if b = 1 then 1 else 0) (if b = 2 then 1 else 0) l m l' m'

theorem spinKept_eq (M : ℤ → ℤ → ℂ) : spinKept M = orbOp M := by
  funext x y
  unfold spinKept orbOp delta
  split <;> simp

theorem spin_dipole {κ : Type} [Fintype κ] (l l' : ℕ) (D : κ → ℤ → ℤ → ℂ) (A : ℤ → ℤ → ℂ) :
    VecInv l l' (fun _ => spinOp A) (fun b => spinKept (D b)) fun _ _ => 0 := by
  intro b x hx y hy
  simp only [zero_mul, sum_const_zero, add_zero]
  have e : ∀ z, spinKept (D b) x z * spinOp A z y = spinOp A z y * spinKept (D b) x z := fun z => mul_comm _ _
  rw [sum_spinOp hx, sum_congr rfl fun z _ => e z, sum_spinOp' hy, spinKept_eq]
  have m1 := (mem_product.1 hx).1
  have m2 := (mem_product.1 hy).1
  unfold orbOp delta
  rw [sum_pair (by decide), sum_pair (by decide)]
  simp only [mem_insert, mem_singleton] at m1 m2
  rcases m1 with e1 | e1 <;> rcases m2 with e2 | e2 <;> rw [e1, e2] <;> simp

theorem orb_dipole {κ : Type} [Fintype κ] {l l' : ℕ} {D : κ → ℤ → ℤ → ℂ} {B : ℕ → ℤ → ℤ → ℂ} {g : κ → κ → ℂ}
    (h : ∀ a, ∀ m ∈ mRange l, ∀ m' ∈ mRange l', ∑ k ∈ mRange l, B l m k * D a k m'
      = ∑ k ∈ mRange l', D a m k * B l' k m' + ∑ c, g c a * D c m m') :
    VecInv l l' (fun l => orbOp (B l)) (fun b => spinKept (D b)) g := by
  intro a x hx y hy
  simp only [spinKept_eq]
  have e : ∀ z, orbOp (D a) x z * orbOp (B l') z y = orbOp (B l') z y * orbOp (D a) x z := fun z => mul_comm _ _
  rw [sum_orbOp hx, sum_congr rfl fun z _ => e z, sum_orbOp' hy]
  unfold orbOp
  have := h a x.2 (mem_product.1 hx).2 y.2 (mem_product.1 hy).2
  have e1 : ∑ m ∈ mRange l, B l x.2 m * (delta x.1 y.1 * D a m y.2) = delta x.1 y.1 * ∑ m ∈ mRange l, B l x.2 m * D a m y.2 := by
    rw [mul_sum]
    exact sum_congr rfl fun m _ => by ring
  have e2 : ∑ m ∈ mRange l', B l' m y.2 * (delta x.1 y.1 * D a x.2 m) = delta x.1 y.1 * ∑ m ∈ mRange l', D a x.2 m * B l' m y.2 := by
    rw [mul_sum]
    exact sum_congr rfl fun m _ => by ring
  have e3 : ∑ c, g c a * (delta x.1 y.1 * D c x.2 y.2) = delta x.1 y.1 * ∑ c, g c a * D c x.2 y.2 := by
    rw [mul_sum]
    exact sum_congr rfl fun m _ => by ring
  rw [e1, e2, e3, this]
  ring

section
variable {gaunt : GauntFun}

theorem c1_z (l l' : ℕ) (q : ℤ) {m m' : ℤ} (hm : m ∈ mRange l) (hm' : m' ∈ mRange l') :
    ∑ k ∈ mRange l, lZ m k * c1 gaunt l k l' m' q = ∑ k ∈ mRange l', c1 gaunt l m l' k q * lZ k m' + q * c1 gaunt l m l' m' q := by
  unfold lZ
  simp only [ite_mul, zero_mul, mul_ite, mul_zero, sum_ite_eq, sum_ite_eq', if_pos hm, if_pos hm']
  unfold c1
  split
  · next h =>
    have : (m : ℂ) - m' = q := by exact_mod_cast h
    rw [← this]
    ring
  · simp

theorem c1_raise (hi : GauntInvariant gaunt) (l l' : ℕ) (q : ℤ) {m m' : ℤ} (hm : m ∈ mRange l) (hm' : m' ∈ mRange l') :
    ∑ k ∈ mRange l, lPlus l m k * c1 gaunt l k l' m' q
      = ∑ k ∈ mRange l', c1 gaunt l m l' k q * lPlus l' k m' + (up 1 q : ℂ) * c1 gaunt l m l' m' (q + 1) := by
  have e : ∀ k, c1 gaunt l m l' k q * lPlus l' k m' = lPlus l' k m' * c1 gaunt l m l' k q := fun k => mul_comm _ _
  rw [sum_lPlus_left hm, sum_congr rfl fun k _ => e k, sum_lPlus_right hm']
  unfold c1
  by_cases h : m - m' = q + 1
  · rw [if_pos (by omega), if_pos (by omega), if_pos h]
    have := ck_raise hi 1 l m l' m'
    rw [show m - m' - 1 = q by omega] at this
    have this : ((up l (m - 1) : ℝ) : ℂ) * ck gaunt 1 l (m - 1) l' m' - up l' m' * ck gaunt 1 l m l' (m' + 1)
      = up 1 q * ck gaunt 1 l m l' m' := by exact_mod_cast this
    linear_combination this
  · rw [if_neg (by omega), if_neg (by omega), if_neg h]
    ring

theorem c1_lower (hi : GauntInvariant gaunt) (hs : GauntSymmetric gaunt) (l l' : ℕ) (q : ℤ) {m m' : ℤ} (hm : m ∈ mRange l)
    (hm' : m' ∈ mRange l') :
    ∑ k ∈ mRange l, lMinus l m k * c1 gaunt l k l' m' q
      = ∑ k ∈ mRange l', c1 gaunt l m l' k q * lMinus l' k m' + (up 1 (q - 1) : ℂ) * c1 gaunt l m l' m' (q - 1) := by
  have e : ∀ k, c1 gaunt l m l' k q * lPlus l' m' k = lPlus l' m' k * c1 gaunt l m l' k q := fun k => mul_comm _ _
  simp only [lMinus_eq]
  rw [sum_lPlus_right hm, sum_congr rfl fun k _ => e k, sum_lPlus_left hm']
  unfold c1
  by_cases h : m - m' = q - 1
  · rw [if_pos (by omega), if_pos (by omega), if_pos h]
    have := ck_lower hi hs 1 l m l' m'
    rw [show m - m' = q - 1 by omega] at this
    have this : ((up l m : ℝ) : ℂ) * ck gaunt 1 l (m + 1) l' m' - up l' (m' - 1) * ck gaunt 1 l m l' (m' - 1)
      = up 1 (q - 1) * ck gaunt 1 l m l' m' := by exact_mod_cast this
    linear_combination this
  · rw [if_neg (by omega), if_neg (by omega), if_neg h]
    ring

theorem up_one_zero : up 1 0 = Real.sqrt 2 := by unfold up; norm_num
theorem up_one_neg : up 1 (-1) = Real.sqrt 2 := by unfold up; norm_num
theorem up_one_one : up 1 1 = 0 := by unfold up; norm_num
theorem up_one_low : up 1 (-2) = 0 := by unfold up; norm_num

/-- `A D - D A'`. -/
def orbComm (l l' : ℕ) (A A' D : ℤ → ℤ → ℂ) (m m' : ℤ) : ℂ :=
  ∑ k ∈ mRange l, A m k * D k m' - ∑ k ∈ mRange l', D m k * A' k m'

theorem orbComm_left (l l' : ℕ) (A1 A1' A2 A2' D : ℤ → ℤ → ℂ) (c1 c2 : ℂ) (m m' : ℤ) :
    orbComm l l' (fun i j => c1 * A1 i j + c2 * A2 i j) (fun i j => c1 * A1' i j + c2 * A2' i j) D m m'
      = c1 * orbComm l l' A1 A1' D m m' + c2 * orbComm l l' A2 A2' D m m' := by
  unfold orbComm
  simp only [add_mul, mul_add, mul_sub, sum_add_distrib, mul_sum]
  have e : ∀ (c : ℂ) (A : ℤ → ℤ → ℂ) k, D m k * (c * A k m') = c * (D m k * A k m') := fun c A k => by ring
  simp only [e, mul_assoc]
  ring

theorem orbComm_right (l l' : ℕ) (A A' D1 D2 : ℤ → ℤ → ℂ) (c1 c2 : ℂ) (m m' : ℤ) :
    orbComm l l' A A' (fun i j => c1 * D1 i j + c2 * D2 i j) m m'
      = c1 * orbComm l l' A A' D1 m m' + c2 * orbComm l l' A A' D2 m m' := by
  unfold orbComm
  simp only [add_mul, mul_add, mul_sub, sum_add_distrib, mul_sum]
  have e : ∀ (c : ℂ) (D : ℤ → ℤ → ℂ) k, A m k * (c * D k m') = c * (A m k * D k m') := fun c A k => by ring
  simp only [e, mul_assoc]
  ring

theorem position1_x (l l' : ℕ) : position1 gaunt l l' 0 = fun m m' => (1 / (Real.sqrt 2 : ℝ) : ℂ) * c1 gaunt l m l' m' (-1)
    + (-1 / (Real.sqrt 2 : ℝ) : ℂ) * c1 gaunt l m l' m' 1 := by
  funext m m'
  unfold position1 dipole
  simp
  ring

theorem position1_y (l l' : ℕ) : position1 gaunt l l' 1 = fun m m' => (Complex.I / (Real.sqrt 2 : ℝ) : ℂ) * c1 gaunt l m l' m' (-1)
    + (Complex.I / (Real.sqrt 2 : ℝ) : ℂ) * c1 gaunt l m l' m' 1 := by
  funext m m'
  unfold position1 dipole
  simp
  ring

theorem position1_z (l l' : ℕ) : position1 gaunt l l' 2 = fun m m' => c1 gaunt l m l' m' 0 := by
  funext m m'
  unfold position1 dipole
  simp

/-- `[l_a, r_b] = i ε_abc r_c`. -/
theorem position1_vector (hi : GauntInvariant gaunt) (hs : GauntSymmetric gaunt) (l l' : ℕ) (a b : Fin 3) {m m' : ℤ}
    (hm : m ∈ mRange l) (hm' : m' ∈ mRange l') :
    orbComm l l' (![lX l, lY l, lZ] a) (![lX l', lY l', lZ] a) (position1 gaunt l l' b) m m'
      = ∑ c, Complex.I * levi a b c * position1 gaunt l l' c m m' := by
  have hp : ∀ q, orbComm l l' (lPlus l) (lPlus l') (fun m m' => c1 gaunt l m l' m' q) m m' = up 1 q * c1 gaunt l m l' m' (q + 1) :=
    fun q => by unfold orbComm; rw [c1_raise hi l l' q hm hm']; ring
  have hl : ∀ q, orbComm l l' (lMinus l) (lMinus l') (fun m m' => c1 gaunt l m l' m' q) m m'
      = up 1 (q - 1) * c1 gaunt l m l' m' (q - 1) :=
    fun q => by unfold orbComm; rw [c1_lower hi hs l l' q hm hm']; ring
  have hz : ∀ q, orbComm l l' lZ lZ (fun m m' => c1 gaunt l m l' m' q) m m' = q * c1 gaunt l m l' m' q :=
    fun q => by unfold orbComm; rw [c1_z l l' q hm hm']; ring
  have eX : ∀ l, lX l = fun i j => (1 / 2 : ℂ) * lPlus l i j + (1 / 2 : ℂ) * lMinus l i j := by
    intro l
    funext i j
    unfold lX
    ring
  have eY : ∀ l, lY l = fun i j => (-Complex.I / 2 : ℂ) * lPlus l i j + (Complex.I / 2 : ℂ) * lMinus l i j := by
    intro l
    funext i j
    unfold lY
    rw [div_mul_eq_div_div, div_eq_mul_inv _ Complex.I, Complex.inv_I]
    ring
  have hq : ((Real.sqrt 2 : ℝ) : ℂ) * (Real.sqrt 2 : ℝ) = 2 := by
    rw [← Complex.ofReal_mul, Real.mul_self_sqrt (by norm_num)]
    norm_num
  have hq0 : ((Real.sqrt 2 : ℝ) : ℂ) ≠ 0 := by
    intro h
    rw [h] at hq
    norm_num at hq
  have hI := Complex.I_mul_I
  have p0 := hp 0
  have p1 := hp 1
  have p2 := hp (-1)
  have l0 := hl 0
  have l1 := hl 1
  have l2 := hl (-1)
  have z0 := hz 0
  have z1 := hz 1
  have z2 := hz (-1)
  norm_num [up_one_zero, up_one_neg, up_one_one, up_one_low] at p0 p1 p2 l0 l1 l2 z0 z1 z2
  rw [Fin.sum_univ_three]
  have r : (1 / ((Real.sqrt 2 : ℝ) : ℂ)) = (Real.sqrt 2 : ℝ) / 2 := by
    rw [div_eq_div_iff hq0 two_ne_zero, one_mul, hq]
  have r1 : (-1 / ((Real.sqrt 2 : ℝ) : ℂ)) = -((Real.sqrt 2 : ℝ) / 2) := by rw [neg_div, r]
  have r2 : (Complex.I / ((Real.sqrt 2 : ℝ) : ℂ)) = Complex.I * ((Real.sqrt 2 : ℝ) / 2) := by rw [← r]; ring
  have hX := position1_x (gaunt := gaunt) l l'
  have hY := position1_y (gaunt := gaunt) l l'
  have hZ := position1_z (gaunt := gaunt) l l'
  rw [r, r1] at hX
  rw [r2] at hY
  fin_cases a <;> fin_cases b
  all_goals
    simp only [levi, Fin.zero_eta, Fin.mk_one, Fin.reduceFinMk, Matrix.cons_val_zero, Matrix.cons_val_one, Matrix.cons_val]
    rw [hX, hY, hZ]
    first | rw [eX l, eX l', orbComm_left] | rw [eY l, eY l', orbComm_left] | skip
    try simp only [orbComm_right]
    simp only [p0, p1, p2, l0, l1, l2, z0, z1, z2]
    norm_num
    try ring_nf
  all_goals
    simp only [Complex.I_sq, show ((Real.sqrt 2 : ℝ) : ℂ) ^ 2 = 2 by rw [pow_two, hq]]
    ring

theorem orbComm_dipole (hi : GauntInvariant gaunt) (hs : GauntSymmetric gaunt) (l l' : ℕ) (a : Fin 3) :
    VecInv l l' (fun l => orbOp (![lX l, lY l, lZ] a)) (fun b => spinKept (position1 gaunt l l' b)) fun c b => Complex.I * levi a b c := by
  refine orb_dipole (B := fun l => ![lX l, lY l, lZ] a) fun b m hm m' hm' => ?_
  rw [← position1_vector hi hs l l' a b hm hm']
  unfold orbComm
  ring

/-- `[j_a, r_b] = i ε_abc r_c`. -/
theorem total_dipole (hi : GauntInvariant gaunt) (hs : GauntSymmetric gaunt) (l l' : ℕ) (a : Fin 3) :
    VecInv l l' (fun l => totalComponent l a) (fun b => spinKept (position1 gaunt l l' b)) fun c b => Complex.I * levi a b c := by
  refine ((orbComm_dipole hi hs l l' a).add (spin_dipole l l' (fun b => position1 gaunt l l' b) (![sX, sY, sZ] a))).congr rfl ?_
  intro c b
  rw [add_zero]

theorem star_lPlus (l : ℕ) (m m' : ℤ) : star (lPlus l m m') = lMinus l m' m := by
  rw [lMinus_eq]
  unfold lPlus
  split
  · exact Complex.conj_ofReal _
  · exact star_zero _

theorem star_lMinus (l : ℕ) (m m' : ℤ) : star (lMinus l m m') = lPlus l m' m := by
  rw [← star_star (lPlus l m' m), star_lPlus]

theorem spinComponent_herm (l : ℕ) (a : Fin 3) (x y : ℤ × ℤ) : star (spinComponent l a y x) = spinComponent l a x y := by
  have d : ∀ i j : ℤ, star (delta i j) = delta j i := by
    intro i j
    unfold delta
    simp only [eq_comm]
    split <;> simp
  have hz : ∀ i j : ℤ, star (sZ i j) = sZ j i := by
    intro i j
    unfold sZ
    by_cases h : i = j
    · rw [if_pos h, if_pos h.symm, h]
      split <;> simp
    · rw [if_neg h, if_neg (Ne.symm h), star_zero]
  have hp : ∀ i j : ℤ, star (sPlus i j) = sMinus j i := by
    intro i j
    unfold sPlus sMinus
    simp only [and_comm]
    split <;> simp
  have hm : ∀ i j : ℤ, star (sMinus i j) = sPlus j i := by
    intro i j
    unfold sPlus sMinus
    simp only [and_comm]
    split <;> simp
  have h2 : star (2 : ℂ) = 2 := Complex.conj_ofNat 2
  have hI : star Complex.I = -Complex.I := Complex.conj_I
  unfold spinComponent spinOp
  rw [star_mul', d]
  congr 1
  fin_cases a
  · show star (sX y.1 x.1) = sX x.1 y.1
    unfold sX
    rw [star_div₀, star_add, hp, hm, h2, add_comm]
  · show star (sY y.1 x.1) = sY x.1 y.1
    unfold sY
    rw [star_div₀, star_sub, star_mul', hp, hm, h2, hI, mul_neg, div_neg, ← neg_div, neg_sub]
  · exact hz _ _

theorem totalComponent_herm (l : ℕ) (a : Fin 3) (x y : ℤ × ℤ) : star (totalComponent l a y x) = totalComponent l a x y := by
  have d : ∀ i j : ℤ, star (delta i j) = delta j i := by
    intro i j
    unfold delta
    simp only [eq_comm]
    split <;> simp
  have h2 : star (2 : ℂ) = 2 := Complex.conj_ofNat 2
  have hI : star Complex.I = -Complex.I := Complex.conj_I
  unfold totalComponent orbOp
  rw [star_add, spinComponent_herm, star_mul', d]
  congr 2
  fin_cases a
  · show star (lX l y.2 x.2) = lX l x.2 y.2
    unfold lX
    rw [star_div₀, star_add, star_lPlus, star_lMinus, h2, add_comm]
  · show star (lY l y.2 x.2) = lY l x.2 y.2
    unfold lY
    rw [star_div₀, star_sub, star_mul', star_lPlus, star_lMinus, h2, hI, mul_neg, div_neg, ← neg_div, neg_sub]
  · show star (lZ y.2 x.2) = lZ x.2 y.2
    unfold lZ
    by_cases h : y.2 = x.2
    · rw [if_pos h, if_pos h.symm, h]
      exact map_intCast (starRingEnd ℂ) _
    · rw [if_neg h, if_neg (Ne.symm h), star_zero]

theorem VecInv.dagger {κ : Type} [Fintype κ] {l l' : ℕ} {K : ℕ → ℤ × ℤ → ℤ × ℤ → ℂ} {X : κ → ℤ × ℤ → ℤ × ℤ → ℂ} {g : κ → κ → ℂ}
    (h : VecInv l l' K X g) (hK : ∀ l x y, star (K l y x) = K l x y) :
    VecInv l' l K (fun a x y => star (X a y x)) fun c a => -star (g c a) := by
  intro a x hx y hy
  have := congrArg star (h a y hy x hx)
  rw [star_sum, star_add, star_sum, star_sum] at this
  simp only [star_mul', hK] at this
  simp only [neg_mul, sum_neg_distrib]
  have e1 : ∑ z ∈ shell l', K l' x z * star (X a y z) = ∑ z ∈ shell l', star (X a y z) * K l' x z := sum_congr rfl fun z _ => mul_comm _ _
  have e2 : ∑ z ∈ shell l, star (X a z x) * K l z y = ∑ z ∈ shell l, K l z y * star (X a z x) := sum_congr rfl fun z _ => mul_comm _ _
  rw [e1, e2, this]
  ring

end

end

end Verif
