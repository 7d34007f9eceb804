/-
The Hamiltonian of main and the rotations generated by a conserved angular momentum.
-/
import Verif.Lemmas.Momentum
import Verif.Lemmas.Family
import Verif.Prop.BathChange

namespace Verif

open Finset Matrix NormedSpace Spec

noncomputable section

/-! ### The rotations -/

/-- The generator of the rotation in all one-electron states. -/
def turnOrb (J : Fin 3 → ℕ → ℕ → ℂ) (w : Fin 3 → ℝ) (i j : ℕ) : ℂ := ∑ a, -Complex.I * w a * J a i j

section
variable {b : ℕ → ℕ} {P : BasisParams} {h0 : Op Label ℂ} {K : ℕ → Fin 3 → ℤ × ℤ → ℤ × ℤ → ℂ} {J : Fin 3 → ℕ → ℕ → ℂ}
  (hJ : ConservesMomentum b P h0 K J)

include hJ in
theorem momentum_generator (w : Fin 3 → ℝ) : Generator b P (turnOrb J w) (turnGen K w) where
  skew i hi j hj := by
    unfold turnOrb
    rw [star_sum, ← sum_neg_distrib]
    refine sum_congr rfl fun a _ => ?_
    rw [star_mul', star_mul', star_neg, hJ.hermitian a i hi j hj, star_star]
    have h1 : star Complex.I = -Complex.I := Complex.conj_I
    have h2 : star (w a : ℂ) = w a := Complex.conj_ofReal _
    rw [h1, h2]
    ring
  shell l hl x hx y hy := by
    unfold turnOrb turnGen
    exact sum_congr rfl fun a _ => by rw [hJ.shell a l hl x hx y hy]
  groups l hl i hi j hj hne := by
    unfold turnOrb at hne
    obtain ⟨a, -, ha⟩ := exists_ne_zero_of_sum_ne_zero hne
    exact hJ.groups a l hl i hi j hj (right_ne_zero_of_mul ha)

/-- The change of the states of the rotation by `w`. -/
abbrev turnU (b : ℕ → ℕ) (J : Fin 3 → ℕ → ℕ → ℂ) (w : Fin 3 → ℝ) : ℕ → ℕ → ℂ := expOrb (nTotal (pdSystem b)) (turnOrb J w)

include hJ in
theorem momentum_turn (w : Fin 3 → ℝ) : ShellTurn b P (turnU b J w) (expShell (turnGen K w)) :=
  generator_turn (momentum_generator hJ w)

include hJ in
/-- The non-interacting operator is not changed. -/
theorem momentum_h0 (w : Fin 3 → ℝ) :
    Carried (nTotal (pdSystem b)) (turnU b J w) (operator (labelSpec (position (pdSystem b)) h0))
      (operator (labelSpec (position (pdSystem b)) h0)) := by
  have hT := momentum_turn hJ w
  refine C89_carried hT.unitary hJ.oneElectron hJ.oneElectron fun i hi j hj => ?_
  set n := nTotal (pdSystem b)
  set τ := oneMatrix (pdSystem b) h0
  have hc := exp_intertwine (A := Matrix.of fun a c : Fin n => turnOrb J w a c) (B := Matrix.of fun a c : Fin n => turnOrb J w a c)
    (C := Matrix.of fun a c : Fin n => τ a c) (by
      ext x y
      rw [Matrix.mul_apply, Matrix.mul_apply]
      simp only [Matrix.of_apply, turnOrb, sum_mul, mul_sum]
      refine sum_comm.trans (Eq.trans (sum_congr rfl fun a _ => ?_) sum_comm)
      have := hJ.commutes a x x.2 y y.2
      rw [Finset.sum_range, Finset.sum_range] at this
      calc _ = -Complex.I * w a * ∑ k : Fin n, J a x k * τ k y := by rw [mul_sum]; exact sum_congr rfl fun k _ => by ring
        _ = -Complex.I * w a * ∑ k : Fin n, τ x k * J a k y := by rw [this]
        _ = _ := by rw [mul_sum]; exact sum_congr rfl fun k _ => by ring)
  have h1 : ∀ l < n, ∑ k ∈ range n, turnU b J w i k * τ k l = ∑ k ∈ range n, τ i k * turnU b J w k l := by
    intro l hl
    have := congrFun (congrFun hc ⟨i, hi⟩) ⟨l, hl⟩
    rw [Matrix.mul_apply, Matrix.mul_apply] at this
    rw [Finset.sum_range, Finset.sum_range]
    refine Eq.trans (sum_congr rfl fun k _ => ?_) (this.trans (sum_congr rfl fun k _ => ?_))
    · exact congrArg (· * _) (expOrb_apply _ ⟨i, hi⟩ k)
    · exact congrArg (_ * ·) (expOrb_apply _ k ⟨l, hl⟩).symm
  unfold transformed
  rw [sum_comm]
  have h2 : ∀ l ∈ range n, ∑ k ∈ range n, turnU b J w i k * τ k l * star (turnU b J w j l)
      = ∑ k ∈ range n, τ i k * (turnU b J w k l * star (turnU b J w j l)) := by
    intro l hl
    rw [← sum_mul, h1 l (mem_range.1 hl), sum_mul]
    exact sum_congr rfl fun k _ => by ring
  rw [sum_congr rfl h2, sum_comm]
  have h3 : ∀ k ∈ range n, ∑ l ∈ range n, τ i k * (turnU b J w k l * star (turnU b J w j l)) = if k = j then τ i k else 0 := by
    intro k hk
    rw [← mul_sum, hT.unitary.2 k (mem_range.1 hk) j hj, mul_ite, mul_one, mul_zero]
  rw [sum_congr rfl h3, sum_ite_eq', if_pos (mem_range.2 hj)]

end

/-! ### The Hamiltonian -/

/-- How the angular momentum acts on the parts of the Hamiltonian. -/
structure Turning (gaunt : GauntFun) (A : MainArgs) (K : ℕ → Fin 3 → ℤ × ℤ → ℤ × ℤ → ℂ) : Prop where
  two : ∀ l1 l2 l3 l4 R a, TwoInv l1 l2 l3 l4 (spinDiag (coulomb gaunt l1 l2 l3 l4 R)) fun l => K l a
  field : ∀ a, VecInv 2 2 (fun l => K l a) (fun c => spinComponent 2 c) fun c d => Complex.I * levi a d c
  soc1 : ∀ a, VecInv 1 1 (fun l => K l a) (fun _ : Unit => fun x y => (A.xi2p : ℂ) * lDotS 1 x y) fun _ _ => 0
  soc2 : ∀ a, VecInv 2 2 (fun l => K l a) (fun _ : Unit => fun x y => (A.xi3d : ℂ) * lDotS 2 x y) fun _ _ => 0

theorem VecInv.scaled {κ : Type} [Fintype κ] {l l' : ℕ} {K : ℕ → ℤ × ℤ → ℤ × ℤ → ℂ} {X : κ → ℤ × ℤ → ℤ × ℤ → ℂ} {g : κ → κ → ℂ}
    (h : VecInv l l' K X g) (r : ℂ) : VecInv l l' K (fun a x y => r * X a x y) g := by
  intro a x hx y hy
  have e1 : ∀ z, K l x z * (r * X a z y) = r * (K l x z * X a z y) := fun z => by ring
  have e2 : ∀ c, g c a * (r * X c x y) = r * (g c a * X c x y) := fun z => by ring
  simp only [e1, e2, mul_assoc, ← mul_sum]
  rw [h a x hx y hy]
  ring

theorem turning_total {gaunt : GauntFun} (hi : GauntInvariant gaunt) (hs : GauntSymmetric gaunt) (A : MainArgs) :
    Turning gaunt A totalComponent where
  two _ _ _ _ R a := twoInv_total hi hs R a
  field a := total_vector 2 a
  soc1 a := (lDotS_total 1 a).scaled _
  soc2 a := (lDotS_total 2 a).scaled _

theorem turning_spin (gaunt : GauntFun) {A : MainArgs} (h1 : A.xi2p = 0) (h2 : A.xi3d = 0) : Turning gaunt A spinComponent where
  two _ _ _ _ _ a := twoInv_spinComponent _ a
  field a := spin_vector 2 a
  soc1 a := by
    intro _ x _ y _
    simp [h1]
  soc2 a := by
    intro _ x _ y _
    simp [h2]

/-- The components of a field. -/
def vec3 (x y z : ℝ) : Fin 3 → ℝ := ![x, y, z]

theorem hDotS_components (l : ℕ) (hx hy hz : ℝ) (x y : ℤ × ℤ) :
    hDotS hx hy hz x y = ∑ a, (vec3 hx hy hz a : ℂ) * spinComponent l a x y := by
  rw [Fin.sum_univ_three]
  unfold hDotS spinComponent spinOp vec3
  simp
  ring

/-- The field `h'` is the field `h` rotated by `w`. -/
def Rotated (w h h' : Fin 3 → ℝ) : Prop := ∀ c, (h' c : ℂ) = ∑ a, exp (crossMat w) c a * h a

section
variable {gaunt : GauntFun} {A : MainArgs} {b : ℕ → ℕ} {P : BasisParams} {h0 : Op Label ℂ}
  {K : ℕ → Fin 3 → ℤ × ℤ → ℤ × ℤ → ℂ} {J : Fin 3 → ℕ → ℕ → ℂ} (hJ : ConservesMomentum b P h0 K J)

/-- A family of matrices of the shells that is mixed by the rotation as a vector. -/
theorem turn_family {l l' : ℕ} {X : Fin 3 → ℤ × ℤ → ℤ × ℤ → ℂ}
    (h : ∀ a, VecInv l l' (fun l => K l a) X fun c d => Complex.I * levi a d c) (w : Fin 3 → ℝ) (a : Fin 3) {x y : ℤ × ℤ}
    (hx : x ∈ shell l) (hy : y ∈ shell l') :
    ∑ z ∈ shell l, expShell (turnGen K w) l x z * X a z y
      = ∑ z ∈ shell l', (∑ c, exp (crossMat w) c a * X c x z) * expShell (turnGen K w) l' z y := by
  refine expShell_family (g := crossMat w) (fun a x hx y hy => ?_) a hx hy
  rw [VecInv.gen h w a x hx y hy]
  congr 1
  refine sum_congr rfl fun c _ => congrArg (· * _) ?_
  unfold crossMat
  rw [Matrix.of_apply]
  refine sum_congr rfl fun d _ => ?_
  linear_combination (-(w d : ℂ) * levi d a c) * Complex.I_mul_I

/-- A matrix of the shells that is not changed by the rotation. -/
theorem turn_fixed {l l' : ℕ} {N : ℤ × ℤ → ℤ × ℤ → ℂ} (h : ∀ a, VecInv l l' (fun l => K l a) (fun _ : Unit => N) fun _ _ => 0)
    (w : Fin 3 → ℝ) {x y : ℤ × ℤ} (hx : x ∈ shell l) (hy : y ∈ shell l') :
    ∑ z ∈ shell l, expShell (turnGen K w) l x z * N z y = ∑ z ∈ shell l', N x z * expShell (turnGen K w) l' z y := by
  have k := expShell_family (M := turnGen K w) (X := fun _ : Unit => N) (g := 0) (fun a x hx y hy => by
    rw [VecInv.gen h w a x hx y hy]
    simp) () hx hy
  rw [k]
  simp

include hJ in
/-- The rotation carries the Hamiltonian with the field `h` to the one with the field `h'`. -/
theorem momentum_hamiltonian (hK : Turning gaunt A K) (w : Fin 3 → ℝ) (n3d : ℤ) {hx hy hz hx' hy' hz' : ℝ}
    (hw : Rotated w (vec3 hx hy hz) (vec3 hx' hy' hz')) :
    Carried (nTotal (pdSystem b)) (turnU b J w) (pdHamiltonian gaunt (position (pdSystem b)) A n3d hx hy hz h0)
      (pdHamiltonian gaunt (position (pdSystem b)) A n3d hx' hy' hz' h0) := by
  have hT := momentum_turn hJ w
  have m1 : 1 ∈ [1, 2] := by simp
  have m2 : 2 ∈ [1, 2] := by simp
  have t2 : ∀ {l1 l2 l3 l4 : ℕ} (_ : l1 ∈ [1, 2]) (_ : l2 ∈ [1, 2]) (_ : l3 ∈ [1, 2]) (_ : l4 ∈ [1, 2]) (R : List ℝ),
      Carried (nTotal (pdSystem b)) (turnU b J w) (twoBody (position (pdSystem b)) l1 l2 l3 l4 (coulomb gaunt l1 l2 l3 l4 R))
        (twoBody (position (pdSystem b)) l1 l2 l3 l4 (coulomb gaunt l1 l2 l3 l4 R)) := by
    intro l1 l2 l3 l4 h1 h2 h3 h4 R
    refine shellTurn_two hT h1 h2 h3 h4 fun x1 k1 x2 k2 x3 k3 x4 k4 => ?_
    exact expShell_tensor (TwoInv.gen (fun a => hK.two l1 l2 l3 l4 R a) w) k1 k2 k3 k4
  have hC := ((t2 m2 m2 m2 m2 A.Fdd).add (t2 m1 m1 m1 m1 A.Fpp)).add ((t2 m1 m2 m2 m1 A.Fpd).add (t2 m2 m1 m1 m2 A.Fpd))
  have hC := hC.add ((t2 m1 m2 m1 m2 A.Gpd).add (t2 m2 m1 m2 m1 A.Gpd))
  have hF : Carried (nTotal (pdSystem b)) (turnU b J w) (oneBody (position (pdSystem b)) 2 (hDotS hx hy hz))
      (oneBody (position (pdSystem b)) 2 (hDotS hx' hy' hz')) := by
    rw [← hopShell_oneBody, ← hopShell_oneBody]
    refine shellTurn_hop hT m2 m2 fun x kx y ky => ?_
    simp only [hDotS_components 2]
    simp only [mul_sum, sum_mul]
    rw [sum_comm]
    have e : ∀ a : Fin 3, ∑ z ∈ shell 2, expShell (turnGen K w) 2 x z * ((vec3 hx hy hz a : ℂ) * spinComponent 2 a z y)
        = ∑ z ∈ shell 2, ∑ c, (exp (crossMat w) c a * (vec3 hx hy hz a : ℂ)) * spinComponent 2 c x z * expShell (turnGen K w) 2 z y := by
      intro a
      have h := turn_family hK.field w a kx ky
      calc _ = (vec3 hx hy hz a : ℂ) * ∑ z ∈ shell 2, expShell (turnGen K w) 2 x z * spinComponent 2 a z y := by
              rw [mul_sum]; exact sum_congr rfl fun z _ => by ring
        _ = _ := by
              rw [h, mul_sum]
              refine sum_congr rfl fun z _ => ?_
              rw [sum_mul, mul_sum]
              exact sum_congr rfl fun c _ => by ring
    rw [sum_congr rfl fun a _ => e a, sum_comm]
    refine sum_congr rfl fun z _ => ?_
    rw [sum_comm]
    refine sum_congr rfl fun c _ => ?_
    rw [hw c, sum_mul, sum_mul]
  have hS1 : Carried (nTotal (pdSystem b)) (turnU b J w) (oneBody (position (pdSystem b)) 1 fun x y => (A.xi2p : ℂ) * lDotS 1 x y)
      (oneBody (position (pdSystem b)) 1 fun x y => (A.xi2p : ℂ) * lDotS 1 x y) := by
    rw [← hopShell_oneBody]
    exact shellTurn_hop hT m1 m1 fun x kx y ky => turn_fixed hK.soc1 w kx ky
  have hS2 : Carried (nTotal (pdSystem b)) (turnU b J w) (oneBody (position (pdSystem b)) 2 fun x y => (A.xi3d : ℂ) * lDotS 2 x y)
      (oneBody (position (pdSystem b)) 2 fun x y => (A.xi3d : ℂ) * lDotS 2 x y) := by
    rw [← hopShell_oneBody]
    exact shellTurn_hop hT m2 m2 fun x kx y ky => turn_fixed hK.soc2 w kx ky
  have hO := ((hC.add hF).add hS1).add hS2
  have hN := (((shellTurn_number hT m2).smul
    ((averageUdd A.Fdd * n3d + averageUpd A.Fpd A.Gpd * 6 - A.chargeTransferCorrection : ℝ) : ℂ)).add
    ((shellTurn_number hT m1).smul ((averageUpd A.Fpd A.Gpd * (n3d + 1) - A.chargeTransferCorrection : ℝ) : ℂ))).smul (-1)
  have hA := (hO.add hN).add (momentum_h0 hJ w)
  have e : ∀ kx ky kz v, pdHamiltonian gaunt (position (pdSystem b)) A n3d kx ky kz h0 v
      = fun F => twoBody (position (pdSystem b)) 2 2 2 2 (coulomb gaunt 2 2 2 2 A.Fdd) v F
            + twoBody (position (pdSystem b)) 1 1 1 1 (coulomb gaunt 1 1 1 1 A.Fpp) v F
            + (twoBody (position (pdSystem b)) 1 2 2 1 (coulomb gaunt 1 2 2 1 A.Fpd) v F
              + twoBody (position (pdSystem b)) 2 1 1 2 (coulomb gaunt 2 1 1 2 A.Fpd) v F)
            + (twoBody (position (pdSystem b)) 1 2 1 2 (coulomb gaunt 1 2 1 2 A.Gpd) v F
              + twoBody (position (pdSystem b)) 2 1 2 1 (coulomb gaunt 2 1 2 1 A.Gpd) v F)
          + oneBody (position (pdSystem b)) 2 (hDotS kx ky kz) v F
          + oneBody (position (pdSystem b)) 1 (fun x y => (A.xi2p : ℂ) * lDotS 1 x y) v F
          + oneBody (position (pdSystem b)) 2 (fun x y => (A.xi3d : ℂ) * lDotS 2 x y) v F
          + -1 * (((averageUdd A.Fdd * n3d + averageUpd A.Fpd A.Gpd * 6 - A.chargeTransferCorrection : ℝ) : ℂ)
              * shellNumber (position (pdSystem b)) 2 v F
            + ((averageUpd A.Fpd A.Gpd * (n3d + 1) - A.chargeTransferCorrection : ℝ) : ℂ)
              * shellNumber (position (pdSystem b)) 1 v F)
        + operator (labelSpec (position (pdSystem b)) h0) v F := by
    intro kx ky kz v
    funext F
    unfold pdHamiltonian
    ring
  intro v
  rw [e, e]
  exact hA v

end

end

end Verif
