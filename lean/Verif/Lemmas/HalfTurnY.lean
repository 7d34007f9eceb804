/-
A half turn of the Hamiltonian and of the transition operators about the y axis.
-/
import Verif.Lemmas.HalfTurn

namespace Verif

open Finset Mpi Psr Spec

noncomputable section

/-- The phase of a state. -/
def yPhase (x : ℤ × ℤ) : ℂ := (-1) ^ (x.2 + x.1)

theorem yPhase_sq (x : ℤ × ℤ) : yPhase x * yPhase x = 1 := by
  unfold yPhase
  rw [← zpow_add₀ (by norm_num : (-1 : ℂ) ≠ 0), neg_one_zpow_even (by omega)]

theorem yPhase_flip (x : ℤ × ℤ) : yPhase (flipState x) = -yPhase x := by
  unfold yPhase flipState
  dsimp only
  rw [neg_one_zpow_congr (k' := (x.2 + x.1) + 1) (by omega), zpow_add₀ (by norm_num : (-1 : ℂ) ≠ 0), zpow_one]
  ring

theorem yPhase_star (x : ℤ × ℤ) : star (yPhase x) = yPhase x := star_neg_one_zpow _

/-- The product of two phases. -/
theorem yPhase_mul (x y : ℤ × ℤ) : yPhase x * yPhase y = (-1) ^ (x.2 + x.1 + (y.2 + y.1)) := by
  unfold yPhase
  exact (zpow_add₀ (by norm_num : (-1 : ℂ) ≠ 0) _ _).symm

/-- The matrix of the half turn in a shell. -/
def yMatrix (_ : ℕ) (y x : ℤ × ℤ) : ℂ := if y = flipState x then yPhase x else 0

theorem yMatrix_left {l : ℕ} {x : ℤ × ℤ} (hx : x ∈ shell l) (f : ℤ × ℤ → ℂ) :
    ∑ z ∈ shell l, yMatrix l x z * f z = -(yPhase x * f (flipState x)) := by
  rw [sum_eq_single_of_mem _ (flipState_mem hx)]
  · rw [yMatrix, if_pos (flipState_flip x).symm, yPhase_flip, neg_mul]
  · intro z _ hz
    rw [yMatrix, if_neg fun e => hz (by rw [e, flipState_flip]), zero_mul]

theorem yMatrix_right {l : ℕ} {y : ℤ × ℤ} (hy : y ∈ shell l) (f : ℤ × ℤ → ℂ) :
    ∑ z ∈ shell l, f z * yMatrix l z y = yPhase y * f (flipState y) := by
  rw [sum_eq_single_of_mem _ (flipState_mem hy)]
  · rw [yMatrix, if_pos rfl, mul_comm]
  · intro z _ hz
    rw [yMatrix, if_neg hz, mul_zero]

theorem yMatrix_star (l : ℕ) (x y : ℤ × ℤ) : star (yMatrix l x y) = yMatrix l x y := by
  unfold yMatrix
  split
  · exact yPhase_star _
  · exact star_zero _

theorem lDotS_halfY (l : ℕ) {x y : ℤ × ℤ} (hx : x.1 = 0 ∨ x.1 = 1) (hy : y.1 = 0 ∨ y.1 = 1) :
    lDotS l x y = yPhase x * yPhase y * lDotS l (flipState x) (flipState y) := by
  rw [lDotS_half l hx hy, yPhase_mul]
  by_cases h : (x.2 + x.1 + (y.2 + y.1)) % 2 = 0
  · rw [neg_one_zpow_even h, one_mul]
  · have : lDotS l x y = 0 := by
      unfold lDotS lZ lPlus lMinus sZ sPlus sMinus
      split_ifs <;> first | omega | simp
    rw [this, mul_zero]

/-- The components of the field along x and z are reversed. -/
theorem hDotS_halfY (hx hy hz : ℝ) {x y : ℤ × ℤ} (h1 : x.1 = 0 ∨ x.1 = 1) (h2 : y.1 = 0 ∨ y.1 = 1) :
    hDotS (-hx) hy (-hz) x y = yPhase x * yPhase y * hDotS hx hy hz (flipState x) (flipState y) := by
  rw [hDotS_half hx hy hz h1 h2, yPhase_mul]
  unfold hDotS sX sY
  by_cases hm : x.2 = y.2
  · by_cases hs : x.1 = y.1
    · rw [neg_one_zpow_even (by omega), one_mul]
      have a : sPlus x.1 y.1 = 0 := if_neg (by omega)
      have c : sMinus x.1 y.1 = 0 := if_neg (by omega)
      rw [a, c]
      push_cast
      ring
    · rw [neg_one_zpow_congr (k' := 1) (by omega), zpow_one]
      have a : sZ x.1 y.1 = 0 := if_neg hs
      rw [a]
      push_cast
      ring
  · have a : delta x.2 y.2 = 0 := if_neg hm
    rw [a]
    ring

section
variable {b : ℕ → ℕ} {P : BasisParams} {π : ℕ → ℕ} {φ : ℕ → ℂ} (hR : TimeReversal b P π φ)

include hR in
theorem halfY_shellTurn : ShellTurn b P (partnerMatrix π φ) yMatrix where
  unitary := partner_unitary hR.partner hR.unit
  shell l hl x hx i hi := by
    obtain ⟨h1, h2⟩ := hR.shell l hl x.1 (mem_product.1 hx).1 x.2 (mem_product.1 hx).2
    unfold partnerMatrix
    rw [h1, h2, sum_eq_single_of_mem _ (flipState_mem hx)]
    · rw [yMatrix, if_pos rfl]
      rfl
    · intro y _ hy
      rw [yMatrix, if_neg hy, ite_self]
  cols l hl x hx z hz := by
    have e : ∑ y ∈ Spec.shell l, star (yMatrix l y x) * yMatrix l y z = ∑ y ∈ Spec.shell l, yMatrix l y z * yMatrix l y x :=
      sum_congr rfl fun y _ => by rw [yMatrix_star, mul_comm]
    rw [e, yMatrix_right hx, yMatrix]
    by_cases h : x = z
    · rw [if_pos h, if_pos (by rw [h]), h, yPhase_sq]
    · rw [if_neg h, if_neg fun e => h (by rw [← flipState_flip x, e, flipState_flip]), mul_zero]
  rows l hl x hx z hz := by
    rw [yMatrix_left hx, yMatrix_star, yMatrix, flipState_flip, yPhase_flip]
    by_cases h : x = z
    · rw [if_pos h, if_pos h.symm, mul_neg, neg_neg, yPhase_sq]
    · rw [if_neg h, if_neg fun e => h e.symm, mul_zero, neg_zero]
  groups l hl i hi j hj h := by
    unfold partnerMatrix at h
    have e : i = π j := by
      by_contra hne
      exact h (if_neg hne)
    rw [e]
    exact ⟨partner_imp hR hl j hj, hR.bath l hl j hj⟩

include hR in
/-- One-particle operators. -/
theorem halfY_hop {l l' : ℕ} (hl : l ∈ [1, 2]) (hl' : l' ∈ [1, 2]) {N N' : ℤ × ℤ → ℤ × ℤ → ℂ}
    (h : ∀ x ∈ shell l, ∀ y ∈ shell l', N' x y = yPhase x * yPhase y * N (flipState x) (flipState y)) :
    Carried (nTotal (pdSystem b)) (partnerMatrix π φ) (hopShell (position (pdSystem b)) l l' N) (hopShell (position (pdSystem b)) l l' N') := by
  refine shellTurn_hop (halfY_shellTurn hR) hl hl' fun x hx y hy => ?_
  rw [yMatrix_left hx, yMatrix_right hy, h x hx _ (flipState_mem hy), flipState_flip, yPhase_flip]
  linear_combination (yPhase x * N (flipState x) y) * yPhase_sq y

include hR in
theorem halfY_two {gaunt : ℕ → ℕ → ℕ → ℤ → ℤ → ℤ → ℝ} (hG : GauntSymmetric gaunt) {l1 l2 l3 l4 : ℕ} (h1 : l1 ∈ [1, 2]) (h2 : l2 ∈ [1, 2])
    (h3 : l3 ∈ [1, 2]) (h4 : l4 ∈ [1, 2]) (R : List ℝ) :
    Carried (nTotal (pdSystem b)) (partnerMatrix π φ) (twoBody (position (pdSystem b)) l1 l2 l3 l4 (coulomb gaunt l1 l2 l3 l4 R))
      (twoBody (position (pdSystem b)) l1 l2 l3 l4 (coulomb gaunt l1 l2 l3 l4 R)) := by
  refine shellTurn_two (halfY_shellTurn hR) h1 h2 h3 h4 fun x1 k1 x2 k2 x3 k3 x4 k4 => ?_
  rw [sum_product, sum_product]
  dsimp only
  have e1 : ∀ z ∈ shell l1, ∑ z2 ∈ shell l2, yMatrix l1 x1 z * yMatrix l2 x2 z2 * spinDiag (coulomb gaunt l1 l2 l3 l4 R) z z2 x3 x4
      = yMatrix l1 x1 z * -(yPhase x2 * spinDiag (coulomb gaunt l1 l2 l3 l4 R) z (flipState x2) x3 x4) := by
    intro z _
    rw [← yMatrix_left k2 fun z2 => spinDiag (coulomb gaunt l1 l2 l3 l4 R) z z2 x3 x4, mul_sum]
    exact sum_congr rfl fun _ _ => by ring
  have e2 : ∀ z ∈ shell l3, ∑ z2 ∈ shell l4, spinDiag (coulomb gaunt l1 l2 l3 l4 R) x1 x2 z z2 * (yMatrix l3 z x3 * yMatrix l4 z2 x4)
      = yPhase x4 * spinDiag (coulomb gaunt l1 l2 l3 l4 R) x1 x2 z (flipState x4) * yMatrix l3 z x3 := by
    intro z _
    rw [← yMatrix_right k4 fun z2 => spinDiag (coulomb gaunt l1 l2 l3 l4 R) x1 x2 z z2, sum_mul]
    exact sum_congr rfl fun z2 _ => by ring
  rw [sum_congr rfl e1, sum_congr rfl e2, yMatrix_left k1, yMatrix_right k3]
  have e3 : spinDiag (coulomb gaunt l1 l2 l3 l4 R) (flipState x1) (flipState x2) x3 x4
      = spinDiag (coulomb gaunt l1 l2 l3 l4 R) x1 x2 (flipState x3) (flipState x4) := by
    unfold spinDiag flipState
    dsimp only
    have := coulomb_reversed hG l1 l2 l3 l4 R x1.2 x2.2 (-x3.2) (-x4.2)
    rw [neg_neg, neg_neg] at this
    rw [this]
    exact if_congr (by omega) rfl rfl
  rw [e3]
  have hs : yPhase x1 * yPhase x2 * spinDiag (coulomb gaunt l1 l2 l3 l4 R) x1 x2 (flipState x3) (flipState x4)
      = yPhase x3 * yPhase x4 * spinDiag (coulomb gaunt l1 l2 l3 l4 R) x1 x2 (flipState x3) (flipState x4) := by
    unfold spinDiag flipState coulomb
    dsimp only
    split_ifs with a c
    · rw [yPhase_mul, yPhase_mul, neg_one_zpow_congr (k' := x3.2 + x3.1 + (x4.2 + x4.1)) (by omega)]
    · simp
    · simp
  linear_combination hs

include hR in
/-- The half turn of the Hamiltonian. -/
theorem halfY_hamiltonian {gaunt : ℕ → ℕ → ℕ → ℤ → ℤ → ℤ → ℝ} (hG : GauntSymmetric gaunt) {A : MainArgs} (n3d : ℤ) (hx hy hz : ℝ)
    {h0 : Op Label ℂ} (hh : Carried (nTotal (pdSystem b)) (partnerMatrix π φ) (operator (labelSpec (position (pdSystem b)) h0))
      (operator (labelSpec (position (pdSystem b)) h0))) :
    Carried (nTotal (pdSystem b)) (partnerMatrix π φ) (pdHamiltonian gaunt (position (pdSystem b)) A n3d hx hy hz h0)
      (pdHamiltonian gaunt (position (pdSystem b)) A n3d (-hx) hy (-hz) h0) := by
  have hT := halfY_shellTurn hR
  have m1 : 1 ∈ [1, 2] := by simp
  have m2 : 2 ∈ [1, 2] := by simp
  have hC := ((halfY_two hR hG m2 m2 m2 m2 A.Fdd).add (halfY_two hR hG m1 m1 m1 m1 A.Fpp)).add
    ((halfY_two hR hG m1 m2 m2 m1 A.Fpd).add (halfY_two hR hG m2 m1 m1 m2 A.Fpd))
  have hC := hC.add ((halfY_two hR hG m1 m2 m1 m2 A.Gpd).add (halfY_two hR hG m2 m1 m2 m1 A.Gpd))
  have hone : ∀ {l : ℕ} (_ : l ∈ [1, 2]) {N N' : ℤ × ℤ → ℤ × ℤ → ℂ},
      (∀ x ∈ shell l, ∀ y ∈ shell l, N' x y = yPhase x * yPhase y * N (flipState x) (flipState y)) →
      Carried (nTotal (pdSystem b)) (partnerMatrix π φ) (oneBody (position (pdSystem b)) l N) (oneBody (position (pdSystem b)) l N') := by
    intro l hl N N' h
    rw [← hopShell_oneBody, ← hopShell_oneBody]
    exact halfY_hop hR hl hl h
  have hF := hone m2 (N := hDotS hx hy hz) (N' := hDotS (-hx) hy (-hz)) fun x h1 y h2 =>
    hDotS_halfY hx hy hz (shell_spin h1) (shell_spin h2)
  have hS1 := hone m1 (N := fun x y => (A.xi2p : ℂ) * lDotS 1 x y) (N' := fun x y => (A.xi2p : ℂ) * lDotS 1 x y) fun x h1 y h2 => by
    rw [lDotS_halfY 1 (shell_spin h1) (shell_spin h2)]; ring
  have hS2 := hone m2 (N := fun x y => (A.xi3d : ℂ) * lDotS 2 x y) (N' := fun x y => (A.xi3d : ℂ) * lDotS 2 x y) fun x h1 y h2 => by
    rw [lDotS_halfY 2 (shell_spin h1) (shell_spin h2)]; ring
  have hO := ((hC.add hF).add hS1).add hS2
  have hN := (((shellTurn_number hT m2).smul
    ((averageUdd A.Fdd * n3d + averageUpd A.Fpd A.Gpd * 6 - A.chargeTransferCorrection : ℝ) : ℂ)).add
    ((shellTurn_number hT m1).smul ((averageUpd A.Fpd A.Gpd * (n3d + 1) - A.chargeTransferCorrection : ℝ) : ℂ))).smul (-1)
  have hA := (hO.add hN).add hh
  have e : ∀ kx ky kz v, pdHamiltonian gaunt (position (pdSystem b)) A n3d kx ky kz h0 v
      = fun F => twoBody (position (pdSystem b)) 2 2 2 2 (coulomb gaunt 2 2 2 2 A.Fdd) v F
            + twoBody (position (pdSystem b)) 1 1 1 1 (coulomb gaunt 1 1 1 1 A.Fpp) v F
            + (twoBody (position (pdSystem b)) 1 2 2 1 (coulomb gaunt 1 2 2 1 A.Fpd) v F
              + twoBody (position (pdSystem b)) 2 1 1 2 (coulomb gaunt 2 1 1 2 A.Fpd) v F)
            + (twoBody (position (pdSystem b)) 1 2 1 2 (coulomb gaunt 1 2 1 2 A.Gpd) v F
              + twoBody (position (pdSystem b)) 2 1 2 1 (coulomb gaunt 2 1 2 1 A.Gpd) v F)
          + oneBody (position (pdSystem b)) 2 (hDotS kx ky kz) v F
          + oneBody (position (pdSystem b)) 1 (fun x y => (A.xi2p : ℂ) * lDotS 1 x y) v F
          + oneBody (position (pdSystem b)) 2 (fun x y => (A.xi3d : ℂ) * lDotS 2 x y) v F
          + -1 * (((averageUdd A.Fdd * n3d + averageUpd A.Fpd A.Gpd * 6 - A.chargeTransferCorrection : ℝ) : ℂ)
              * shellNumber (position (pdSystem b)) 2 v F
            + ((averageUpd A.Fpd A.Gpd * (n3d + 1) - A.chargeTransferCorrection : ℝ) : ℂ)
              * shellNumber (position (pdSystem b)) 1 v F)
        + operator (labelSpec (position (pdSystem b)) h0) v F := by
    intro kx ky kz v
    funext F
    unfold pdHamiltonian
    ring
  intro v
  rw [e, e]
  exact hA v

/-! ### The transitions -/

/-- The sign of an axis. -/
def axisSignY (t : ℕ) : ℂ := if t = 1 then -1 else 1

theorem axisSignY_star (t : ℕ) : star (axisSignY t) * axisSignY t = 1 := by
  unfold axisSignY
  split <;> simp

include hR in
theorem halfY_between {l l' : ℕ} (hl : l ∈ [1, 2]) (hl' : l' ∈ [1, 2]) {M M' : ℤ → ℤ → ℂ}
    (h : ∀ m m', M' m m' = (-1) ^ (m + m') * M (-m) (-m')) :
    Carried (nTotal (pdSystem b)) (partnerMatrix π φ) (between (position (pdSystem b)) l l' M)
      (between (position (pdSystem b)) l l' M') := by
  rw [← hopShell_between, ← hopShell_between]
  refine halfY_hop hR hl hl' fun x hx y hy => ?_
  unfold spinKept
  by_cases e : x.1 = y.1
  · rw [if_pos e, if_pos (by unfold flipState; rw [e]), h, yPhase_mul,
      neg_one_zpow_congr (k' := x.2 + y.2) (k := x.2 + x.1 + (y.2 + y.1)) (by omega)]
    rfl
  · rw [if_neg e, if_neg (by unfold flipState; dsimp only; omega), mul_zero]

theorem axis_dipoleY {gaunt : ℕ → ℕ → ℕ → ℤ → ℤ → ℤ → ℝ} (hG : GauntSymmetric gaunt) {t : ℕ} (ht : t < 3) (m m' : ℤ) :
    dipole gaunt (axisPol t).x (axisPol t).y (axisPol t).z 2 m 1 m'
      = (-1) ^ (m + m') * (axisSignY t * dipole gaunt (axisPol t).x (axisPol t).y (axisPol t).z 2 (-m) 1 (-m')) := by
  rw [dipole_half hG]
  by_cases h0 : m - m' = 0
  · rw [neg_one_zpow_even (by omega)]
    have a : c1 gaunt 2 m 1 m' 1 = 0 := if_neg (by omega)
    have c : c1 gaunt 2 m 1 m' (-1) = 0 := if_neg (by omega)
    unfold axisPol axisSignY dipole
    rw [a, c]
    interval_cases t <;> simp
  · have a : c1 gaunt 2 m 1 m' 0 = 0 := if_neg h0
    unfold axisPol axisSignY dipole
    rw [a]
    by_cases h2 : m - m' = 1 ∨ m - m' = -1
    · rw [neg_one_zpow_congr (k' := 1) (by omega), zpow_one]
      interval_cases t <;> simp
    · have d : c1 gaunt 2 m 1 m' 1 = 0 := if_neg fun h => h2 (.inl h)
      have c : c1 gaunt 2 m 1 m' (-1) = 0 := if_neg fun h => h2 (.inr h)
      rw [c, d]
      interval_cases t <;> simp

include hR in
theorem halfY_dipolePD {gaunt : ℕ → ℕ → ℕ → ℤ → ℤ → ℤ → ℝ} (hG : GauntSymmetric gaunt) {t : ℕ} (ht : t < 3) :
    FamilyCarried (nTotal (pdSystem b)) (partnerMatrix π φ) 1 (fun _ _ => axisSignY t) (fun _ => dipolePD gaunt b (axisPol t))
      fun _ => dipolePD gaunt b (axisPol t) where
  linear _ _ := between_linear _ _ _ _
  linear' _ _ := between_linear _ _ _ _
  unitary a ha a' ha' := by
    have : a = a' := by omega
    rw [sum_range_one, axisSignY_star, if_pos this]
  carried c hc v := by
    simp only [sum_range_one]
    have h := halfY_between hR (l := 2) (l' := 1) (by simp) (by simp)
      (M := fun m m' => axisSignY t * dipole gaunt (axisPol t).x (axisPol t).y (axisPol t).z 2 m 1 m')
      (M' := fun m m' => dipole gaunt (axisPol t).x (axisPol t).y (axisPol t).z 2 m 1 m') (fun m m' => axis_dipoleY hG ht m m') v
    rw [between_scale] at h
    exact h

include hR in
theorem halfY_dipoleDP {gaunt : ℕ → ℕ → ℕ → ℤ → ℤ → ℤ → ℝ} (hG : GauntSymmetric gaunt) :
    Carried (nTotal (pdSystem b)) (partnerMatrix π φ) (dipoleDP gaunt b ⟨1, 0, 0⟩) (dipoleDP gaunt b ⟨1, 0, 0⟩) := by
  refine halfY_between hR (by simp) (by simp) fun m' m => ?_
  have h := axis_dipoleY hG (t := 0) (by norm_num) m m'
  have e : axisPol 0 = ⟨1, 0, 0⟩ := rfl
  rw [e] at h
  dsimp only at h ⊢
  rw [h, star_mul', star_neg_one_zpow, add_comm m' m]
  unfold axisSignY
  rw [if_neg (by norm_num), one_mul]

include hR in
theorem halfY_create {l : ℕ} (hl : l ∈ [1, 2]) {j : ℕ} (hj : j < 2 * (2 * l + 1)) :
    FamilyCarried (nTotal (pdSystem b)) (partnerMatrix π φ) 1 (fun _ _ => star (φ (impStart (pdSystem b) l + j)))
      (fun _ => create (impStart (pdSystem b) l + j)) fun _ => create (impStart (pdSystem b) l + (2 * (2 * l + 1) - 1 - j)) where
  linear _ _ := create_linear _
  linear' _ _ := create_linear _
  unitary a ha a' ha' := by
    have : a = a' := by omega
    rw [sum_range_one, star_star, mul_comm, unit_star hR.unit, if_pos this]
  carried c hc v := by
    simp only [sum_range_one]
    obtain ⟨h1, h2, h3⟩ := shell_position (b := b) hj
    have hlt : impStart (pdSystem b) l + j < nTotal (pdSystem b) := by rw [h3]; exact shell_lt hl h1 h2
    have e := partner_shell hR hl hj
    have h := changeOrbitals_create (u := partnerMatrix π φ) hlt v
    rw [createOrb_partner (hR.partner _ hlt).1, e] at h
    have h' : changeOrbitals (nTotal (pdSystem b)) (partnerMatrix π φ)
        (fun F => star (φ (impStart (pdSystem b) l + j)) * create (impStart (pdSystem b) l + j) v F)
        = star (φ (impStart (pdSystem b) l + j)) • changeOrbitals (nTotal (pdSystem b)) (partnerMatrix π φ)
          (create (impStart (pdSystem b) l + j) v) := (changeOrbitals_linear _ _).map_smul _ _
    rw [h', h, smul_smul, unit_star hR.unit, one_smul]

include hR in
theorem halfY_annihilate {l : ℕ} (hl : l ∈ [1, 2]) {j : ℕ} (hj : j < 2 * (2 * l + 1)) :
    FamilyCarried (nTotal (pdSystem b)) (partnerMatrix π φ) 1 (fun _ _ => φ (impStart (pdSystem b) l + j))
      (fun _ => annihilate (impStart (pdSystem b) l + j)) fun _ => annihilate (impStart (pdSystem b) l + (2 * (2 * l + 1) - 1 - j)) where
  linear _ _ := annihilate_linear _
  linear' _ _ := annihilate_linear _
  unitary a ha a' ha' := by
    have : a = a' := by omega
    rw [sum_range_one, unit_star hR.unit, if_pos this]
  carried c hc v := by
    simp only [sum_range_one]
    obtain ⟨h1, h2, h3⟩ := shell_position (b := b) hj
    have hlt : impStart (pdSystem b) l + j < nTotal (pdSystem b) := by rw [h3]; exact shell_lt hl h1 h2
    have e := partner_shell hR hl hj
    have h := changeOrbitals_annihilate (partner_unitary hR.partner hR.unit) hlt v
    rw [annihilateOrb_partner (hR.partner _ hlt).1, e] at h
    have h' : changeOrbitals (nTotal (pdSystem b)) (partnerMatrix π φ)
        (fun F => φ (impStart (pdSystem b) l + j) * annihilate (impStart (pdSystem b) l + j) v F)
        = φ (impStart (pdSystem b) l + j) • changeOrbitals (nTotal (pdSystem b)) (partnerMatrix π φ)
          (annihilate (impStart (pdSystem b) l + j) v) := (changeOrbitals_linear _ _).map_smul _ _
    rw [h', h, smul_smul, mul_comm (φ _), unit_star hR.unit, one_smul]

end

/-! ### Crystal-field files -/

section
variable {n : ℕ} {π : ℕ → ℕ} {φ : ℕ → ℂ} (hπ : ∀ i < n, π i < n ∧ π (π i) = i) (hφ : ∀ i, ‖φ i‖ = 1)

/-- The orbitals that form a cubic orbital have the same parity. -/
theorem cubicD_halfY : ∀ i < 5, ∀ j < 5, ∀ c < 5, (-1) ^ i * (-1) ^ j * (cubicD.val i c * star (cubicD.val j c))
    = cubicD.val (4 - i) c * star (cubicD.val (4 - j) c) := by
  intro i hi j hj c hc
  rw [cubicD_half i hi j hj c hc]
  by_cases h : (i + j) % 2 = 0
  · rw [← pow_add, (Nat.even_iff.2 h).neg_one_pow, one_mul]
  · have : cubicD.val i c * star (cubicD.val j c) = 0 := by
      rw [cubicD_val i hi c hc, cubicD_val j hj c hc]
      interval_cases i <;> interval_cases j <;> first | omega | (interval_cases c <;> simp)
    rw [this, mul_zero]

include hπ hφ in
theorem hopSum_moveY {p q p' q' : ℕ → ℕ} {a : ℤ} (hp : ∀ i < 5, p i < n ∧ π (p i) = p' (4 - i) ∧ φ (p i) = (-1) ^ ((i : ℤ) + a))
    (hq : ∀ i < 5, q i < n ∧ π (q i) = q' (4 - i) ∧ φ (q i) = (-1) ^ ((i : ℤ) + a)) (w : ℕ → ℝ) (v : Vec ℂ) :
    moveElectrons n π φ (hopSum ⟨p, cubicD.val⟩ ⟨q, cubicD.val⟩ w v)
      = hopSum ⟨p', cubicD.val⟩ ⟨q', cubicD.val⟩ w (moveElectrons n π φ v) := by
  have key : ∀ (p q : ℕ → ℕ) (v : Vec ℂ), hopSum ⟨p, cubicD.val⟩ ⟨q, cubicD.val⟩ w v
      = fun F => ∑ x ∈ range 5 ×ˢ range 5, (∑ c ∈ range 5, (w c : ℂ) * (cubicD.val x.1 c * star (cubicD.val x.2 c))) *
        create (p x.1) (annihilate (q x.2) v) F := by
    intro p q v
    funext F
    unfold hopSum
    simp only [create_annihilate_in, mul_sum, sum_mul]
    rw [sum_product]
    conv_lhs => rw [sum_comm]
    refine sum_congr rfl fun i _ => ?_
    conv_lhs => rw [sum_comm]
    refine sum_congr rfl fun j _ => ?_
    refine sum_congr rfl fun c _ => ?_
    ring
  rw [key, key, move_sum]
  funext F
  refine sum_bij' (fun x _ => (4 - x.1, 4 - x.2)) (fun x _ => (4 - x.1, 4 - x.2)) ?_ ?_ ?_ ?_ ?_
  · intro x hx
    simp only [mem_product, mem_range] at hx ⊢
    omega
  · intro x hx
    simp only [mem_product, mem_range] at hx ⊢
    omega
  · intro x hx
    simp only [mem_product, mem_range] at hx
    refine Prod.ext ?_ ?_ <;> dsimp only <;> omega
  · intro x hx
    simp only [mem_product, mem_range] at hx
    refine Prod.ext ?_ ?_ <;> dsimp only <;> omega
  · rintro ⟨i, j⟩ hx
    simp only [mem_product, mem_range] at hx
    obtain ⟨hi, hj⟩ := hx
    obtain ⟨p1, p2, p3⟩ := hp i hi
    obtain ⟨q1, q2, q3⟩ := hq j hj
    dsimp only
    rw [move_hop hπ hφ p1 q1, p2, q2, p3, q3, star_neg_one_zpow, Pi.smul_apply, smul_eq_mul, ← mul_assoc]
    congr 1
    rw [sum_mul]
    refine sum_congr rfl fun c hc => ?_
    rw [← cubicD_halfY i hi j hj c (mem_range.1 hc), zpow_add₀ (by norm_num : (-1 : ℂ) ≠ 0), zpow_add₀ (by norm_num : (-1 : ℂ) ≠ 0)]
    have ha : ((-1 : ℂ) ^ a) * (-1) ^ a = 1 := by
      rw [← zpow_add₀ (by norm_num : (-1 : ℂ) ≠ 0), neg_one_zpow_even (by omega)]
    rw [zpow_natCast, zpow_natCast]
    linear_combination ((w c : ℂ) * (cubicD.val i c * star (cubicD.val j c)) * (-1) ^ i * (-1) ^ j) * ha

end

/-- The operator of a crystal-field file is invariant under the half turn. -/
theorem cf_halfY_invariant {b : ℕ → ℕ} {P : BasisParams} {C : CFParams} {h0 : Op Label ℂ} (hv : P.val 2 = 10) (hb : b 2 = 10 ∨ b 2 = 20)
    (hv1 : P.val 1 ≤ b 1)
    (h : getCFHamiltonian [(1, b 1), (2, b 2)] [(1, P.val 1), (2, P.val 2)] C "spherical" = .ok h0) (v : Vec ℂ) :
    operator (labelSpec (position (pdSystem b)) h0) (moveElectrons (nTotal (pdSystem b)) (cfPartner (b 1)) (cfPhase (b 1)) v)
      = moveElectrons (nTotal (pdSystem b)) (cfPartner (b 1)) (cfPhase (b 1)) (operator (labelSpec (position (pdSystem b)) h0) v) := by
  obtain ⟨h0', u, eg, t2g, e, hu, -, -, -, -, -, hm⟩ := C53_meaning (nBaths := [(1, b 1), (2, b 2)])
    (nValBaths := [(1, P.val 1), (2, P.val 2)]) C (b 2) (P.val 2) rfl rfl (Or.inl (rfl : "spherical" = "spherical"))
  obtain rfl := Except.ok.inj (h.symm.trans e)
  obtain rfl : cubicD = u := Except.ok.inj hu
  have hR := cf_timeReversal hv hb hv1
  have hspin : ∀ s ∈ ({0, 1} : Finset ℤ), s = 0 ∨ s = 1 := fun s hs => by simpa using hs
  let n := nTotal (pdSystem b)
  let R := moveElectrons n (cfPartner (b 1)) (cfPhase (b 1))
  let f := position (pdSystem b)
  have hd : ∀ s ∈ ({0, 1} : Finset ℤ), ∀ i < 5, (dOrbitals f cubicD.val s).pos i < n ∧
      cfPartner (b 1) ((dOrbitals f cubicD.val s).pos i) = (dOrbitals f cubicD.val (1 - s)).pos (4 - i) ∧
      cfPhase (b 1) ((dOrbitals f cubicD.val s).pos i) = (-1) ^ ((i : ℤ) + (s - 2)) := by
    intro s hs i hi
    have hm : (i : ℤ) - 2 ∈ mRange 2 := Finset.mem_Icc.2 ⟨by push_cast; omega, by push_cast; omega⟩
    have h1 := hR.shell 2 (by simp) s hs _ hm
    refine ⟨shell_lt (by simp) hs hm, h1.1.trans ?_, h1.2.trans ?_⟩
    · show position (pdSystem b) _ = position (pdSystem b) (.imp 2 (1 - s) (((4 - i : ℕ) : ℤ) - 2))
      congr 2
      omega
    · congr 1
      ring
  have hbath : ∀ c : ℤ, (c = 0 ∨ (c = 10 ∧ b 2 = 20)) → ∀ s ∈ ({0, 1} : Finset ℤ), ∀ i < 5,
      (bathOrbitals f cubicD.val (c + 5 * s)).pos i < n ∧
      cfPartner (b 1) ((bathOrbitals f cubicD.val (c + 5 * s)).pos i)
        = (bathOrbitals f cubicD.val (c + 5 * (1 - s))).pos (4 - i) ∧
      cfPhase (b 1) ((bathOrbitals f cubicD.val (c + 5 * s)).pos i) = (-1) ^ ((i : ℤ) + (s - 2)) := by
    intro c hc s hs i hi
    have hs' := hspin s hs
    have e : ∀ k : ℤ, f (.bath (.int 2) k) = 16 + b 1 + k.toNat := fun k => by
      show bathStart (pdSystem b) (.int 2) + k.toNat = _
      rw [pd_bath2]
    show f (.bath (.int 2) _) < n ∧ cfPartner _ (f (.bath (.int 2) _)) = f (.bath (.int 2) _) ∧ cfPhase _ (f (.bath (.int 2) _)) = _
    simp only [e]
    refine ⟨?_, ?_, ?_⟩
    · show _ < nTotal (pdSystem b)
      rw [pd_total]
      omega
    · unfold cfPartner
      rw [if_neg (by omega), if_neg (by omega), if_neg (by omega)]
      omega
    · unfold cfPhase cfCharge
      rw [if_neg (by omega), if_neg (by omega), if_neg (by omega)]
      congr 1
      omega
  have hflip : ∀ g : ℤ → Vec ℂ, ∑ s ∈ ({0, 1} : Finset ℤ), g (1 - s) = ∑ s ∈ ({0, 1} : Finset ℤ), g s := by
    intro g
    rw [sum_pair (by decide), sum_pair (by decide)]
    show g 1 + g 0 = _
    rw [add_comm]
  have hadd : ∀ x y, R (x + y) = R x + R y := fun x y => move_add x y
  have hRsum : ∀ g : ℤ → Vec ℂ, R (∑ s ∈ ({0, 1} : Finset ℤ), g s) = ∑ s ∈ ({0, 1} : Finset ℤ), R (g s) := by
    intro g
    rw [sum_pair (by decide), sum_pair (by decide)]
    exact move_add _ _
  have hterms : ∀ c : ℤ, (c = 0 ∨ (c = 10 ∧ b 2 = 20)) → ∀ (e1 e2 w1 w2 : ℝ) ,
      R (bathTerms f cubicD.val cubicD.val (fun s => c + 5 * s) (egT2g e1 e2) (egT2g w1 w2) v)
      = bathTerms f cubicD.val cubicD.val (fun s => c + 5 * s) (egT2g e1 e2) (egT2g w1 w2) (R v) := by
    intro c hc e1 e2 w1 w2
    have k1 : ∀ v, bathTerms f cubicD.val cubicD.val (fun s => c + 5 * s) (egT2g e1 e2) (egT2g w1 w2) v
        = ∑ s ∈ ({0, 1} : Finset ℤ),
          (hopSum (bathOrbitals f cubicD.val (c + 5 * s)) (bathOrbitals f cubicD.val (c + 5 * s)) (egT2g e1 e2) v
          + (hopSum (bathOrbitals f cubicD.val (c + 5 * s)) (dOrbitals f cubicD.val s) (egT2g w1 w2) v
            + hopSum (dOrbitals f cubicD.val s) (bathOrbitals f cubicD.val (c + 5 * s)) (egT2g w1 w2) v)) := by
      intro v
      funext F
      rw [Finset.sum_apply]
      rfl
    rw [k1, k1, hRsum]
    refine Eq.trans (sum_congr rfl fun s hs => ?_) (hflip _)
    have r1 : R (hopSum (bathOrbitals f cubicD.val (c + 5 * s)) (bathOrbitals f cubicD.val (c + 5 * s)) (egT2g e1 e2) v)
        = hopSum (bathOrbitals f cubicD.val (c + 5 * (1 - s))) (bathOrbitals f cubicD.val (c + 5 * (1 - s))) (egT2g e1 e2) (R v) :=
      hopSum_moveY hR.partner hR.unit (hbath c hc s hs) (hbath c hc s hs) (egT2g e1 e2) v
    have r2 : R (hopSum (bathOrbitals f cubicD.val (c + 5 * s)) (dOrbitals f cubicD.val s) (egT2g w1 w2) v)
        = hopSum (bathOrbitals f cubicD.val (c + 5 * (1 - s))) (dOrbitals f cubicD.val (1 - s)) (egT2g w1 w2) (R v) :=
      hopSum_moveY hR.partner hR.unit (hbath c hc s hs) (hd s hs) (egT2g w1 w2) v
    have r3 : R (hopSum (dOrbitals f cubicD.val s) (bathOrbitals f cubicD.val (c + 5 * s)) (egT2g w1 w2) v)
        = hopSum (dOrbitals f cubicD.val (1 - s)) (bathOrbitals f cubicD.val (c + 5 * (1 - s))) (egT2g w1 w2) (R v) :=
      hopSum_moveY hR.partner hR.unit (hd s hs) (hbath c hc s hs) (egT2g w1 w2) v
    rw [hadd, hadd, r1, r2, r3]
  have h1 : R (fun F => ∑ s ∈ ({0, 1} : Finset ℤ), hopSum (dOrbitals f cubicD.val s) (dOrbitals f cubicD.val s) (egT2g eg t2g) v F)
      = fun F => ∑ s ∈ ({0, 1} : Finset ℤ), hopSum (dOrbitals f cubicD.val s) (dOrbitals f cubicD.val s) (egT2g eg t2g) (R v) F := by
    have k1 : ∀ v, (fun F => ∑ s ∈ ({0, 1} : Finset ℤ), hopSum (dOrbitals f cubicD.val s) (dOrbitals f cubicD.val s) (egT2g eg t2g) v F)
        = ∑ s ∈ ({0, 1} : Finset ℤ), hopSum (dOrbitals f cubicD.val s) (dOrbitals f cubicD.val s) (egT2g eg t2g) v := by
      intro v
      funext F
      rw [Finset.sum_apply]
    refine (congrArg R (k1 v)).trans (Eq.trans ?_ (k1 (R v)).symm)
    rw [hRsum]
    refine Eq.trans (sum_congr rfl fun s hs => ?_) (hflip _)
    exact hopSum_moveY hR.partner hR.unit (hd s hs) (hd s hs) (egT2g eg t2g) v
  have h2 := hterms 0 (Or.inl rfl)
  simp only [zero_add] at h2
  have hc : ¬ ("spherical" = "cubic") := by decide
  have hop : ∀ v, operator (labelSpec f h0) v
      = (fun F => ∑ s ∈ ({0, 1} : Finset ℤ), hopSum (dOrbitals f cubicD.val s) (dOrbitals f cubicD.val s) (egT2g eg t2g) v F)
        + bathTerms f cubicD.val cubicD.val (fun s => 5 * s) (egT2g C.eValEg C.eValT2g) (egT2g C.vValEg C.vValT2g) v
        + if (b 2 : ℤ) - P.val 2 = 10 then bathTerms f cubicD.val cubicD.val (fun s => 10 + 5 * s) (egT2g C.eConEg C.eConT2g)
          (egT2g C.vConEg C.vConT2g) v else 0 := by
    intro v
    funext F
    rw [hm _ (fun _ => rfl) (fun h => absurd h hc)]
    rw [Pi.add_apply, Pi.add_apply]
    congr 1
    split <;> rfl
  show operator (labelSpec f h0) (R v) = R (operator (labelSpec f h0) v)
  rw [hop, hop]
  rw [hadd, hadd, h1, h2]
  congr 1
  split
  · rename_i h10
    exact (hterms 10 (Or.inr ⟨rfl, by omega⟩) _ _ _ _).symm
  · exact move_zero.symm



end

end Verif
