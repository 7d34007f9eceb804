/-
A half turn of the Hamiltonian and of the transition operators about the x axis.
-/
import Verif.Spec.HalfTurn
import Verif.Lemmas.FieldReversal
import Verif.Lemmas.TimeReversalCF
import Verif.Lemmas.TurnRun

namespace Verif

open Finset Mpi Psr Spec

noncomputable section

theorem position_cfPhase {b : ℕ → ℕ} {l : ℕ} (hl : l ∈ [1, 2]) {s m : ℤ} (hs : s ∈ ({0, 1} : Finset ℤ)) (hm : m ∈ mRange l) :
    cfPhase 0 (position (pdSystem b) (.imp l s m)) = (-1) ^ (m + s) := by
  have hm := mem_Icc.1 hm
  simp only [mem_insert, mem_singleton] at hs
  simp only [List.mem_cons, List.not_mem_nil, or_false] at hl
  unfold position cfPhase
  dsimp only
  rcases hl with rfl | rfl
  · rw [pd_start1]
    push_cast at hm
    congr 1
    unfold cfCharge
    rw [if_pos (by rcases hs with rfl | rfl <;> simp <;> omega)]
    rcases hs with rfl | rfl <;> simp <;> omega
  · rw [pd_start2]
    push_cast at hm
    congr 1
    unfold cfCharge
    rcases hs with rfl | rfl
    · rw [if_neg (by simp), if_pos (by simp; omega)]
      simp; omega
    · rw [if_neg (by simp), if_pos (by simp; omega)]
      simp; omega

section
variable {b : ℕ → ℕ} {P : BasisParams} {π : ℕ → ℕ} {φ : ℕ → ℂ} (hR : HalfTurn b P π φ)

include hR in
/-- The partners are those of time reversal. -/
theorem half_reversal : TimeReversal b P π (cfPhase 0) where
  shell l hl s hs m hm := ⟨(hR.shell l hl s hs m hm).1, position_cfPhase hl hs hm⟩
  partner := hR.partner
  unit i := by
    unfold cfPhase
    rw [norm_zpow, norm_neg, norm_one, one_zpow]
  bath := hR.bath

/-- The spin and the orbital momentum are reversed. -/
def flipState (x : ℤ × ℤ) : ℤ × ℤ := (1 - x.1, -x.2)

theorem flipState_flip (x : ℤ × ℤ) : flipState (flipState x) = x := by
  simp only [flipState, sub_sub_cancel, neg_neg]

theorem flipState_mem {l : ℕ} {x : ℤ × ℤ} (hx : x ∈ shell l) : flipState x ∈ shell l := flip_shell hx

/-- The matrix of the half turn in a shell. -/
def halfMatrix (l : ℕ) (y x : ℤ × ℤ) : ℂ := if y = flipState x then (-1) ^ l else 0

theorem halfMatrix_comm (l : ℕ) (y x : ℤ × ℤ) : halfMatrix l y x = halfMatrix l x y := by
  unfold halfMatrix
  by_cases h : y = flipState x
  · rw [if_pos h, if_pos (by rw [h, flipState_flip])]
  · rw [if_neg h, if_neg fun e => h (by rw [e, flipState_flip])]

theorem halfMatrix_sum {l : ℕ} {x : ℤ × ℤ} (hx : x ∈ shell l) (f : ℤ × ℤ → ℂ) :
    ∑ z ∈ shell l, halfMatrix l x z * f z = (-1) ^ l * f (flipState x) := by
  rw [sum_eq_single_of_mem _ (flipState_mem hx)]
  · rw [halfMatrix_comm, halfMatrix, if_pos rfl]
  · intro z _ hz
    rw [halfMatrix_comm, halfMatrix, if_neg hz, zero_mul]

theorem sign_sign (l : ℕ) : ((-1 : ℂ) ^ l) * (-1) ^ l = 1 := by rw [← mul_pow]; norm_num

theorem halfMatrix_star (l : ℕ) (x y : ℤ × ℤ) : star (halfMatrix l x y) = halfMatrix l x y := by
  unfold halfMatrix
  split <;> simp

theorem halfMatrix_unitary {l : ℕ} {x z : ℤ × ℤ} (hx : x ∈ shell l) :
    ∑ y ∈ shell l, halfMatrix l x y * halfMatrix l z y = if x = z then 1 else 0 := by
  rw [halfMatrix_sum hx, halfMatrix]
  by_cases h : x = z
  · rw [if_pos h, if_pos (by rw [h, flipState_flip]), sign_sign]
  · rw [if_neg h, if_neg fun e => h (by rw [e, flipState_flip]), mul_zero]

include hR in
theorem half_shellTurn : ShellTurn b P (partnerMatrix π φ) halfMatrix where
  unitary := partner_unitary hR.partner hR.unit
  shell l hl x hx i hi := by
    obtain ⟨h1, h2⟩ := hR.shell l hl x.1 (mem_product.1 hx).1 x.2 (mem_product.1 hx).2
    unfold partnerMatrix
    rw [h1, h2, sum_eq_single_of_mem _ (flipState_mem hx)]
    · rw [halfMatrix, if_pos rfl]
      rfl
    · intro y _ hy
      rw [halfMatrix, if_neg hy, ite_self]
  cols l hl x hx z hz := by
    rw [← halfMatrix_unitary hx]
    exact sum_congr rfl fun y _ => by rw [halfMatrix_star, halfMatrix_comm l y x, halfMatrix_comm l y z]
  rows l hl x hx z hz := by
    rw [← halfMatrix_unitary hx]
    exact sum_congr rfl fun y _ => by rw [halfMatrix_star]
  groups l hl i hi j hj h := by
    unfold partnerMatrix at h
    have e : i = π j := by
      by_contra hne
      exact h (if_neg hne)
    rw [e]
    exact ⟨partner_imp (half_reversal hR) hl j hj, hR.bath l hl j hj⟩

include hR in
/-- One-particle operators. -/
theorem half_hop {l l' : ℕ} (hl : l ∈ [1, 2]) (hl' : l' ∈ [1, 2]) {N N' : ℤ × ℤ → ℤ × ℤ → ℂ}
    (h : ∀ x ∈ shell l, ∀ y ∈ shell l', N' x y = (-1) ^ (l + l') * N (flipState x) (flipState y)) :
    Carried (nTotal (pdSystem b)) (partnerMatrix π φ) (hopShell (position (pdSystem b)) l l' N) (hopShell (position (pdSystem b)) l l' N') := by
  refine shellTurn_hop (half_shellTurn hR) hl hl' fun x hx y hy => ?_
  rw [halfMatrix_sum hx]
  have e : ∑ z ∈ shell l', N' x z * halfMatrix l' z y = ∑ z ∈ shell l', halfMatrix l' y z * N' x z :=
    sum_congr rfl fun z _ => by rw [mul_comm, halfMatrix_comm]
  rw [e, halfMatrix_sum hy, h x hx _ (flipState_mem hy), flipState_flip, pow_add]
  linear_combination (-((-1) ^ l * N (flipState x) y)) * sign_sign l'

include hR in
theorem half_two {gaunt : ℕ → ℕ → ℕ → ℤ → ℤ → ℤ → ℝ} (hG : GauntSymmetric gaunt) {l1 l2 l3 l4 : ℕ} (h1 : l1 ∈ [1, 2]) (h2 : l2 ∈ [1, 2])
    (h3 : l3 ∈ [1, 2]) (h4 : l4 ∈ [1, 2]) (hpar : Even (l1 + l2 + l3 + l4)) (R : List ℝ) :
    Carried (nTotal (pdSystem b)) (partnerMatrix π φ) (twoBody (position (pdSystem b)) l1 l2 l3 l4 (coulomb gaunt l1 l2 l3 l4 R))
      (twoBody (position (pdSystem b)) l1 l2 l3 l4 (coulomb gaunt l1 l2 l3 l4 R)) := by
  refine shellTurn_two (half_shellTurn hR) h1 h2 h3 h4 fun x1 k1 x2 k2 x3 k3 x4 k4 => ?_
  rw [sum_product, sum_product]
  dsimp only
  have e1 : ∀ z ∈ shell l1, ∑ z2 ∈ shell l2, halfMatrix l1 x1 z * halfMatrix l2 x2 z2 * spinDiag (coulomb gaunt l1 l2 l3 l4 R) z z2 x3 x4
      = halfMatrix l1 x1 z * ((-1) ^ l2 * spinDiag (coulomb gaunt l1 l2 l3 l4 R) z (flipState x2) x3 x4) := by
    intro z _
    rw [← halfMatrix_sum k2 fun z2 => spinDiag (coulomb gaunt l1 l2 l3 l4 R) z z2 x3 x4, mul_sum]
    exact sum_congr rfl fun _ _ => by ring
  have e2 : ∀ z ∈ shell l3, ∑ z2 ∈ shell l4, spinDiag (coulomb gaunt l1 l2 l3 l4 R) x1 x2 z z2 * (halfMatrix l3 z x3 * halfMatrix l4 z2 x4)
      = halfMatrix l3 x3 z * ((-1) ^ l4 * spinDiag (coulomb gaunt l1 l2 l3 l4 R) x1 x2 z (flipState x4)) := by
    intro z _
    rw [← halfMatrix_sum k4 fun z2 => spinDiag (coulomb gaunt l1 l2 l3 l4 R) x1 x2 z z2, mul_sum]
    exact sum_congr rfl fun z2 _ => by rw [halfMatrix_comm l3 z, halfMatrix_comm l4 z2]; ring
  rw [sum_congr rfl e1, sum_congr rfl e2, halfMatrix_sum k1, halfMatrix_sum k3]
  have e3 : spinDiag (coulomb gaunt l1 l2 l3 l4 R) (flipState x1) (flipState x2) x3 x4
      = spinDiag (coulomb gaunt l1 l2 l3 l4 R) x1 x2 (flipState x3) (flipState x4) := by
    unfold spinDiag flipState
    dsimp only
    have := coulomb_reversed hG l1 l2 l3 l4 R x1.2 x2.2 (-x3.2) (-x4.2)
    rw [neg_neg, neg_neg] at this
    rw [this]
    exact if_congr (by omega) rfl rfl
  rw [e3]
  have hs : ((-1 : ℂ) ^ l1) * (-1) ^ l2 = (-1) ^ l3 * (-1) ^ l4 := by
    rw [← pow_add, ← pow_add]
    have : ((-1 : ℂ) ^ (l1 + l2)) * (-1) ^ (l3 + l4) = 1 := by
      rw [← pow_add, ← add_assoc]
      exact hpar.neg_one_pow
    linear_combination ((-1 : ℂ) ^ (l3 + l4)) * this - (-1) ^ (l1 + l2) * sign_sign (l3 + l4)
  linear_combination spinDiag (coulomb gaunt l1 l2 l3 l4 R) x1 x2 (flipState x3) (flipState x4) * hs

theorem lPlus_half (l : ℕ) (m m' : ℤ) : lPlus l (-m') (-m) = lMinus l m' m := by
  rw [← lPlus_flip, lPlus]
  split
  · exact (star_ofReal _).symm
  · exact star_zero _ |>.symm

theorem lMinus_half (l : ℕ) (m m' : ℤ) : lMinus l (-m') (-m) = lPlus l m' m := by
  rw [← lMinus_flip, lMinus]
  split
  · exact (star_ofReal _).symm
  · exact star_zero _ |>.symm

theorem lZ_half (m m' : ℤ) : lZ (-m') (-m) = -lZ m' m := by
  rw [← lZ_flip, lZ]
  split
  · exact (star_ofReal ((-m : ℤ) : ℝ) |>.symm).trans (by simp) |>.trans rfl
  · exact star_zero _ |>.symm

theorem sPlus_half (s s' : ℤ) : sPlus (1 - s') (1 - s) = sMinus s' s := by
  rw [← sPlus_flip, sPlus]
  split <;> simp

theorem sMinus_half (s s' : ℤ) : sMinus (1 - s') (1 - s) = sPlus s' s := by
  rw [← sMinus_flip, sMinus]
  split <;> simp

theorem sZ_half {s s' : ℤ} (hs : s = 0 ∨ s = 1) (hs' : s' = 0 ∨ s' = 1) : sZ (1 - s') (1 - s) = -sZ s' s := by
  rw [← sZ_flip hs hs', sZ]
  split_ifs <;> simp

theorem delta_half (m m' : ℤ) : delta (-m') (-m) = delta m' m := by
  unfold delta
  exact if_congr neg_inj rfl rfl

theorem lDotS_half (l : ℕ) {x y : ℤ × ℤ} (hx : x.1 = 0 ∨ x.1 = 1) (hy : y.1 = 0 ∨ y.1 = 1) :
    lDotS l (flipState x) (flipState y) = lDotS l x y := by
  unfold lDotS flipState
  dsimp only
  rw [lPlus_half, lMinus_half, sPlus_half, sMinus_half, lZ_half, sZ_half hy hx]
  ring

/-- The components of the field along y and z are reversed. -/
theorem hDotS_half (hx hy hz : ℝ) {x y : ℤ × ℤ} (h1 : x.1 = 0 ∨ x.1 = 1) (h2 : y.1 = 0 ∨ y.1 = 1) :
    hDotS hx hy hz (flipState x) (flipState y) = hDotS hx (-hy) (-hz) x y := by
  unfold hDotS flipState sX sY
  dsimp only
  rw [sPlus_half, sMinus_half, sZ_half h2 h1, delta_half]
  push_cast
  ring

include hR in
/-- The half turn of the Hamiltonian. -/
theorem half_hamiltonian {gaunt : ℕ → ℕ → ℕ → ℤ → ℤ → ℤ → ℝ} (hG : GauntSymmetric gaunt) {A : MainArgs} (n3d : ℤ) (hx hy hz : ℝ)
    {h0 : Op Label ℂ} (hh : Carried (nTotal (pdSystem b)) (partnerMatrix π φ) (operator (labelSpec (position (pdSystem b)) h0))
      (operator (labelSpec (position (pdSystem b)) h0))) :
    Carried (nTotal (pdSystem b)) (partnerMatrix π φ) (pdHamiltonian gaunt (position (pdSystem b)) A n3d hx hy hz h0)
      (pdHamiltonian gaunt (position (pdSystem b)) A n3d hx (-hy) (-hz) h0) := by
  have hT := half_shellTurn hR
  have m1 : 1 ∈ [1, 2] := by simp
  have m2 : 2 ∈ [1, 2] := by simp
  have hC := ((half_two hR hG m2 m2 m2 m2 (by decide) A.Fdd).add (half_two hR hG m1 m1 m1 m1 (by decide) A.Fpp)).add
    ((half_two hR hG m1 m2 m2 m1 (by decide) A.Fpd).add (half_two hR hG m2 m1 m1 m2 (by decide) A.Fpd))
  have hC := hC.add ((half_two hR hG m1 m2 m1 m2 (by decide) A.Gpd).add (half_two hR hG m2 m1 m2 m1 (by decide) A.Gpd))
  have hone : ∀ {l : ℕ} (_ : l ∈ [1, 2]) {N N' : ℤ × ℤ → ℤ × ℤ → ℂ},
      (∀ x ∈ shell l, ∀ y ∈ shell l, N' x y = N (flipState x) (flipState y)) →
      Carried (nTotal (pdSystem b)) (partnerMatrix π φ) (oneBody (position (pdSystem b)) l N) (oneBody (position (pdSystem b)) l N') := by
    intro l hl N N' h
    rw [← hopShell_oneBody, ← hopShell_oneBody]
    refine half_hop hR hl hl fun x hx y hy => ?_
    rw [h x hx y hy, pow_add, sign_sign, one_mul]
  have hF := hone m2 (N := hDotS hx hy hz) (N' := hDotS hx (-hy) (-hz)) fun x h1 y h2 =>
    (hDotS_half hx hy hz (shell_spin h1) (shell_spin h2)).symm
  have hS1 := hone m1 (N := fun x y => (A.xi2p : ℂ) * lDotS 1 x y) (N' := fun x y => (A.xi2p : ℂ) * lDotS 1 x y) fun x h1 y h2 => by
    rw [lDotS_half 1 (shell_spin h1) (shell_spin h2)]
  have hS2 := hone m2 (N := fun x y => (A.xi3d : ℂ) * lDotS 2 x y) (N' := fun x y => (A.xi3d : ℂ) * lDotS 2 x y) fun x h1 y h2 => by
    rw [lDotS_half 2 (shell_spin h1) (shell_spin h2)]
  have hO := ((hC.add hF).add hS1).add hS2
  have hN := (((shellTurn_number hT m2).smul
    ((averageUdd A.Fdd * n3d + averageUpd A.Fpd A.Gpd * 6 - A.chargeTransferCorrection : ℝ) : ℂ)).add
    ((shellTurn_number hT m1).smul ((averageUpd A.Fpd A.Gpd * (n3d + 1) - A.chargeTransferCorrection : ℝ) : ℂ))).smul (-1)
  have hA := (hO.add hN).add hh
  have e : ∀ kx ky kz v, pdHamiltonian gaunt (position (pdSystem b)) A n3d kx ky kz h0 v
      = fun F => twoBody (position (pdSystem b)) 2 2 2 2 (coulomb gaunt 2 2 2 2 A.Fdd) v F
            + twoBody (position (pdSystem b)) 1 1 1 1 (coulomb gaunt 1 1 1 1 A.Fpp) v F
            + (twoBody (position (pdSystem b)) 1 2 2 1 (coulomb gaunt 1 2 2 1 A.Fpd) v F
              + twoBody (position (pdSystem b)) 2 1 1 2 (coulomb gaunt 2 1 1 2 A.Fpd) v F)
            + (twoBody (position (pdSystem b)) 1 2 1 2 (coulomb gaunt 1 2 1 2 A.Gpd) v F
              + twoBody (position (pdSystem b)) 2 1 2 1 (coulomb gaunt 2 1 2 1 A.Gpd) v F)
          + oneBody (position (pdSystem b)) 2 (hDotS kx ky kz) v F
          + oneBody (position (pdSystem b)) 1 (fun x y => (A.xi2p : ℂ) * lDotS 1 x y) v F
          + oneBody (position (pdSystem b)) 2 (fun x y => (A.xi3d : ℂ) * lDotS 2 x y) v F
          + -1 * (((averageUdd A.Fdd * n3d + averageUpd A.Fpd A.Gpd * 6 - A.chargeTransferCorrection : ℝ) : ℂ)
              * shellNumber (position (pdSystem b)) 2 v F
            + ((averageUpd A.Fpd A.Gpd * (n3d + 1) - A.chargeTransferCorrection : ℝ) : ℂ)
              * shellNumber (position (pdSystem b)) 1 v F)
        + operator (labelSpec (position (pdSystem b)) h0) v F := by
    intro kx ky kz v
    funext F
    unfold pdHamiltonian
    ring
  intro v
  rw [e, e]
  exact hA v

/-! ### The transitions -/

theorem c1_half {gaunt : ℕ → ℕ → ℕ → ℤ → ℤ → ℤ → ℝ} (hG : GauntSymmetric gaunt) (l : ℕ) (m : ℤ) (l' : ℕ) (m' q : ℤ) :
    c1 gaunt l (-m) l' (-m') q = c1 gaunt l m l' m' (-q) := by
  rw [← c1_flip hG, c1]
  split
  · exact (star_ofReal _).symm
  · exact star_zero _ |>.symm

theorem dipole_half {gaunt : ℕ → ℕ → ℕ → ℤ → ℤ → ℤ → ℝ} (hG : GauntSymmetric gaunt) (x y z : ℂ) (l : ℕ) (m : ℤ) (l' : ℕ) (m' : ℤ) :
    dipole gaunt x y z l (-m) l' (-m') = dipole gaunt (-x) y z l m l' m' := by
  unfold dipole
  rw [c1_half hG, c1_half hG, c1_half hG, neg_neg, neg_zero]
  ring

/-- The sign of an axis. -/
def axisSign (t : ℕ) : ℂ := if t = 0 then 1 else -1

theorem axisSign_star (t : ℕ) : star (axisSign t) * axisSign t = 1 := by
  unfold axisSign
  split <;> simp

include hR in
theorem half_between {l l' : ℕ} (hl : l ∈ [1, 2]) (hl' : l' ∈ [1, 2]) {M M' : ℤ → ℤ → ℂ}
    (h : ∀ m m', M' m m' = (-1) ^ (l + l') * M (-m) (-m')) :
    Carried (nTotal (pdSystem b)) (partnerMatrix π φ) (between (position (pdSystem b)) l l' M)
      (between (position (pdSystem b)) l l' M') := by
  rw [← hopShell_between, ← hopShell_between]
  refine half_hop hR hl hl' fun x hx y hy => ?_
  unfold spinKept flipState
  dsimp only
  by_cases e : x.1 = y.1
  · rw [if_pos e, if_pos (by rw [e]), h]
  · rw [if_neg e, if_neg (by omega), mul_zero]

theorem between_scale (f : Label → ℕ) (l l' : ℕ) (c : ℂ) (M : ℤ → ℤ → ℂ) (v : Vec ℂ) :
    between f l l' (fun m m' => c * M m m') v = fun F => c * between f l l' M v F := by
  funext F
  unfold between
  simp only [mul_sum, mul_assoc]

theorem axis_dipole {gaunt : ℕ → ℕ → ℕ → ℤ → ℤ → ℤ → ℝ} (hG : GauntSymmetric gaunt) {t : ℕ} (ht : t < 3) (m m' : ℤ) :
    dipole gaunt (axisPol t).x (axisPol t).y (axisPol t).z 2 m 1 m'
      = (-1) ^ (2 + 1) * (axisSign t * dipole gaunt (axisPol t).x (axisPol t).y (axisPol t).z 2 (-m) 1 (-m')) := by
  rw [dipole_half hG]
  unfold axisPol axisSign dipole
  interval_cases t <;> simp <;> ring

include hR in
theorem half_dipolePD {gaunt : ℕ → ℕ → ℕ → ℤ → ℤ → ℤ → ℝ} (hG : GauntSymmetric gaunt) {t : ℕ} (ht : t < 3) :
    FamilyCarried (nTotal (pdSystem b)) (partnerMatrix π φ) 1 (fun _ _ => axisSign t) (fun _ => dipolePD gaunt b (axisPol t))
      fun _ => dipolePD gaunt b (axisPol t) where
  linear _ _ := between_linear _ _ _ _
  linear' _ _ := between_linear _ _ _ _
  unitary a ha a' ha' := by
    have : a = a' := by omega
    rw [sum_range_one, axisSign_star, if_pos this]
  carried c hc v := by
    simp only [sum_range_one]
    have h := half_between hR (l := 2) (l' := 1) (by simp) (by simp)
      (M := fun m m' => axisSign t * dipole gaunt (axisPol t).x (axisPol t).y (axisPol t).z 2 m 1 m')
      (M' := fun m m' => dipole gaunt (axisPol t).x (axisPol t).y (axisPol t).z 2 m 1 m') (fun m m' => axis_dipole hG ht m m') v
    rw [between_scale] at h
    exact h

include hR in
theorem half_dipoleDP {gaunt : ℕ → ℕ → ℕ → ℤ → ℤ → ℤ → ℝ} (hG : GauntSymmetric gaunt) :
    Carried (nTotal (pdSystem b)) (partnerMatrix π φ) (dipoleDP gaunt b ⟨1, 0, 0⟩) (dipoleDP gaunt b ⟨1, 0, 0⟩) := by
  refine half_between hR (by simp) (by simp) fun m' m => ?_
  rw [dipole_half hG]
  unfold dipole
  simp
  ring

end

section
variable {b : ℕ → ℕ} {P : BasisParams} {π : ℕ → ℕ} {φ : ℕ → ℂ} (hR : HalfTurn b P π φ)

include hR in
theorem half_create {l : ℕ} (hl : l ∈ [1, 2]) {j : ℕ} (hj : j < 2 * (2 * l + 1)) :
    FamilyCarried (nTotal (pdSystem b)) (partnerMatrix π φ) 1 (fun _ _ => star (φ (impStart (pdSystem b) l + j)))
      (fun _ => create (impStart (pdSystem b) l + j)) fun _ => create (impStart (pdSystem b) l + (2 * (2 * l + 1) - 1 - j)) where
  linear _ _ := create_linear _
  linear' _ _ := create_linear _
  unitary a ha a' ha' := by
    have : a = a' := by omega
    rw [sum_range_one, star_star, mul_comm, unit_star hR.unit, if_pos this]
  carried c hc v := by
    simp only [sum_range_one]
    obtain ⟨h1, h2, h3⟩ := shell_position (b := b) hj
    have hlt : impStart (pdSystem b) l + j < nTotal (pdSystem b) := by rw [h3]; exact shell_lt hl h1 h2
    have e := partner_shell (half_reversal hR) hl hj
    have h := changeOrbitals_create (u := partnerMatrix π φ) hlt v
    rw [createOrb_partner (hR.partner _ hlt).1, e] at h
    have h' : changeOrbitals (nTotal (pdSystem b)) (partnerMatrix π φ)
        (fun F => star (φ (impStart (pdSystem b) l + j)) * create (impStart (pdSystem b) l + j) v F)
        = star (φ (impStart (pdSystem b) l + j)) • changeOrbitals (nTotal (pdSystem b)) (partnerMatrix π φ)
          (create (impStart (pdSystem b) l + j) v) := (changeOrbitals_linear _ _).map_smul _ _
    rw [h', h, smul_smul, unit_star hR.unit, one_smul]

include hR in
theorem half_annihilate {l : ℕ} (hl : l ∈ [1, 2]) {j : ℕ} (hj : j < 2 * (2 * l + 1)) :
    FamilyCarried (nTotal (pdSystem b)) (partnerMatrix π φ) 1 (fun _ _ => φ (impStart (pdSystem b) l + j))
      (fun _ => annihilate (impStart (pdSystem b) l + j)) fun _ => annihilate (impStart (pdSystem b) l + (2 * (2 * l + 1) - 1 - j)) where
  linear _ _ := annihilate_linear _
  linear' _ _ := annihilate_linear _
  unitary a ha a' ha' := by
    have : a = a' := by omega
    rw [sum_range_one, unit_star hR.unit, if_pos this]
  carried c hc v := by
    simp only [sum_range_one]
    obtain ⟨h1, h2, h3⟩ := shell_position (b := b) hj
    have hlt : impStart (pdSystem b) l + j < nTotal (pdSystem b) := by rw [h3]; exact shell_lt hl h1 h2
    have e := partner_shell (half_reversal hR) hl hj
    have h := changeOrbitals_annihilate (partner_unitary hR.partner hR.unit) hlt v
    rw [annihilateOrb_partner (hR.partner _ hlt).1, e] at h
    have h' : changeOrbitals (nTotal (pdSystem b)) (partnerMatrix π φ)
        (fun F => φ (impStart (pdSystem b) l + j) * annihilate (impStart (pdSystem b) l + j) v F)
        = φ (impStart (pdSystem b) l + j) • changeOrbitals (nTotal (pdSystem b)) (partnerMatrix π φ)
          (annihilate (impStart (pdSystem b) l + j) v) := (changeOrbitals_linear _ _).map_smul _ _
    rw [h', h, smul_smul, mul_comm (φ _), unit_star hR.unit, one_smul]

end

/-! ### Crystal-field files -/

/-- The phases of the half turn: the parity of the p shell. -/
def halfPhase (i : ℕ) : ℂ := if i < 6 then -1 else 1

section
variable {n : ℕ} {π : ℕ → ℕ} {φ : ℕ → ℂ}

theorem move_add (v w : Vec ℂ) : moveElectrons n π φ (v + w) = moveElectrons n π φ v + moveElectrons n π φ w :=
  (changeOrbitals_linear _ _).map_add v w

theorem move_zero : moveElectrons n π φ 0 = 0 := (changeOrbitals_linear _ _).map_zero

theorem move_sum {ι : Type} (s : Finset ι) (c : ι → ℂ) (f : ι → Vec ℂ) :
    moveElectrons n π φ (fun F => ∑ x ∈ s, c x * f x F) = fun F => ∑ x ∈ s, c x * moveElectrons n π φ (f x) F :=
  linear_apply_sum (changeOrbitals_linear _ _) _ _ _

variable (hπ : ∀ i < n, π i < n ∧ π (π i) = i) (hφ : ∀ i, ‖φ i‖ = 1)

include hπ hφ in
theorem move_hop {i j : ℕ} (hi : i < n) (hj : j < n) (v : Vec ℂ) :
    moveElectrons n π φ (create i (annihilate j v))
      = (φ i * star (φ j)) • create (π i) (annihilate (π j) (moveElectrons n π φ v)) := by
  have h1 := changeOrbitals_create (u := partnerMatrix π φ) hi (annihilate j v)
  rw [createOrb_partner (hπ i hi).1, changeOrbitals_annihilate (partner_unitary hπ hφ) hj, annihilateOrb_partner (hπ j hj).1,
    (create_linear _).map_smul, smul_smul] at h1
  exact h1

/-- Each cubic orbital becomes itself or its negative. -/
theorem cubicD_half : ∀ i < 5, ∀ j < 5, ∀ c < 5, cubicD.val (4 - i) c * star (cubicD.val (4 - j) c) = cubicD.val i c * star (cubicD.val j c) := by
  have h : ∀ c < 5, ∃ σ : ℂ, star σ * σ = 1 ∧ ∀ i < 5, cubicD.val (4 - i) c = σ * cubicD.val i c := by
    intro c hc
    interval_cases c
    · exact ⟨1, by simp, fun i hi => by rw [cubicD_val i hi _ (by norm_num), cubicD_val (4 - i) (by omega) _ (by norm_num)]; interval_cases i <;> simp⟩
    · exact ⟨1, by simp, fun i hi => by rw [cubicD_val i hi _ (by norm_num), cubicD_val (4 - i) (by omega) _ (by norm_num)]; interval_cases i <;> simp⟩
    · exact ⟨1, by simp, fun i hi => by rw [cubicD_val i hi _ (by norm_num), cubicD_val (4 - i) (by omega) _ (by norm_num)]; interval_cases i <;> simp⟩
    · exact ⟨-1, by simp, fun i hi => by rw [cubicD_val i hi _ (by norm_num), cubicD_val (4 - i) (by omega) _ (by norm_num)]; interval_cases i <;> simp⟩
    · exact ⟨-1, by simp, fun i hi => by rw [cubicD_val i hi _ (by norm_num), cubicD_val (4 - i) (by omega) _ (by norm_num)]; interval_cases i <;> simp⟩
  intro i hi j hj c hc
  obtain ⟨σ, hσ, h⟩ := h c hc
  rw [h i hi, h j hj, star_mul']
  linear_combination cubicD.val i c * star (cubicD.val j c) * hσ

include hπ hφ in
theorem hopSum_move {p q p' q' : ℕ → ℕ} (hp : ∀ i < 5, p i < n ∧ π (p i) = p' (4 - i) ∧ φ (p i) = 1)
    (hq : ∀ i < 5, q i < n ∧ π (q i) = q' (4 - i) ∧ φ (q i) = 1) (w : ℕ → ℝ) (v : Vec ℂ) :
    moveElectrons n π φ (hopSum ⟨p, cubicD.val⟩ ⟨q, cubicD.val⟩ w v)
      = hopSum ⟨p', cubicD.val⟩ ⟨q', cubicD.val⟩ w (moveElectrons n π φ v) := by
  have key : ∀ (p q : ℕ → ℕ) (v : Vec ℂ), hopSum ⟨p, cubicD.val⟩ ⟨q, cubicD.val⟩ w v
      = fun F => ∑ x ∈ range 5 ×ˢ range 5, (∑ c ∈ range 5, (w c : ℂ) * (cubicD.val x.1 c * star (cubicD.val x.2 c))) *
        create (p x.1) (annihilate (q x.2) v) F := by
    intro p q v
    funext F
    unfold hopSum
    simp only [create_annihilate_in, mul_sum, sum_mul]
    rw [sum_product]
    conv_lhs => rw [sum_comm]
    refine sum_congr rfl fun i _ => ?_
    conv_lhs => rw [sum_comm]
    refine sum_congr rfl fun j _ => ?_
    refine sum_congr rfl fun c _ => ?_
    ring
  rw [key, key, move_sum]
  funext F
  refine sum_bij' (fun x _ => (4 - x.1, 4 - x.2)) (fun x _ => (4 - x.1, 4 - x.2)) ?_ ?_ ?_ ?_ ?_
  · intro x hx
    simp only [mem_product, mem_range] at hx ⊢
    omega
  · intro x hx
    simp only [mem_product, mem_range] at hx ⊢
    omega
  · intro x hx
    simp only [mem_product, mem_range] at hx
    refine Prod.ext ?_ ?_ <;> dsimp only <;> omega
  · intro x hx
    simp only [mem_product, mem_range] at hx
    refine Prod.ext ?_ ?_ <;> dsimp only <;> omega
  · rintro ⟨i, j⟩ hx
    simp only [mem_product, mem_range] at hx
    obtain ⟨hi, hj⟩ := hx
    obtain ⟨p1, p2, p3⟩ := hp i hi
    obtain ⟨q1, q2, q3⟩ := hq j hj
    dsimp only
    rw [move_hop hπ hφ p1 q1, p2, q2, p3, q3, star_one, mul_one, one_smul]
    congr 1
    exact sum_congr rfl fun c hc => by rw [cubicD_half i hi j hj c (mem_range.1 hc)]

end

theorem halfPhase_shell {b : ℕ → ℕ} {l : ℕ} (hl : l ∈ [1, 2]) {s m : ℤ} (hs : s ∈ ({0, 1} : Finset ℤ)) (hm : m ∈ mRange l) :
    halfPhase (position (pdSystem b) (.imp l s m)) = (-1) ^ l := by
  have hm := mem_Icc.1 hm
  simp only [mem_insert, mem_singleton] at hs
  simp only [List.mem_cons, List.not_mem_nil, or_false] at hl
  rcases hl with rfl | rfl
  · have h : position (pdSystem b) (.imp 1 s m) < 6 := by
      unfold position
      dsimp only
      rw [pd_start1]
      push_cast at hm
      rcases hs with rfl | rfl <;> simp <;> omega
    unfold halfPhase
    rw [if_pos h, pow_one]
  · have h : ¬ position (pdSystem b) (.imp 2 s m) < 6 := by
      unfold position
      dsimp only
      rw [pd_start2]
      omega
    unfold halfPhase
    rw [if_neg h]
    norm_num

theorem halfPhase_unit (i : ℕ) : ‖halfPhase i‖ = 1 := by
  unfold halfPhase
  split <;> simp

/-- The half turn with the same partners as time reversal. -/
theorem reversal_half {b : ℕ → ℕ} {P : BasisParams} {π : ℕ → ℕ} {φ : ℕ → ℂ} (hR : TimeReversal b P π φ) : HalfTurn b P π halfPhase where
  shell l hl s hs m hm := ⟨(hR.shell l hl s hs m hm).1, halfPhase_shell hl hs hm⟩
  partner := hR.partner
  unit := halfPhase_unit
  bath := hR.bath

theorem cf_halfTurn {b : ℕ → ℕ} {P : BasisParams} (hv : P.val 2 = 10) (hb : b 2 = 10 ∨ b 2 = 20) (hv1 : P.val 1 ≤ b 1) :
    HalfTurn b P (cfPartner (b 1)) halfPhase := reversal_half (cf_timeReversal hv hb hv1)

/-- The operator of a crystal-field file is invariant under the half turn. -/
theorem cf_half_invariant {b : ℕ → ℕ} {P : BasisParams} {C : CFParams} {h0 : Op Label ℂ} (hv : P.val 2 = 10) (hb : b 2 = 10 ∨ b 2 = 20)
    (hv1 : P.val 1 ≤ b 1)
    (h : getCFHamiltonian [(1, b 1), (2, b 2)] [(1, P.val 1), (2, P.val 2)] C "spherical" = .ok h0) (v : Vec ℂ) :
    operator (labelSpec (position (pdSystem b)) h0) (moveElectrons (nTotal (pdSystem b)) (cfPartner (b 1)) halfPhase v)
      = moveElectrons (nTotal (pdSystem b)) (cfPartner (b 1)) halfPhase (operator (labelSpec (position (pdSystem b)) h0) v) := by
  obtain ⟨h0', u, eg, t2g, e, hu, -, -, -, -, -, hm⟩ := C53_meaning (nBaths := [(1, b 1), (2, b 2)])
    (nValBaths := [(1, P.val 1), (2, P.val 2)]) C (b 2) (P.val 2) rfl rfl (Or.inl (rfl : "spherical" = "spherical"))
  obtain rfl := Except.ok.inj (h.symm.trans e)
  obtain rfl : cubicD = u := Except.ok.inj hu
  have hR := cf_halfTurn hv hb hv1
  have hspin : ∀ s ∈ ({0, 1} : Finset ℤ), s = 0 ∨ s = 1 := fun s hs => by simpa using hs
  let n := nTotal (pdSystem b)
  let R := moveElectrons n (cfPartner (b 1)) halfPhase
  let f := position (pdSystem b)
  have hd : ∀ s ∈ ({0, 1} : Finset ℤ), ∀ i < 5, (dOrbitals f cubicD.val s).pos i < n ∧
      cfPartner (b 1) ((dOrbitals f cubicD.val s).pos i) = (dOrbitals f cubicD.val (1 - s)).pos (4 - i) ∧
      halfPhase ((dOrbitals f cubicD.val s).pos i) = 1 := by
    intro s hs i hi
    have hm : (i : ℤ) - 2 ∈ mRange 2 := Finset.mem_Icc.2 ⟨by push_cast; omega, by push_cast; omega⟩
    have h1 := hR.shell 2 (by simp) s hs _ hm
    refine ⟨shell_lt (by simp) hs hm, h1.1.trans ?_, h1.2.trans ?_⟩
    · show position (pdSystem b) _ = position (pdSystem b) (.imp 2 (1 - s) (((4 - i : ℕ) : ℤ) - 2))
      congr 2
      omega
    · norm_num
  have hbath : ∀ c : ℤ, (c = 0 ∨ (c = 10 ∧ b 2 = 20)) → ∀ s ∈ ({0, 1} : Finset ℤ), ∀ i < 5,
      (bathOrbitals f cubicD.val (c + 5 * s)).pos i < n ∧
      cfPartner (b 1) ((bathOrbitals f cubicD.val (c + 5 * s)).pos i)
        = (bathOrbitals f cubicD.val (c + 5 * (1 - s))).pos (4 - i) ∧
      halfPhase ((bathOrbitals f cubicD.val (c + 5 * s)).pos i) = 1 := by
    intro c hc s hs i hi
    have hs' := hspin s hs
    have e : ∀ k : ℤ, f (.bath (.int 2) k) = 16 + b 1 + k.toNat := fun k => by
      show bathStart (pdSystem b) (.int 2) + k.toNat = _
      rw [pd_bath2]
    show f (.bath (.int 2) _) < n ∧ cfPartner _ (f (.bath (.int 2) _)) = f (.bath (.int 2) _) ∧ halfPhase (f (.bath (.int 2) _)) = _
    simp only [e]
    refine ⟨?_, ?_, ?_⟩
    · show _ < nTotal (pdSystem b)
      rw [pd_total]
      omega
    · unfold cfPartner
      rw [if_neg (by omega), if_neg (by omega), if_neg (by omega)]
      omega
    · unfold halfPhase
      rw [if_neg (by omega)]
  have hflip : ∀ g : ℤ → Vec ℂ, ∑ s ∈ ({0, 1} : Finset ℤ), g (1 - s) = ∑ s ∈ ({0, 1} : Finset ℤ), g s := by
    intro g
    rw [sum_pair (by decide), sum_pair (by decide)]
    show g 1 + g 0 = _
    rw [add_comm]
  have hadd : ∀ x y, R (x + y) = R x + R y := fun x y => move_add x y
  have hRsum : ∀ g : ℤ → Vec ℂ, R (∑ s ∈ ({0, 1} : Finset ℤ), g s) = ∑ s ∈ ({0, 1} : Finset ℤ), R (g s) := by
    intro g
    rw [sum_pair (by decide), sum_pair (by decide)]
    exact move_add _ _
  have hterms : ∀ c : ℤ, (c = 0 ∨ (c = 10 ∧ b 2 = 20)) → ∀ (e1 e2 w1 w2 : ℝ) ,
      R (bathTerms f cubicD.val cubicD.val (fun s => c + 5 * s) (egT2g e1 e2) (egT2g w1 w2) v)
      = bathTerms f cubicD.val cubicD.val (fun s => c + 5 * s) (egT2g e1 e2) (egT2g w1 w2) (R v) := by
    intro c hc e1 e2 w1 w2
    have k1 : ∀ v, bathTerms f cubicD.val cubicD.val (fun s => c + 5 * s) (egT2g e1 e2) (egT2g w1 w2) v
        = ∑ s ∈ ({0, 1} : Finset ℤ),
          (hopSum (bathOrbitals f cubicD.val (c + 5 * s)) (bathOrbitals f cubicD.val (c + 5 * s)) (egT2g e1 e2) v
          + (hopSum (bathOrbitals f cubicD.val (c + 5 * s)) (dOrbitals f cubicD.val s) (egT2g w1 w2) v
            + hopSum (dOrbitals f cubicD.val s) (bathOrbitals f cubicD.val (c + 5 * s)) (egT2g w1 w2) v)) := by
      intro v
      funext F
      rw [Finset.sum_apply]
      rfl
    rw [k1, k1, hRsum]
    refine Eq.trans (sum_congr rfl fun s hs => ?_) (hflip _)
    have r1 : R (hopSum (bathOrbitals f cubicD.val (c + 5 * s)) (bathOrbitals f cubicD.val (c + 5 * s)) (egT2g e1 e2) v)
        = hopSum (bathOrbitals f cubicD.val (c + 5 * (1 - s))) (bathOrbitals f cubicD.val (c + 5 * (1 - s))) (egT2g e1 e2) (R v) :=
      hopSum_move hR.partner hR.unit (hbath c hc s hs) (hbath c hc s hs) (egT2g e1 e2) v
    have r2 : R (hopSum (bathOrbitals f cubicD.val (c + 5 * s)) (dOrbitals f cubicD.val s) (egT2g w1 w2) v)
        = hopSum (bathOrbitals f cubicD.val (c + 5 * (1 - s))) (dOrbitals f cubicD.val (1 - s)) (egT2g w1 w2) (R v) :=
      hopSum_move hR.partner hR.unit (hbath c hc s hs) (hd s hs) (egT2g w1 w2) v
    have r3 : R (hopSum (dOrbitals f cubicD.val s) (bathOrbitals f cubicD.val (c + 5 * s)) (egT2g w1 w2) v)
        = hopSum (dOrbitals f cubicD.val (1 - s)) (bathOrbitals f cubicD.val (c + 5 * (1 - s))) (egT2g w1 w2) (R v) :=
      hopSum_move hR.partner hR.unit (hd s hs) (hbath c hc s hs) (egT2g w1 w2) v
    rw [hadd, hadd, r1, r2, r3]
  have h1 : R (fun F => ∑ s ∈ ({0, 1} : Finset ℤ), hopSum (dOrbitals f cubicD.val s) (dOrbitals f cubicD.val s) (egT2g eg t2g) v F)
      = fun F => ∑ s ∈ ({0, 1} : Finset ℤ), hopSum (dOrbitals f cubicD.val s) (dOrbitals f cubicD.val s) (egT2g eg t2g) (R v) F := by
    have k1 : ∀ v, (fun F => ∑ s ∈ ({0, 1} : Finset ℤ), hopSum (dOrbitals f cubicD.val s) (dOrbitals f cubicD.val s) (egT2g eg t2g) v F)
        = ∑ s ∈ ({0, 1} : Finset ℤ), hopSum (dOrbitals f cubicD.val s) (dOrbitals f cubicD.val s) (egT2g eg t2g) v := by
      intro v
      funext F
      rw [Finset.sum_apply]
    refine (congrArg R (k1 v)).trans (Eq.trans ?_ (k1 (R v)).symm)
    rw [hRsum]
    refine Eq.trans (sum_congr rfl fun s hs => ?_) (hflip _)
    exact hopSum_move hR.partner hR.unit (hd s hs) (hd s hs) (egT2g eg t2g) v
  have h2 := hterms 0 (Or.inl rfl)
  simp only [zero_add] at h2
  have hc : ¬ ("spherical" = "cubic") := by decide
  have hop : ∀ v, operator (labelSpec f h0) v
      = (fun F => ∑ s ∈ ({0, 1} : Finset ℤ), hopSum (dOrbitals f cubicD.val s) (dOrbitals f cubicD.val s) (egT2g eg t2g) v F)
        + bathTerms f cubicD.val cubicD.val (fun s => 5 * s) (egT2g C.eValEg C.eValT2g) (egT2g C.vValEg C.vValT2g) v
        + if (b 2 : ℤ) - P.val 2 = 10 then bathTerms f cubicD.val cubicD.val (fun s => 10 + 5 * s) (egT2g C.eConEg C.eConT2g)
          (egT2g C.vConEg C.vConT2g) v else 0 := by
    intro v
    funext F
    rw [hm _ (fun _ => rfl) (fun h => absurd h hc)]
    rw [Pi.add_apply, Pi.add_apply]
    congr 1
    split <;> rfl
  show operator (labelSpec f h0) (R v) = R (operator (labelSpec f h0) v)
  rw [hop, hop]
  rw [hadd, hadd, h1, h2]
  congr 1
  split
  · rename_i h10
    exact (hterms 10 (Or.inr ⟨rfl, by omega⟩) _ _ _ _).symm
  · exact move_zero.symm


end

end Verif
