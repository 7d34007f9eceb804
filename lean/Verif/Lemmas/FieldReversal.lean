/-
Time reversal of transitions between two shells.
-/
import Verif.Lemmas.TimeReversalShell
import Verif.Lemmas.TurnRun
import Verif.Spec.FieldReversal

namespace Verif

open Finset Spec

noncomputable section

section
variable {b : ℕ → ℕ} {P : BasisParams} {π : ℕ → ℕ} {φ : ℕ → ℂ} (hR : TimeReversal b P π φ)

include hR in
/-- Time reversal of a spin conserving operator between two shells. -/
theorem reverse_between {li lj : ℕ} (hi : li ∈ [1, 2]) (hj : lj ∈ [1, 2]) (M : ℤ → ℤ → ℂ) (v : Vec ℂ) :
    reverse (nTotal (pdSystem b)) π φ (between (position (pdSystem b)) li lj M v)
      = between (position (pdSystem b)) li lj (fun m m' => (-1) ^ (m + m') * star (M (-m) (-m')))
        (reverse (nTotal (pdSystem b)) π φ v) := by
  have key : ∀ (M : ℤ → ℤ → ℂ) (v : Vec ℂ), between (position (pdSystem b)) li lj M v
      = fun F => ∑ x ∈ ({0, 1} : Finset ℤ) ×ˢ (mRange li ×ˢ mRange lj), M x.2.1 x.2.2 *
        create (position (pdSystem b) (.imp li x.1 x.2.1)) (annihilate (position (pdSystem b) (.imp lj x.1 x.2.2)) v) F := by
    intro M v
    funext F
    unfold between
    rw [sum_product]
    refine sum_congr rfl fun s _ => ?_
    rw [sum_product]
  rw [key, key, reverse_sum]
  funext F
  refine sum_bij' (fun x _ => (1 - x.1, (-x.2.1, -x.2.2))) (fun x _ => (1 - x.1, (-x.2.1, -x.2.2)))
    (fun x hx => ?_) (fun x hx => ?_) (fun x _ => ?_) (fun x _ => ?_) fun x hx => ?_
  · obtain ⟨h1, h2⟩ := Finset.mem_product.1 hx
    obtain ⟨h3, h4⟩ := Finset.mem_product.1 h2
    exact Finset.mem_product.2 ⟨flip_spin h1, Finset.mem_product.2 ⟨flip_m h3, flip_m h4⟩⟩
  · obtain ⟨h1, h2⟩ := Finset.mem_product.1 hx
    obtain ⟨h3, h4⟩ := Finset.mem_product.1 h2
    exact Finset.mem_product.2 ⟨flip_spin h1, Finset.mem_product.2 ⟨flip_m h3, flip_m h4⟩⟩
  · simp only [sub_sub_cancel, neg_neg]
  · simp only [sub_sub_cancel, neg_neg]
  · obtain ⟨h1, h2⟩ := Finset.mem_product.1 hx
    obtain ⟨h3, h4⟩ := Finset.mem_product.1 h2
    rw [reverse_hop hR.partner hR.unit (shell_lt hi h1 h3) (shell_lt hj h1 h4), (hR.shell li hi _ h1 _ h3).1,
      (hR.shell li hi _ h1 _ h3).2, (hR.shell lj hj _ h1 _ h4).1, (hR.shell lj hj _ h1 _ h4).2, Pi.smul_apply, smul_eq_mul, ← mul_assoc]
    congr 1
    dsimp only
    rw [neg_neg, neg_neg, star_neg_one_zpow, ← zpow_add₀ (by norm_num : (-1 : ℂ) ≠ 0), mul_comm]
    congr 1
    exact neg_one_zpow_congr (by omega)

end

theorem c1_flip {gaunt : ℕ → ℕ → ℕ → ℤ → ℤ → ℤ → ℝ} (hG : GauntSymmetric gaunt) (l : ℕ) (m : ℤ) (l' : ℕ) (m' q : ℤ) :
    star (c1 gaunt l (-m) l' (-m') q) = c1 gaunt l m l' m' (-q) := by
  unfold c1
  by_cases h : m - m' = -q
  · rw [if_pos h, if_pos (by omega), star_ofReal, ck_flip hG]
  · rw [if_neg h, if_neg (by omega), star_zero]

/-- Linear polarisations do not change. -/
theorem dipole_flip {gaunt : ℕ → ℕ → ℕ → ℤ → ℤ → ℤ → ℝ} (hG : GauntSymmetric gaunt) {x y z : ℂ} (hx : star x = x) (hy : star y = y)
    (hz : star z = z) (l : ℕ) (m : ℤ) (l' : ℕ) (m' : ℤ) :
    (-1) ^ (m + m') * star (dipole gaunt x y z l (-m) l' (-m')) = dipole gaunt x y z l m l' m' := by
  have hI : star Complex.I = -Complex.I := Complex.conj_I
  unfold dipole
  rw [star_add, star_add, star_mul', star_mul', star_mul', star_div₀, star_div₀, star_sub, star_mul', star_add, star_ofReal, hI,
    hx, hy, hz, c1_flip hG, c1_flip hG, c1_flip hG, neg_neg, neg_zero]
  by_cases h0 : m - m' = 0
  · rw [neg_one_zpow_even (by omega)]
    unfold c1
    rw [if_neg (by omega : ¬ m - m' = 1), if_neg (by omega : ¬ m - m' = -1)]
    ring
  · have h1 : c1 gaunt l m l' m' 0 = 0 := if_neg h0
    rw [h1]
    by_cases h2 : m - m' = 1 ∨ m - m' = -1
    · rw [neg_one_zpow_congr (k' := 1) (by omega)]
      ring
    · unfold c1
      rw [if_neg fun h => h2 (.inl h), if_neg fun h => h2 (.inr h)]
      ring

theorem reverse_dipole {b : ℕ → ℕ} {P : BasisParams} {π : ℕ → ℕ} {φ : ℕ → ℂ} (hR : TimeReversal b P π φ)
    {gaunt : ℕ → ℕ → ℕ → ℤ → ℤ → ℤ → ℝ} (hG : GauntSymmetric gaunt) {ε : Vec3 ℂ} (hx : star ε.x = ε.x) (hy : star ε.y = ε.y)
    (hz : star ε.z = ε.z) (v : Vec ℂ) :
    reverse (nTotal (pdSystem b)) π φ (dipolePD gaunt b ε v) = dipolePD gaunt b ε (reverse (nTotal (pdSystem b)) π φ v) := by
  unfold dipolePD
  rw [reverse_between hR (by simp) (by simp)]
  simp only [dipole_flip hG hx hy hz]

/-- A plane wave is reversed, which makes no difference within one shell. -/
theorem planeWave_flip {gaunt : ℕ → ℕ → ℕ → ℤ → ℤ → ℤ → ℝ} (hG : GauntSymmetric gaunt) (hr : GauntRules gaunt)
    {Y : ℤ → ℕ → ℝ → ℝ → ℂ} (hY : HarmonicsSymmetric Y) {R : ℕ → ℂ} (hR : ∀ k, star (R k) = R k) (θ φ : ℝ) (kmin K l : ℕ) (m m' : ℤ) :
    (-1) ^ (m + m') * star (planeWave gaunt Y R θ φ kmin K l (-m) l (-m')) = planeWave gaunt Y R θ φ kmin K l m l m' := by
  unfold planeWave
  rw [star_sum, mul_sum]
  refine sum_congr rfl fun k _ => ?_
  have hI : star Complex.I = -Complex.I := Complex.conj_I
  have hy : yElement gaunt k l (-m) l (-m') = yElement gaunt k l m l m' := by
    unfold yElement
    rw [show -m - -m' = -(m - m') by ring, hG.flip, zpow_neg, ← inv_zpow, inv_neg_one]
  rcases Nat.even_or_odd k with hk | hk
  · rw [hY (m - m'), star_mul', star_mul', star_mul', star_mul', star_mul', star_pow, hI, hk.neg_pow, hR, star_star, star_ofReal,
      star_ofReal, hy, show -m - -m' = -(m - m') by ring, neg_one_zpow_congr (k := m + m') (k' := m - m') (by omega),
      show star (4 : ℂ) = 4 by simp]
    ring
  · have h0 : yElement gaunt k l m l m' = 0 := by
      unfold yElement
      rw [hr.odd _ _ _ _ _ _ (by obtain ⟨j, rfl⟩ := hk; omega), mul_zero]
    rw [hy, h0, Complex.ofReal_zero, mul_zero, star_zero, mul_zero, mul_zero]

theorem radialIntegral_real (jn : ℕ → ℝ → ℝ) (R : List (ℝ × ℝ)) (r : List ℝ) (q : ℝ) (k : ℕ) :
    star (radialIntegral jn (R.map fun p => (p.2 : ℂ)) (R.map fun p => (p.2 : ℂ)) r q k)
      = radialIntegral jn (R.map fun p => (p.2 : ℂ)) (R.map fun p => (p.2 : ℂ)) r q k := by
  have hg : ∀ i, (R.map fun p => (p.2 : ℂ)).getD i 0 = (((R.getD i (0, 0)).2 : ℝ) : ℂ) := by
    intro i
    rw [show (0 : ℂ) = (fun p : ℝ × ℝ => (p.2 : ℂ)) (0, 0) by simp, List.getD_map]
  unfold radialIntegral trapezoid
  simp only [hg]
  simp [star_sum]

theorem reverse_planeWave {b : ℕ → ℕ} {P : BasisParams} {π : ℕ → ℕ} {φ : ℕ → ℂ} (hR : TimeReversal b P π φ) {S : SimulateArgs}
    (hG : GauntSymmetric S.gaunt) (hr : GauntRules S.gaunt) (hY : HarmonicsSymmetric S.sphHarm) {R : List (ℝ × ℝ)}
    (hi : S.RiNIXS = R.map fun p => (p.2 : ℂ)) (hj : S.RjNIXS = R.map fun p => (p.2 : ℂ)) (q : ℝ) (v : Vec ℂ) :
    reverse (nTotal (pdSystem b)) π φ (planeWaveDD S b q v) = planeWaveDD S b q (reverse (nTotal (pdSystem b)) π φ v) := by
  have h : ∀ v, planeWaveDD S b q v = ((Real.sqrt (4 * Real.pi) : ℝ) : ℂ)⁻¹ • between (position (pdSystem b)) 2 2 (fun m m' =>
    planeWave S.gaunt S.sphHarm (radialIntegral S.jn S.RiNIXS S.RjNIXS S.radialMesh q) (Real.arccos (1 / Real.sqrt 3))
      (Real.pi / 4) 1 4 2 m 2 m') v := fun v => rfl
  rw [h, h, reverse_smul, reverse_between hR (by simp) (by simp), star_inv₀, star_ofReal]
  simp only [planeWave_flip hG hr hY (R := radialIntegral S.jn S.RiNIXS S.RjNIXS S.radialMesh q)
    (by rw [hi, hj]; exact radialIntegral_real _ _ _ _)]

end

end Verif
